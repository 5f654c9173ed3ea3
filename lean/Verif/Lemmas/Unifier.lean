/-
Lemmas about the unifier: every map is solved with respect to the output map, and every step refines the
previous state.
-/
import Verif.Spec.Unification
import Verif.Lemmas.VariableMap
import Verif.Lemmas.Specialize
namespace Acorn

open Spec Term

/-! Substitution by maps. -/

theorem apply_comp {m1 m2 m3 : VMap} {t : Term}
    (h : ∀ j, t.hasVar j = true → m2.apply (m1.apply (.fvar j)) = m3.apply (.fvar j)) :
    m2.apply (m1.apply t) = m3.apply t := by
  induction t with
  | atom a =>
    cases a with
    | fvar i => exact h i (hv_fvar.2 rfl)
    | _ => rfl
  | app f a ihf iha =>
    simp only [VMap.apply]
    rw [ihf (fun i hi => h i (hv_app.2 (.inl hi))), iha (fun i hi => h i (hv_app.2 (.inr hi)))]
  | bind b f a ihf iha =>
    simp only [VMap.apply]
    rw [ihf (fun i hi => h i (hv_bind.2 (.inl hi))), iha (fun i hi => h i (hv_bind.2 (.inr hi)))]

theorem apply_same {m m' : VMap} {t : Term} (h : ∀ j, t.hasVar j = true → m.get j = m'.get j) :
    m.apply t = m'.apply t := by
  induction t with
  | atom a =>
    cases a with
    | fvar i => simp only [VMap.apply]; rw [h i (hv_fvar.2 rfl)]
    | _ => rfl
  | app f a ihf iha =>
    simp only [VMap.apply]
    rw [ihf (fun i hi => h i (hv_app.2 (.inl hi))), iha (fun i hi => h i (hv_app.2 (.inr hi)))]
  | bind b f a ihf iha =>
    simp only [VMap.apply]
    rw [ihf (fun i hi => h i (hv_bind.2 (.inl hi))), iha (fun i hi => h i (hv_bind.2 (.inr hi)))]

theorem apply_none {m : VMap} {t : Term} (h : ∀ j, t.hasVar j = true → m.get j = none) :
    m.apply t = t := by
  induction t with
  | atom a =>
    cases a with
    | fvar i => simp only [VMap.apply]; rw [h i (hv_fvar.2 rfl)]; rfl
    | _ => rfl
  | app f a ihf iha =>
    simp only [VMap.apply]
    rw [ihf (fun i hi => h i (hv_app.2 (.inl hi))), iha (fun i hi => h i (hv_app.2 (.inr hi)))]
  | bind b f a ihf iha =>
    simp only [VMap.apply]
    rw [ihf (fun i hi => h i (hv_bind.2 (.inl hi))), iha (fun i hi => h i (hv_bind.2 (.inr hi)))]

theorem hasVar_apply {m : VMap} {t : Term} {k : Nat} (h : (m.apply t).hasVar k = true) :
    ∃ j, t.hasVar j = true ∧ (m.apply (.fvar j)).hasVar k = true := by
  induction t with
  | atom a =>
    cases a with
    | fvar i => exact ⟨i, hv_fvar.2 rfl, h⟩
    | _ => simp [VMap.apply, hasVar, atoms] at h
  | app f a ihf iha =>
    simp only [VMap.apply] at h
    rcases hv_app.1 h with h | h
    · obtain ⟨j, h1, h2⟩ := ihf h; exact ⟨j, hv_app.2 (.inl h1), h2⟩
    · obtain ⟨j, h1, h2⟩ := iha h; exact ⟨j, hv_app.2 (.inr h1), h2⟩
  | bind b f a ihf iha =>
    simp only [VMap.apply] at h
    rcases hv_bind.1 h with h | h
    · obtain ⟨j, h1, h2⟩ := ihf h; exact ⟨j, hv_bind.2 (.inl h1), h2⟩
    · obtain ⟨j, h1, h2⟩ := iha h; exact ⟨j, hv_bind.2 (.inr h1), h2⟩

theorem get_nil (j : Nat) : VMap.get [] j = none := by simp [VMap.get]

theorem replaceVar_eq_apply (id : Nat) (u t : Term) : Term.replaceVar id u t = VMap.apply (setSlot [] id u) t := by
  induction t with
  | atom a =>
    cases a with
    | fvar i =>
      simp only [VMap.apply, VMap.get_set, get_nil, replaceVar]
      split <;> simp_all
    | _ => rfl
  | app f a ihf iha => simp only [VMap.apply, replaceVar, ihf, iha]
  | bind b f a ihf iha => simp only [VMap.apply, replaceVar, ihf, iha]

theorem get_map (m : VMap) (f : Term → Term) (j : Nat) :
    VMap.get (m.map (Option.map f)) j = (m.get j).map f := by
  simp only [VMap.get, List.getElem?_map]
  cases m[j]? with
  | none => rfl
  | some o => cases o <;> rfl

theorem get_push (m : VMap) (j : Nat) : VMap.get (m ++ [none]) j = m.get j := by
  simp only [VMap.get]
  by_cases h : j < m.length
  · rw [List.getElem?_append_left h]
  · rw [List.getElem?_append_right (by omega), List.getElem?_eq_none (by omega : m.length ≤ j)]
    cases hj : j - m.length with
    | zero => rfl
    | succ n => simp

theorem get_length {m : VMap} {j : Nat} (h : m.length ≤ j) : m.get j = none := by
  simp [VMap.get, List.getElem?_eq_none h]

/-! The relation between the two instances. -/

theorem Spec.Unified.refl (t : Term) : Unified t t := by
  induction t with
  | atom a => exact .atom a
  | app f a hf ha => exact .app hf ha
  | bind b f a hf ha => exact .bind b hf ha

theorem Spec.Unified.symm {s t : Term} (h : Unified s t) : Unified t s := by
  induction h with
  | atom a => exact .atom a
  | classType m l => exact .typeClass m l
  | typeClass m l => exact .classType m l
  | app _ _ h1 h2 => exact .app h1 h2
  | bind c _ _ h1 h2 => exact .bind c h1 h2
  | swap _ _ _ h1 h2 h3 => exact .swap h1 h3 h2

theorem Spec.Unified.apply (m : VMap) {s t : Term} (h : Unified s t) : Unified (m.apply s) (m.apply t) := by
  induction h with
  | atom a => exact .refl _
  | classType k l => exact .classType k l
  | typeClass k l => exact .typeClass k l
  | app _ _ h1 h2 => exact .app h1 h2
  | bind c _ _ h1 h2 => exact .bind c h1 h2
  | swap _ _ _ h1 h2 h3 => exact .swap h1 h2 h3

/-- Without sorts to confuse, only sides of equality terms are swapped. -/
theorem Spec.Unified.eqSwap {s t : Term} (h : Unified s t)
    (hs : ∀ a ∈ s.atoms, a ≠ .sym .type0 ∧ ∀ m l, a ≠ .sym (.typeclass m l)) : EqSwap s t := by
  induction h with
  | atom a => exact .atom a
  | classType m l => exact absurd rfl ((hs _ (by simp [atoms])).2 m l)
  | typeClass m l => exact absurd rfl (hs _ (by simp [atoms])).1
  | app _ _ h1 h2 =>
    exact .app (h1 (fun a ha => hs a (by simp [atoms, ha]))) (h2 (fun a ha => hs a (by simp [atoms, ha])))
  | bind c _ _ h1 h2 =>
    exact .bind c (h1 (fun a ha => hs a (by simp [atoms, ha]))) (h2 (fun a ha => hs a (by simp [atoms, ha])))
  | swap _ _ _ h1 h2 h3 =>
    exact .swap (h1 (fun a ha => hs a (by simp [atoms, ha]))) (h2 (fun a ha => hs a (by simp [atoms, ha])))
      (h3 (fun a ha => hs a (by simp [atoms, ha])))

namespace Unifier

/-- The instance of a term of a scope. -/
abbrev ap (st : UState) (s : Nat) (t : Term) : Term := (st.maps s).apply t

/-- Every bound term is closed and mentions only unbound output variables. -/
def Solved (st : UState) : Prop :=
  ∀ s i t, (st.maps s).get i = some t →
    t.escapes = false ∧ ∀ j, t.hasVar j = true → (st.maps 0).get j = none

/-- Bound variables stay bound, to an instance of what they were bound to. -/
structure Refines (st st' : UState) : Prop where
  inputs : st'.inputs = st.inputs
  keep : ∀ s i t, (st.maps s).get i = some t → (st'.maps s).get i = some (ap st' 0 t)

/-- All variables of a term are bound, if it is not an output term. -/
def Cov (st : UState) (s : Nat) (t : Term) : Prop := s ≠ 0 → Covered (st.maps s) t

theorem Solved.fix {st : UState} (h : Solved st) {s i : Nat} {t : Term}
    (e : (st.maps s).get i = some t) : ap st 0 t = t := apply_none (h s i t e).2

theorem Solved.closed {st : UState} (h : Solved st) (s : Nat) : MapClosed (st.maps s) :=
  fun i t e => (h s i t e).1

theorem Refines.refl {st : UState} (h : Solved st) : Refines st st :=
  ⟨rfl, fun s i t e => by rw [e, h.fix e]⟩

theorem Refines.ap_var {st st' : UState} (h : Refines st st') (s j : Nat)
    (hc : s ≠ 0 → ((st.maps s).get j).isSome = true) : ap st' 0 (ap st s (.fvar j)) = ap st' s (.fvar j) := by
  cases e : (st.maps s).get j with
  | none =>
    by_cases hs : s = 0
    · subst hs; simp [ap, VMap.apply, e]
    · have := hc hs; rw [e] at this; cases this
  | some t =>
    have := h.keep s j t e
    simp [ap, VMap.apply, e, this]

/-- The later instance of a term is the later instance of the earlier one. -/
theorem Refines.ap {st st' : UState} (h : Refines st st') {s : Nat} {t : Term} (hc : Cov st s t) :
    ap st' 0 (ap st s t) = ap st' s t :=
  apply_comp fun j hj => h.ap_var s j fun hs => hc hs j hj

theorem Refines.trans {a b c : UState} (h : Refines a b) (h' : Refines b c) : Refines a c := by
  refine ⟨h'.inputs.trans h.inputs, fun s i t e => ?_⟩
  rw [h'.keep s i _ (h.keep s i t e)]
  congr 1
  exact h'.ap (s := 0) (fun h => absurd rfl h)

theorem Cov.mono {st st' : UState} (h : Refines st st') {s : Nat} {t : Term} (hc : Cov st s t) :
    Cov st' s t := by
  intro hs i hi
  obtain ⟨u, hu⟩ := Option.isSome_iff_exists.1 (hc hs i hi)
  rw [h.keep s i u hu]; rfl

theorem Cov.zero (st : UState) (t : Term) : Cov st 0 t := fun h => absurd rfl h

theorem Refines.unified {st st' : UState} (h : Refines st st') {s1 s2 : Nat} {t1 t2 : Term}
    (c1 : Cov st s1 t1) (c2 : Cov st s2 t2) (u : Unified (Unifier.ap st s1 t1) (Unifier.ap st s2 t2)) :
    Unified (Unifier.ap st' s1 t1) (Unifier.ap st' s2 t2) := by
  rw [← h.ap c1, ← h.ap c2]; exact u.apply _

/-- The variables of an instance are unbound output variables. -/
theorem Solved.vars {st : UState} (h : Solved st) {s : Nat} {t : Term} (hc : Cov st s t) {k : Nat}
    (hk : (ap st s t).hasVar k = true) : (st.maps 0).get k = none := by
  obtain ⟨j, hj, hjk⟩ := hasVar_apply hk
  cases e : (st.maps s).get j with
  | some u =>
    simp only [VMap.apply, e, Option.getD_some] at hjk
    exact (h s j u e).2 k hjk
  | none =>
    by_cases hs : s = 0
    · subst hs
      simp only [VMap.apply, e, Option.getD_none] at hjk
      rw [hv_fvar] at hjk; subst hjk; exact e
    · have := hc hs j hj; rw [e] at this; cases this

/-! `apply` -/

theorem setMap_get (st : UState) (s i : Nat) (t : Term) (s' j : Nat) :
    ((setMap st s i t).maps s').get j = if s' = s ∧ j = i then some t else (st.maps s').get j := by
  by_cases hs : s' = s
  · subst hs; simp [setMap, VMap.get_set]
  · simp [setMap, hs]

theorem pushNone_get (st : UState) (s j : Nat) : ((pushNone st).maps s).get j = (st.maps s).get j := by
  by_cases hs : s = 0
  · subst hs; simp [pushNone, get_push]
  · simp [pushNone, hs]

/-- Binding an unbound variable of an input scope to a solved term. -/
theorem solved_setMap {st : UState} (h : Solved st) {s i : Nat} {t : Term} (hs : s ≠ 0)
    (hf : (st.maps s).get i = none) (ht : t.escapes = false)
    (hv : ∀ j, t.hasVar j = true → (st.maps 0).get j = none) :
    Solved (setMap st s i t) ∧ Refines st (setMap st s i t) := by
  have h0 : ∀ j, ((setMap st s i t).maps 0).get j = (st.maps 0).get j := by
    intro j; rw [setMap_get, if_neg]; exact fun h => hs h.1.symm
  refine ⟨?_, rfl, ?_⟩
  · intro s' j u e
    rw [setMap_get] at e
    split at e
    · cases e; exact ⟨ht, fun j hj => by rw [h0]; exact hv j hj⟩
    · exact ⟨(h s' j u e).1, fun k hk => by rw [h0]; exact (h s' j u e).2 k hk⟩
  · intro s' j u e
    rw [setMap_get, if_neg, e]
    · congr 1
      exact ((apply_same fun k _ => h0 k).trans (h.fix e)).symm
    · rintro ⟨rfl, rfl⟩; rw [hf] at e; cases e

theorem solved_pushNone {st : UState} (h : Solved st) : Solved (pushNone st) ∧ Refines st (pushNone st) := by
  refine ⟨fun s i t e => ?_, rfl, fun s i t e => ?_⟩
  · rw [pushNone_get] at e
    exact ⟨(h s i t e).1, fun j hj => by rw [pushNone_get]; exact (h s i t e).2 j hj⟩
  · rw [pushNone_get, e]
    congr 1
    exact ((apply_same fun k _ => pushNone_get st 0 k).trans (h.fix e)).symm

theorem solved_out {st : UState} (Γ : LCtx) (h : Solved st) :
    Solved { st with out := Γ } ∧ Refines st { st with out := Γ } :=
  ⟨h, rfl, (Refines.refl h).keep⟩

/-- What `apply` does. -/
structure Applied (st st' : UState) (s : Nat) (t t' : Term) : Prop where
  solved : Solved st'
  refines : Refines st st'
  eq : t' = ap st' s t
  cov : Cov st' s t
  out : ∀ j, (st'.maps 0).get j = (st.maps 0).get j
  same : s = 0 → st' = st

theorem apply_spec (n : Nat) : ∀ {st st' : UState} {s : Nat} {t t' : Term}, Solved st →
    apply n st s t = some (t', st') → Applied st st' s t t' := by
  induction n with
  | zero => intro st st' s t t' _ e; simp [apply] at e
  | succ n ih =>
    intro st st' s t t' h e
    have comb : ∀ {st1 st2 : UState} {f a f' a' : Term}, Applied st st1 s f f' → Applied st1 st2 s a a' →
        Solved st2 ∧ Refines st st2 ∧ f' = ap st2 s f ∧ a' = ap st2 s a ∧ Cov st2 s f ∧ Cov st2 s a ∧
          (∀ j, (st2.maps 0).get j = (st.maps 0).get j) ∧ (s = 0 → st2 = st) := by
      intro st1 st2 f a f' a' h1 h2
      refine ⟨h2.solved, h1.refines.trans h2.refines, ?_, h2.eq, h1.cov.mono h2.refines, h2.cov,
        fun j => (h2.out j).trans (h1.out j), fun hs => (h2.same hs).trans (h1.same hs)⟩
      rw [h1.eq, ← h2.refines.ap h1.cov]
      refine (apply_none fun j hj => ?_).symm
      rw [h2.out]; exact h1.solved.vars h1.cov hj
    cases t with
    | atom a =>
      by_cases hf : ∃ i, a = .fvar i
      · obtain ⟨i, rfl⟩ := hf
        unfold apply at e
        split at e
        · rename_i u hu
          cases e
          refine ⟨h, .refl h, by simp [ap, VMap.apply, hu], ?_, fun _ => rfl, fun _ => rfl⟩
          intro _ j hj
          rw [hv_fvar] at hj; subst hj; rw [hu]; rfl
        · rename_i hu
          split at e
          · rename_i hs
            subst hs
            cases e
            exact ⟨h, .refl h, by simp [ap, VMap.apply, hu], .zero _ _, fun _ => rfl, fun _ => rfl⟩
          · rename_i hs
            dsimp only at e
            split at e
            · cases e
            · rename_i T hT
              split at e
              · cases e
              · rename_i T' st2 e2
                cases e
                have hp := solved_pushNone h
                have hs1 := solved_setMap (s := s) (i := i) (t := .fvar (st.maps 0).length) hp.1 hs
                  (by rw [pushNone_get]; exact hu) rfl
                  (by
                    intro j hj
                    rw [hv_fvar] at hj; subst hj
                    rw [pushNone_get]; exact get_length (Nat.le_refl _))
                have h2 := ih hs1.1 e2
                have hset : ((setMap (pushNone st) s i (.fvar (st.maps 0).length)).maps s).get i
                    = some (.fvar (st.maps 0).length) := by rw [setMap_get, if_pos ⟨rfl, rfl⟩]
                have hget := h2.refines.keep s i _ hset
                have hst2 : (st2.maps s).get i = some (ap st2 0 (.fvar (st.maps 0).length)) := hget
                refine ⟨(solved_out _ h2.solved).1,
                  ((hp.2.trans hs1.2).trans h2.refines).trans (solved_out _ h2.solved).2, ?_, ?_, ?_,
                  fun h0 => absurd h0 hs⟩
                · simp [ap, VMap.apply, setOut, hst2]
                · intro _ j hj
                  rw [hv_fvar] at hj; subst hj
                  show ((st2.maps s).get j).isSome = true
                  rw [hst2]; rfl
                · intro j
                  show (st2.maps 0).get j = _
                  rw [h2.out, setMap_get, if_neg (fun h => hs h.1.symm), pushNone_get]
      · have e' : apply (n + 1) st s (.atom a) = some (.atom a, st) := by
          cases a with
          | fvar i => exact absurd ⟨i, rfl⟩ hf
          | _ => rfl
        rw [e'] at e
        cases e
        refine ⟨h, .refl h, ?_, fun _ => Covered.atom fun i hi => hf ⟨i, hi⟩, fun _ => rfl, fun _ => rfl⟩
        cases a with
        | fvar i => exact absurd ⟨i, rfl⟩ hf
        | _ => rfl
    | app f a =>
      unfold apply at e
      split at e
      · cases e
      · rename_i f' st1 e1
        split at e
        · cases e
        · rename_i a' st2 e2
          cases e
          have h1 := ih h e1
          have h2 := ih h1.solved e2
          obtain ⟨c1, c2, c3, c4, c5, c6, c7, c8⟩ := comb h1 h2
          refine ⟨c1, c2, ?_, fun hs => Covered.app.2 ⟨c5 hs, c6 hs⟩, c7, c8⟩
          rw [c3, c4]; rfl
    | bind b f a =>
      unfold apply at e
      split at e
      · cases e
      · rename_i f' st1 e1
        split at e
        · cases e
        · rename_i a' st2 e2
          cases e
          have h1 := ih h e1
          have h2 := ih h1.solved e2
          obtain ⟨c1, c2, c3, c4, c5, c6, c7, c8⟩ := comb h1 h2
          refine ⟨c1, c2, ?_, fun hs => Covered.bind.2 ⟨c5 hs, c6 hs⟩, c7, c8⟩
          rw [c3, c4]; rfl

/-! `remap` -/

theorem remapTo_get (st : UState) (id : Nat) (u : Term) (s j : Nat) :
    ((remapTo st id u).maps s).get j =
      if s = 0 ∧ j = id then some u else ((st.maps s).get j).map (Term.replaceVar id u) := by
  by_cases hs : s = 0
  · subst hs; simp [remapTo, VMap.get_set, get_map]
  · simp [remapTo, hs, get_map]

theorem replaceVar_not {id : Nat} {u t : Term} (h : t.hasVar id = false) : Term.replaceVar id u t = t := by
  rw [replaceVar_eq_apply]
  refine apply_none fun j hj => ?_
  rw [VMap.get_set, if_neg, get_nil]
  rintro rfl; rw [h] at hj; cases hj

/-- Replacing an unbound output variable everywhere. -/
theorem solved_remap {st : UState} (h : Solved st) {id : Nat} {t : Term} (hf : (st.maps 0).get id = none)
    (ht : t.escapes = false) (hi : t.hasVar id = false)
    (hv : ∀ j, t.hasVar j = true → (st.maps 0).get j = none) :
    Solved (remapTo st id t) ∧ Refines st (remapTo st id t) ∧
      ∀ u, ap (remapTo st id t) 0 u = Term.replaceVar id t (ap st 0 u) := by
  have hap : ∀ u, ap (remapTo st id t) 0 u = Term.replaceVar id t (ap st 0 u) := by
    intro u
    rw [replaceVar_eq_apply]
    refine (apply_comp fun j _ => ?_).symm
    rw [← replaceVar_eq_apply]
    simp only [VMap.apply, remapTo_get]
    by_cases hj : j = id
    · subst hj; simp [hf, replaceVar]
    · cases e : (st.maps 0).get j with
      | none => simp [hj, replaceVar]
      | some w => simp [hj]
  have hnone : ∀ j, (st.maps 0).get j = none → j ≠ id → ((remapTo st id t).maps 0).get j = none := by
    intro j h1 h2
    rw [remapTo_get, if_neg (fun h => h2 h.2), h1]; rfl
  have hid : ∀ {j}, t.hasVar j = true → j ≠ id := by
    rintro j hj rfl; rw [hi] at hj; cases hj
  refine ⟨?_, ⟨rfl, ?_⟩, hap⟩
  · intro s j u e
    rw [remapTo_get] at e
    split at e
    · cases e; exact ⟨ht, fun k hk => hnone k (hv k hk) (hid hk)⟩
    · cases e1 : (st.maps s).get j with
      | none => rw [e1] at e; cases e
      | some w =>
        rw [e1] at e
        cases e
        refine ⟨?_, fun k hk => ?_⟩
        · rw [replaceVar_eq_apply]
          refine apply_escapes ?_ _ 0 (h s j w e1).1
          intro k v hk
          rw [VMap.get_set, get_nil] at hk
          split at hk
          · cases hk; exact ht
          · cases hk
        · rw [replaceVar_eq_apply] at hk
          obtain ⟨l, hl, hlk⟩ := hasVar_apply hk
          simp only [VMap.apply, VMap.get_set, get_nil] at hlk
          split at hlk
          · exact hnone k (hv k hlk) (hid hlk)
          · rename_i hne
            simp only [Option.getD_none] at hlk
            rw [hv_fvar] at hlk; subst hlk
            exact hnone k ((h s j w e1).2 k hl) hne
  · intro s j u e
    rw [remapTo_get, if_neg, e, Option.map_some]
    · rw [hap, h.fix e]
    · rintro ⟨rfl, rfl⟩; rw [hf] at e; cases e

/-! Unification -/

theorem andThen_some {r : Res} {k : UState → Res} {b : Bool} {st' : UState}
    (e : andThen r k = some (b, st')) :
    (r = some (false, st') ∧ b = false) ∨ ∃ st1, r = some (true, st1) ∧ k st1 = some (b, st') := by
  unfold andThen at e
  split at e
  · cases e
  · simp only [Option.some.injEq, Prod.mk.injEq] at e
    obtain ⟨rfl, rfl⟩ := e
    exact .inl ⟨rfl, rfl⟩
  · exact .inr ⟨_, rfl, e⟩

theorem orElse_some {st st' : UState} {r1 r2 : Res} {b : Bool} (e : orElse st r1 r2 = some (b, st')) :
    (b = true ∧ r1 = some (true, st')) ∨ (b = true ∧ r2 = some (true, st')) ∨ (b = false ∧ st' = st) := by
  unfold orElse at e
  split at e
  · cases e
  · simp only [Option.some.injEq, Prod.mk.injEq] at e
    obtain ⟨rfl, rfl⟩ := e
    exact .inl ⟨rfl, rfl⟩
  · split at e
    · cases e
    · simp only [Option.some.injEq, Prod.mk.injEq] at e
      obtain ⟨rfl, rfl⟩ := e
      exact .inr (.inl ⟨rfl, rfl⟩)
    · simp only [Option.some.injEq, Prod.mk.injEq] at e
      obtain ⟨rfl, rfl⟩ := e
      exact .inr (.inr ⟨rfl, rfl⟩)

/-- The state is a good successor. -/
structure Post (st st' : UState) : Prop where
  solved : Solved st'
  refines : Refines st st'

theorem Post.refl {st : UState} (h : Solved st) : Post st st := ⟨h, .refl h⟩

theorem Post.trans {a b c : UState} (h : Post a b) (h' : Post b c) : Post a c :=
  ⟨h'.solved, h.refines.trans h'.refines⟩

/-- Two terms have the same instance. -/
structure Same (st : UState) (s1 : Nat) (t1 : Term) (s2 : Nat) (t2 : Term) : Prop where
  cov1 : Cov st s1 t1
  cov2 : Cov st s2 t2
  unified : Unified (ap st s1 t1) (ap st s2 t2)

theorem Same.mono {st st' : UState} (h : Refines st st') {s1 s2 : Nat} {t1 t2 : Term}
    (hs : Same st s1 t1 s2 t2) : Same st' s1 t1 s2 t2 :=
  ⟨hs.cov1.mono h, hs.cov2.mono h, h.unified hs.cov1 hs.cov2 hs.unified⟩

theorem Same.symm {st : UState} {s1 s2 : Nat} {t1 t2 : Term} (hs : Same st s1 t1 s2 t2) :
    Same st s2 t2 s1 t1 := ⟨hs.cov2, hs.cov1, hs.unified.symm⟩

theorem Same.app {st : UState} {s1 s2 : Nat} {f f' a a' : Term} (h : Same st s1 f s2 f')
    (h' : Same st s1 a s2 a') : Same st s1 (.app f a) s2 (.app f' a') :=
  ⟨fun hs => Covered.app.2 ⟨h.cov1 hs, h'.cov1 hs⟩, fun hs => Covered.app.2 ⟨h.cov2 hs, h'.cov2 hs⟩,
    .app h.unified h'.unified⟩

theorem Same.bind {st : UState} {s1 s2 : Nat} {f f' a a' : Term} (b : Binder) (h : Same st s1 f s2 f')
    (h' : Same st s1 a s2 a') : Same st s1 (.bind b f a) s2 (.bind b f' a') :=
  ⟨fun hs => Covered.bind.2 ⟨h.cov1 hs, h'.cov1 hs⟩, fun hs => Covered.bind.2 ⟨h.cov2 hs, h'.cov2 hs⟩,
    .bind b h.unified h'.unified⟩

theorem Cov.atom {st : UState} {s : Nat} {a : Atom} (h : ∀ i, a ≠ .fvar i) : Cov st s (.atom a) :=
  fun _ => Covered.atom h

theorem atomsAgree_unified {a b : Atom} (h : atomsAgree a b = true) (m m' : VMap) (ha : ∀ i, a ≠ .fvar i)
    (hb : ∀ i, b ≠ .fvar i) : Unified (m.apply (.atom a)) (m'.apply (.atom b)) := by
  have e1 : m.apply (.atom a) = .atom a := by
    cases a with
    | fvar i => exact absurd rfl (ha i)
    | _ => rfl
  have e2 : m'.apply (.atom b) = .atom b := by
    cases b with
    | fvar i => exact absurd rfl (hb i)
    | _ => rfl
  rw [e1, e2]
  unfold atomsAgree at h
  rw [Bool.or_eq_true] at h
  rcases h with h | h
  · rw [of_decide_eq_true h]; exact .refl _
  · split at h
    · exact .classType _ _
    · exact .typeClass _ _
    · cases h

/-- What the four mutually recursive functions establish with a given amount of fuel. -/
structure Correct (K : KCtx) (n : Nat) : Prop where
  unify : ∀ {st st' : UState} {s1 s2 : Nat} {t1 t2 : Term} {b : Bool}, Solved st →
    unify K n st s1 t1 s2 t2 = some (b, st') → Post st st' ∧ (b = true → Same st' s1 t1 s2 t2)
  var : ∀ {st st' : UState} {vs i ts : Nat} {t : Term} {b : Bool}, Solved st →
    unifyVar K n st vs i ts t = some (b, st') → Post st st' ∧ (b = true → Same st' vs (.fvar i) ts t)
  compatible : ∀ {st st' : UState} {vs : Nat} {T t : Term} {b : Bool}, Solved st →
    compatible K n st vs T t = some (b, st') → Post st st'
  remap : ∀ {st st' : UState} {i : Nat} {t : Term} {b : Bool}, Solved st → t.escapes = false →
    remap K n st i t = some (b, st') → Post st st' ∧ (b = true → Same st' 0 (.fvar i) 0 t)

theorem remapNow_correct {n : Nat} {st st' : UState} {i : Nat} {t : Term} {b : Bool} (h : Solved st)
    (ht : t.escapes = false) (e : remap.remapNow n st i t = some (b, st')) :
    Post st st' ∧ (b = true → Same st' 0 (.fvar i) 0 t) := by
  unfold remap.remapNow at e
  split at e
  · cases e
  · rename_i t' st1 e1
    have h1 := apply_spec n h e1
    have := h1.same rfl
    subst this
    split at e
    · simp only [Option.some.injEq, Prod.mk.injEq] at e
      obtain ⟨rfl, rfl⟩ := e
      exact ⟨.refl h, fun h => by cases h⟩
    · rename_i hv
      split at e
      · cases e
      · rename_i hf
        simp only [Option.some.injEq, Prod.mk.injEq] at e
        obtain ⟨rfl, rfl⟩ := e
        have hf' : (st1.maps 0).get i = none := by
          cases e2 : (st1.maps 0).get i with
          | none => rfl
          | some u => rw [e2] at hf; exact absurd rfl hf
        have hv' : t'.hasVar i = false := by
          cases e2 : t'.hasVar i with
          | false => rfl
          | true => exact absurd e2 hv
        have ht' : t'.escapes = false := by
          rw [h1.eq]; exact apply_escapes (h.closed 0) t 0 ht
        obtain ⟨k1, k2, k3⟩ := solved_remap h hf' ht' hv'
          (fun j hj => h.vars (.zero _ t) (by rw [← h1.eq]; exact hj))
        refine ⟨⟨k1, k2⟩, fun _ => ⟨.zero _ _, .zero _ _, ?_⟩⟩
        rw [k3, k3, ← h1.eq, replaceVar_not hv']
        have : (ap st1 0 (.fvar i)) = .fvar i := by simp [ap, VMap.apply, hf']
        rw [this]
        simp only [replaceVar, if_pos]
        exact .refl _

theorem correct (K : KCtx) (n : Nat) : Correct K n := by
  induction n with
  | zero =>
    refine ⟨?_, ?_, ?_, ?_⟩
    · intro st st' s1 s2 t1 t2 b _ e; simp [unify] at e
    · intro st st' vs i ts t b _ e; simp [unifyVar] at e
    · intro st st' vs T t b _ e; simp [compatible] at e
    · intro st st' i t b _ _ e; simp [remap] at e
  | succ n ih =>
    refine ⟨?_, ?_, ?_, ?_⟩
    · intro st st' s1 s2 t1 t2 b h e
      unfold unify at e
      split at e
      · exact ih.var h e
      · obtain ⟨p, q⟩ := ih.var h e
        exact ⟨p, fun hb => (q hb).symm⟩
      · rcases orElse_some e with ⟨rfl, e'⟩ | ⟨rfl, e'⟩ | ⟨rfl, rfl⟩
        · rcases andThen_some e' with ⟨-, e0⟩ | ⟨st1, e1, e''⟩
          · cases e0
          rcases andThen_some e'' with ⟨-, e0⟩ | ⟨st2, e2, e3⟩
          · cases e0
          obtain ⟨p1, q1⟩ := ih.unify h e1
          obtain ⟨p2, q2⟩ := ih.unify p1.solved e2
          obtain ⟨p3, q3⟩ := ih.unify p2.solved e3
          have r1 := ((q1 rfl).mono p2.refines).mono p3.refines
          have r2 := (q2 rfl).mono p3.refines
          have r3 := q3 rfl
          have hE : ∀ s : Nat, Cov st' s (.atom (.sym .eq_)) := fun s => .atom (fun i => by simp)
          refine ⟨p1.trans (p2.trans p3), fun _ => Same.app (Same.app (Same.app ?_ r1) r2) r3⟩
          exact ⟨hE _, hE _, .refl _⟩
        · rcases andThen_some e' with ⟨-, e0⟩ | ⟨st1, e1, e''⟩
          · cases e0
          rcases andThen_some e'' with ⟨-, e0⟩ | ⟨st2, e2, e3⟩
          · cases e0
          obtain ⟨p1, q1⟩ := ih.unify h e1
          obtain ⟨p2, q2⟩ := ih.unify p1.solved e2
          obtain ⟨p3, q3⟩ := ih.unify p2.solved e3
          have r1 := ((q1 rfl).mono p2.refines).mono p3.refines
          have r2 := (q2 rfl).mono p3.refines
          have r3 := q3 rfl
          have hE : ∀ s : Nat, Cov st' s (.atom (.sym .eq_)) := fun s => .atom (fun i => by simp)
          refine ⟨p1.trans (p2.trans p3), fun _ => ⟨?_, ?_, ?_⟩⟩
          · exact fun hs => Covered.app.2 ⟨Covered.app.2 ⟨Covered.app.2 ⟨hE _ hs, r1.cov1 hs⟩, r2.cov1 hs⟩,
              r3.cov1 hs⟩
          · exact fun hs => Covered.app.2 ⟨Covered.app.2 ⟨Covered.app.2 ⟨hE _ hs, r1.cov2 hs⟩, r3.cov2 hs⟩,
              r2.cov2 hs⟩
          · exact .swap r1.unified r2.unified r3.unified
        · exact ⟨.refl h, fun h => by cases h⟩
      · rename_i a b' h1 h2
        simp only [Option.some.injEq, Prod.mk.injEq] at e
        obtain ⟨rfl, rfl⟩ := e
        have ha : ∀ i, a ≠ .fvar i := fun i hi => by subst hi; exact h1 _ rfl
        have hb : ∀ i, b' ≠ .fvar i := fun i hi => by subst hi; exact h2 _ rfl
        exact ⟨.refl h, fun hb' => ⟨.atom ha, .atom hb, atomsAgree_unified hb' _ _ ha hb⟩⟩
      · rcases andThen_some e with ⟨e0, rfl⟩ | ⟨st1, e1, e⟩
        · exact ⟨(ih.unify h e0).1, fun h => by cases h⟩
        · obtain ⟨p1, q1⟩ := ih.unify h e1
          obtain ⟨p2, q2⟩ := ih.unify p1.solved e
          exact ⟨p1.trans p2, fun hb => .app ((q1 rfl).mono p2.refines) (q2 hb)⟩
      · split at e
        · rename_i hc
          subst hc
          rcases andThen_some e with ⟨e0, rfl⟩ | ⟨st1, e1, e⟩
          · exact ⟨(ih.unify h e0).1, fun h => by cases h⟩
          · obtain ⟨p1, q1⟩ := ih.unify h e1
            obtain ⟨p2, q2⟩ := ih.unify p1.solved e
            exact ⟨p1.trans p2, fun hb => .bind _ ((q1 rfl).mono p2.refines) (q2 hb)⟩
        · simp only [Option.some.injEq, Prod.mk.injEq] at e
          obtain ⟨rfl, rfl⟩ := e
          exact ⟨.refl h, fun h => by cases h⟩
      · simp only [Option.some.injEq, Prod.mk.injEq] at e
        obtain ⟨rfl, rfl⟩ := e
        exact ⟨.refl h, fun h => by cases h⟩
    · intro st st' vs i ts t b h e
      unfold unifyVar at e
      split at e
      · split at e
        · cases e
        · rename_i t' st1 e1
          have h1 := apply_spec n h e1
          obtain ⟨p, q⟩ := ih.var h1.solved e
          refine ⟨Post.trans ⟨h1.solved, h1.refines⟩ p, fun hb => ⟨(q hb).cov1, h1.cov.mono p.refines, ?_⟩⟩
          have := (q hb).unified
          rw [h1.eq, p.refines.ap h1.cov] at this
          exact this
      · rename_i hts
        have hts : ts = 0 := Classical.byContradiction fun h => hts h
        subst hts
        split at e
        · rename_i u hu
          obtain ⟨p, q⟩ := ih.unify h e
          refine ⟨p, fun hb => ⟨?_, .zero _ _, ?_⟩⟩
          · refine Cov.mono p.refines fun _ j hj => ?_
            rw [hv_fvar] at hj; subst hj; rw [hu]; rfl
          · have := (q hb).unified
            have hk := p.refines.keep vs i u hu
            simp only [ap, VMap.apply, hk, Option.getD_some]
            exact this
        · rename_i hn
          split at e
          · rename_i hvs
            subst hvs
            split at e
            · rename_i ht
              subst ht
              simp only [Option.some.injEq, Prod.mk.injEq] at e
              obtain ⟨rfl, rfl⟩ := e
              exact ⟨.refl h, fun _ => ⟨.zero _ _, .zero _ _, .refl _⟩⟩
            · split at e
              · simp only [Option.some.injEq, Prod.mk.injEq] at e
                obtain ⟨rfl, rfl⟩ := e
                exact ⟨.refl h, fun h => by cases h⟩
              · split at e
                · simp only [Option.some.injEq, Prod.mk.injEq] at e
                  obtain ⟨rfl, rfl⟩ := e
                  exact ⟨.refl h, fun h => by cases h⟩
                · rename_i hesc
                  have hesc' : t.escapes = false := by
                    cases e2 : t.escapes with
                    | false => rfl
                    | true => exact absurd e2 hesc
                  split at e
                  · rcases andThen_some e with ⟨e0, rfl⟩ | ⟨st1, e1, e⟩
                    · exact ⟨ih.compatible h e0, fun h => by cases h⟩
                    · have p1 := ih.compatible h e1
                      obtain ⟨p2, q2⟩ := ih.remap p1.solved hesc' e
                      exact ⟨p1.trans p2, q2⟩
                  · exact ih.remap h hesc' e
          · rename_i hvs
            split at e
            · cases e
            · split at e
              · simp only [Option.some.injEq, Prod.mk.injEq] at e
                obtain ⟨rfl, rfl⟩ := e
                exact ⟨.refl h, fun h => by cases h⟩
              · rename_i hesc
                have hesc' : t.escapes = false := by
                  cases e2 : t.escapes with
                  | false => rfl
                  | true => exact absurd e2 hesc
                rcases andThen_some e with ⟨e0, rfl⟩ | ⟨st1, e1, e⟩
                · exact ⟨ih.compatible h e0, fun h => by cases h⟩
                · have p1 := ih.compatible h e1
                  split at e
                  · cases e
                  · rename_i t' st2 e2
                    have h1 := apply_spec n p1.solved e2
                    have := h1.same rfl
                    subst this
                    split at e
                    · cases e
                    · rename_i hf
                      simp only [Option.some.injEq, Prod.mk.injEq] at e
                      obtain ⟨rfl, rfl⟩ := e
                      have hf' : (st2.maps vs).get i = none := by
                        cases e2 : (st2.maps vs).get i with
                        | none => rfl
                        | some u => rw [e2] at hf; exact absurd rfl hf
                      have hset := solved_setMap (t := t') p1.solved hvs hf'
                        (by rw [h1.eq]; exact apply_escapes (p1.solved.closed 0) t 0 hesc')
                        (fun j hj => p1.solved.vars (.zero _ t) (by rw [← h1.eq]; exact hj))
                      refine ⟨p1.trans ⟨hset.1, hset.2⟩, fun _ => ⟨?_, .zero _ _, ?_⟩⟩
                      · intro _ j hj
                        rw [hv_fvar] at hj; subst hj
                        rw [setMap_get, if_pos ⟨rfl, rfl⟩]; rfl
                      · have e3 : ap (setMap st2 vs i t') vs (.fvar i) = t' := by
                          simp [ap, VMap.apply, setMap_get]
                        have e4 : ap (setMap st2 vs i t') 0 t = ap st2 0 t := by
                          refine apply_same fun k _ => ?_
                          rw [setMap_get, if_neg (fun h => hvs h.1.symm)]
                        rw [e3, e4, h1.eq]; exact .refl _
    · intro st st' vs T t b h e
      unfold compatible at e
      split at e
      · simp only [Option.some.injEq, Prod.mk.injEq] at e
        obtain ⟨-, rfl⟩ := e
        exact .refl h
      · split at e
        · cases e
        · split at e
          · simp only [Option.some.injEq, Prod.mk.injEq] at e
            obtain ⟨-, rfl⟩ := e
            exact ⟨(solved_out _ h).1, (solved_out _ h).2⟩
          · exact (ih.unify h e).1
    · intro st st' i t b h ht e
      unfold remap at e
      split at e
      · rename_i j hj
        split at e
        · obtain ⟨p, q⟩ := ih.var h e
          have : t = .fvar j := by
            unfold atomicVariable at hj
            split at hj
            · cases hj; rfl
            · cases hj
          subst this
          exact ⟨p, fun hb => (q hb).symm⟩
        · exact remapNow_correct h ht e
      · exact remapNow_correct h ht e

/-! Instance matching -/

theorem _root_.Acorn.Spec.InstanceOf.refl (t : Term) : InstanceOf t t := by
  induction t with
  | atom a => exact .atom a
  | app f a hf ha => exact .app hf ha
  | bind b f a hf ha => exact .bind b hf ha

theorem _root_.Acorn.Spec.InstanceOf.apply (m : VMap) {s t : Term} (h : InstanceOf s t) :
    InstanceOf (m.apply s) (m.apply t) := by
  induction h with
  | atom a => exact .refl _
  | typeClass k l => exact .typeClass k l
  | app _ _ h1 h2 => exact .app h1 h2
  | bind c _ _ h1 h2 => exact .bind c h1 h2

/-- The state is a good successor, and no output variable was bound. -/
structure MPost (st st' : UState) : Prop extends Post st st' where
  rigid : ∀ j, (st'.maps 0).get j = (st.maps 0).get j

theorem MPost.refl {st : UState} (h : Solved st) : MPost st st := ⟨.refl h, fun _ => rfl⟩

theorem MPost.trans {a b c : UState} (h : MPost a b) (h' : MPost b c) : MPost a c :=
  ⟨h.toPost.trans h'.toPost, fun j => (h'.rigid j).trans (h.rigid j)⟩

/-- The second term has the instance of the first one. -/
structure Inst (st : UState) (s1 : Nat) (t1 : Term) (s2 : Nat) (t2 : Term) : Prop where
  cov1 : Cov st s1 t1
  cov2 : Cov st s2 t2
  inst : InstanceOf (ap st s1 t1) (ap st s2 t2)

theorem Inst.mono {st st' : UState} (h : Refines st st') {s1 s2 : Nat} {t1 t2 : Term}
    (hs : Inst st s1 t1 s2 t2) : Inst st' s1 t1 s2 t2 := by
  refine ⟨hs.cov1.mono h, hs.cov2.mono h, ?_⟩
  rw [← h.ap hs.cov1, ← h.ap hs.cov2]; exact hs.inst.apply _

theorem Inst.app {st : UState} {s1 s2 : Nat} {f f' a a' : Term} (h : Inst st s1 f s2 f')
    (h' : Inst st s1 a s2 a') : Inst st s1 (.app f a) s2 (.app f' a') :=
  ⟨fun hs => Covered.app.2 ⟨h.cov1 hs, h'.cov1 hs⟩, fun hs => Covered.app.2 ⟨h.cov2 hs, h'.cov2 hs⟩,
    .app h.inst h'.inst⟩

theorem Inst.bind {st : UState} {s1 s2 : Nat} {f f' a a' : Term} (b : Binder) (h : Inst st s1 f s2 f')
    (h' : Inst st s1 a s2 a') : Inst st s1 (.bind b f a) s2 (.bind b f' a') :=
  ⟨fun hs => Covered.bind.2 ⟨h.cov1 hs, h'.cov1 hs⟩, fun hs => Covered.bind.2 ⟨h.cov2 hs, h'.cov2 hs⟩,
    .bind b h.inst h'.inst⟩

/-- What the three mutually recursive matching functions establish. -/
structure MCorrect (K : KCtx) (n : Nat) : Prop where
  inst : ∀ {st st' : UState} {s1 s2 : Nat} {t1 t2 : Term} {b : Bool}, Solved st → s1 ≠ 0 →
    matchInst K n st s1 t1 s2 t2 = some (b, st') → MPost st st' ∧ (b = true → Inst st' s1 t1 s2 t2)
  var : ∀ {st st' : UState} {vs i ts : Nat} {t : Term} {b : Bool}, Solved st → vs ≠ 0 →
    matchInstVar K n st vs i ts t = some (b, st') → MPost st st' ∧ (b = true → Inst st' vs (.fvar i) ts t)
  compatible : ∀ {st st' : UState} {vs : Nat} {T t : Term} {b : Bool}, Solved st → vs ≠ 0 →
    matchesInstance K n st vs T t = some (b, st') → MPost st st'

theorem apply_atom {a : Atom} (h : ∀ i, a ≠ .fvar i) (m : VMap) : m.apply (.atom a) = .atom a := by
  cases a with
  | fvar i => exact absurd rfl (h i)
  | _ => rfl

theorem mcorrect (K : KCtx) (n : Nat) : MCorrect K n := by
  induction n with
  | zero =>
    refine ⟨?_, ?_, ?_⟩
    · intro st st' s1 s2 t1 t2 b _ _ e; simp [matchInst] at e
    · intro st st' vs i ts t b _ _ e; simp [matchInstVar] at e
    · intro st st' vs T t b _ _ e; simp [matchesInstance] at e
  | succ n ih =>
    refine ⟨?_, ?_, ?_⟩
    · intro st st' s1 s2 t1 t2 b h hs e
      unfold matchInst at e
      split at e
      · exact ih.var h hs e
      · rename_i a b' h1
        simp only [Option.some.injEq, Prod.mk.injEq] at e
        obtain ⟨rfl, rfl⟩ := e
        have ha : ∀ i, a ≠ .fvar i := fun i hi => by subst hi; exact h1 _ rfl
        refine ⟨.refl h, fun hb => ?_⟩
        have hab : (∀ i, b' ≠ .fvar i) ∧ InstanceOf (.atom a) (.atom b') := by
          rw [Bool.or_eq_true] at hb
          rcases hb with hb | hb
          · have := of_decide_eq_true hb
            subst this; exact ⟨ha, .refl _⟩
          · unfold matchInst.instanceAtoms at hb
            split at hb
            · exact ⟨fun i => by simp, .typeClass _ _⟩
            · cases hb
        refine ⟨.atom ha, .atom hab.1, ?_⟩
        rw [ap, ap, apply_atom ha, apply_atom hab.1]; exact hab.2
      · rcases andThen_some e with ⟨e0, rfl⟩ | ⟨st1, e1, e⟩
        · exact ⟨(ih.inst h hs e0).1, fun h => by cases h⟩
        · obtain ⟨p1, q1⟩ := ih.inst h hs e1
          obtain ⟨p2, q2⟩ := ih.inst p1.solved hs e
          exact ⟨p1.trans p2, fun hb => .app ((q1 rfl).mono p2.refines) (q2 hb)⟩
      · split at e
        · rename_i hc
          subst hc
          rcases andThen_some e with ⟨e0, rfl⟩ | ⟨st1, e1, e⟩
          · exact ⟨(ih.inst h hs e0).1, fun h => by cases h⟩
          · obtain ⟨p1, q1⟩ := ih.inst h hs e1
            obtain ⟨p2, q2⟩ := ih.inst p1.solved hs e
            exact ⟨p1.trans p2, fun hb => .bind _ ((q1 rfl).mono p2.refines) (q2 hb)⟩
        · simp only [Option.some.injEq, Prod.mk.injEq] at e
          obtain ⟨rfl, rfl⟩ := e
          exact ⟨.refl h, fun h => by cases h⟩
      · simp only [Option.some.injEq, Prod.mk.injEq] at e
        obtain ⟨rfl, rfl⟩ := e
        exact ⟨.refl h, fun h => by cases h⟩
    · intro st st' vs i ts t b h hs e
      unfold matchInstVar at e
      split at e
      · cases e
      · rename_i t' st1 e1
        have h1 := apply_spec n h e1
        have p1 : MPost st st1 := ⟨⟨h1.solved, h1.refines⟩, h1.out⟩
        split at e
        · rename_i u hu
          simp only [Option.some.injEq, Prod.mk.injEq] at e
          obtain ⟨rfl, rfl⟩ := e
          refine ⟨p1, fun hb => ⟨?_, h1.cov, ?_⟩⟩
          · intro _ j hj
            rw [hv_fvar] at hj; subst hj; rw [hu]; rfl
          · have : u = t' := of_decide_eq_true hb
            simp only [ap, VMap.apply, hu, Option.getD_some]
            rw [this, h1.eq]; exact .refl _
        · split at e
          · simp only [Option.some.injEq, Prod.mk.injEq] at e
            obtain ⟨rfl, rfl⟩ := e
            exact ⟨p1, fun h => by cases h⟩
          · rename_i hesc
            have hesc' : t'.escapes = false := by
              cases e2 : t'.escapes with
              | false => rfl
              | true => exact absurd e2 hesc
            split at e
            · cases e
            · rcases andThen_some e with ⟨e0, rfl⟩ | ⟨st2, e2, e⟩
              · exact ⟨p1.trans (ih.compatible h1.solved hs e0), fun h => by cases h⟩
              · have p2 := ih.compatible h1.solved hs e2
                split at e
                · cases e
                · rename_i hf
                  simp only [Option.some.injEq, Prod.mk.injEq] at e
                  obtain ⟨rfl, rfl⟩ := e
                  have hf' : (st2.maps vs).get i = none := by
                    cases e2 : (st2.maps vs).get i with
                    | none => rfl
                    | some u => rw [e2] at hf; exact absurd rfl hf
                  have hset := solved_setMap (t := t') p2.solved hs hf' hesc' (fun j hj => by
                    rw [p2.rigid]
                    exact h1.solved.vars h1.cov (by rw [← h1.eq]; exact hj))
                  have h0 : ∀ k, ((setMap st2 vs i t').maps 0).get k = (st2.maps 0).get k := fun k => by
                    rw [setMap_get, if_neg (fun h => hs h.1.symm)]
                  refine ⟨p1.trans (p2.trans ⟨⟨hset.1, hset.2⟩, h0⟩), fun _ => ⟨?_, ?_, ?_⟩⟩
                  · intro _ j hj
                    rw [hv_fvar] at hj; subst hj
                    rw [setMap_get, if_pos ⟨rfl, rfl⟩]; rfl
                  · exact (h1.cov.mono p2.refines).mono hset.2
                  · have e3 : ap (setMap st2 vs i t') vs (.fvar i) = t' := by
                      simp [ap, VMap.apply, setMap_get]
                    have e4 : ap (setMap st2 vs i t') ts t = t' := by
                      rw [← (p2.refines.trans hset.2).ap h1.cov, ← h1.eq]
                      refine apply_none fun j hj => ?_
                      rw [h0, p2.rigid]
                      exact h1.solved.vars h1.cov (by rw [← h1.eq]; exact hj)
                    rw [e3, e4]; exact .refl _
    · intro st st' vs T t b h hs e
      unfold matchesInstance at e
      split at e
      · simp only [Option.some.injEq, Prod.mk.injEq] at e
        obtain ⟨-, rfl⟩ := e
        exact .refl h
      · split at e
        · cases e
        · split at e
          · simp only [Option.some.injEq, Prod.mk.injEq] at e
            obtain ⟨-, rfl⟩ := e
            exact .refl h
          · exact (ih.inst h hs e).1

/-! Reachable unifiers -/

theorem solved_of_reach {K : KCtx} {st : UState} (h : UReach K st) : Solved st := by
  induction h with
  | init inputs => intro s i t e; simp [init, VMap.get] at e
  | withMap m out hm =>
    have h0 : ∀ j, VMap.get ((withMap m out).maps 0) j = none := by
      intro j
      simp only [withMap, if_pos, VMap.get, List.getElem?_replicate]
      split <;> rfl
    intro s i t e
    by_cases hs : s = 0
    · subst hs; rw [h0] at e; cases e
    · refine ⟨?_, fun j _ => h0 j⟩
      simp only [withMap, if_neg hs] at e
      split at e
      · exact hm i t e
      · simp [VMap.get] at e
  | setInput s Γ _ ih => exact ih
  | apply _ e ih => exact (apply_spec _ ih e).solved
  | unify _ e ih => exact ((correct K _).unify ih e).1.solved
  | matchInst _ hs e ih => exact ((mcorrect K _).inst ih hs e).1.solved

/-- Refinement without the condition on the inputs. -/
def Grows (st st' : UState) : Prop :=
  ∀ s i t, (st.maps s).get i = some t → (st'.maps s).get i = some (ap st' 0 t)

theorem later_spec {K : KCtx} {st st' : UState} (hst : Solved st) (h : ULater K st st') :
    Solved st' ∧ Grows st st' := by
  induction h with
  | refl => exact ⟨hst, (Refines.refl hst).keep⟩
  | setInput s Γ _ ih => exact ih
  | apply _ e ih =>
    have h1 := apply_spec _ ih.1 e
    refine ⟨h1.solved, ?_⟩
    intro s i t hi
    have e1 := h1.refines.keep s i _ (ih.2 s i t hi)
    rw [e1]; congr 1
    exact h1.refines.ap (s := 0) (fun h => absurd rfl h)
  | unify _ e ih =>
    have h1 := ((correct K _).unify ih.1 e).1
    refine ⟨h1.solved, ?_⟩
    intro s i t hi
    have e1 := h1.refines.keep s i _ (ih.2 s i t hi)
    rw [e1]; congr 1
    exact h1.refines.ap (s := 0) (fun h => absurd rfl h)
  | matchInst _ hs e ih =>
    have h1 := ((mcorrect K _).inst ih.1 hs e).1
    refine ⟨h1.solved, ?_⟩
    intro s i t hi
    have e1 := h1.refines.keep s i _ (ih.2 s i t hi)
    rw [e1]; congr 1
    exact h1.refines.ap (s := 0) (fun h => absurd rfl h)

theorem Grows.same {st st' : UState} (h : Grows st st') {s1 s2 : Nat} {t1 t2 : Term}
    (hs : Same st s1 t1 s2 t2) : Same st' s1 t1 s2 t2 := by
  have h' : Refines ⟨st.maps, st'.inputs, st.out⟩ st' := ⟨rfl, h⟩
  exact Same.mono h' ⟨hs.cov1, hs.cov2, hs.unified⟩

/-- Applying the unifier to a term whose variables are bound changes nothing but reads off the
instance. -/
theorem apply_covered {n : Nat} {st st' : UState} {s : Nat} {t t' : Term} (hc : Cov st s t)
    (e : apply n st s t = some (t', st')) : t' = ap st s t ∧ st' = st := by
  induction n generalizing t t' st' with
  | zero => simp [apply] at e
  | succ n ih =>
    cases t with
    | atom a =>
      by_cases hf : ∃ i, a = .fvar i
      · obtain ⟨i, rfl⟩ := hf
        unfold apply at e
        split at e
        · rename_i u hu
          cases e
          simp [ap, VMap.apply, hu]
        · rename_i hu
          split at e
          · cases e; simp [ap, VMap.apply, hu]
          · rename_i hs
            have := hc hs i (hv_fvar.2 rfl)
            rw [hu] at this; cases this
      · have hf' : ∀ i, a ≠ .fvar i := fun i hi => hf ⟨i, hi⟩
        have e' : apply (n + 1) st s (.atom a) = some (.atom a, st) := by
          cases a with
          | fvar i => exact absurd rfl (hf' i)
          | _ => rfl
        rw [e'] at e
        cases e
        exact ⟨(apply_atom hf' _).symm, rfl⟩
    | app f a =>
      unfold apply at e
      split at e
      · cases e
      · rename_i f' st1 e1
        obtain ⟨rfl, rfl⟩ := ih (fun hs => (Covered.app.1 (hc hs)).1) e1
        split at e
        · cases e
        · rename_i a' st2 e2
          obtain ⟨rfl, rfl⟩ := ih (fun hs => (Covered.app.1 (hc hs)).2) e2
          cases e
          exact ⟨rfl, rfl⟩
    | bind b f a =>
      unfold apply at e
      split at e
      · cases e
      · rename_i f' st1 e1
        obtain ⟨rfl, rfl⟩ := ih (fun hs => (Covered.bind.1 (hc hs)).1) e1
        split at e
        · cases e
        · rename_i a' st2 e2
          obtain ⟨rfl, rfl⟩ := ih (fun hs => (Covered.bind.1 (hc hs)).2) e2
          cases e
          exact ⟨rfl, rfl⟩

/-- With enough fuel, it does return. -/
theorem apply_total {n : Nat} {st : UState} {s : Nat} {t : Term} (hc : Cov st s t) (hn : t.size ≤ n) :
    apply n st s t = some (ap st s t, st) := by
  induction t generalizing n with
  | atom a =>
    cases n with
    | zero => simp [size] at hn
    | succ n =>
      cases a with
      | fvar i =>
        unfold apply
        split
        · rename_i u hu; simp [ap, VMap.apply, hu]
        · rename_i hu
          split
          · simp [ap, VMap.apply, hu]
          · rename_i hs
            have := hc hs i (hv_fvar.2 rfl)
            rw [hu] at this; cases this
      | _ => rfl
  | app f a ihf iha =>
    simp only [size] at hn
    cases n with
    | zero => omega
    | succ n =>
      unfold apply
      rw [ihf (fun hs => (Covered.app.1 (hc hs)).1) (by omega)]
      dsimp only
      rw [iha (fun hs => (Covered.app.1 (hc hs)).2) (by omega)]
      rfl
  | bind b f a ihf iha =>
    simp only [size] at hn
    cases n with
    | zero => omega
    | succ n =>
      unfold apply
      rw [ihf (fun hs => (Covered.bind.1 (hc hs)).1) (by omega)]
      dsimp only
      rw [iha (fun hs => (Covered.bind.1 (hc hs)).2) (by omega)]
      rfl

end Unifier
end Acorn
