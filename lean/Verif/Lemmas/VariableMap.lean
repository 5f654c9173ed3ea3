/-
Lemmas about variable maps.
-/
import Verif.Spec.Matching
import Verif.Lemmas.VarIds
import Verif.Lemmas.Clause
import Verif.Lemmas.ClauseNew
namespace Acorn

open Spec Term

universe u

theorem get_setSlot (m : List (Option Term)) (i : Nat) (t : Term) (j : Nat) :
    ((setSlot m i t)[j]?).join = if j = i then some t else (m[j]?).join := by
  unfold setSlot
  split
  · rename_i h
    rw [List.getElem?_set]
    by_cases hj : i = j
    · subst hj; simp [h]
    · simp [hj, Ne.symm hj]
  · rename_i h
    rw [List.getElem?_set]
    by_cases hj : i = j
    · subst hj
      have : i < (m ++ List.replicate (i + 1 - m.length) none).length := by simp; omega
      rw [if_pos rfl, if_pos this, if_pos rfl]; rfl
    · rw [if_neg hj, if_neg (Ne.symm hj)]
      by_cases hm : j < m.length
      · rw [List.getElem?_append_left hm]
      · rw [List.getElem?_append_right (by omega), List.getElem?_eq_none (by omega : m.length ≤ j)]
        rw [List.getElem?_replicate]
        split <;> rfl

theorem VMap.get_set (m : VMap) (i : Nat) (t : Term) (j : Nat) :
    VMap.get (setSlot m i t) j = if j = i then some t else m.get j := get_setSlot m i t j

theorem LCtx.get_set (m : LCtx) (i : Nat) (t : Term) (j : Nat) :
    LCtx.get (setSlot m i t) j = if j = i then some t else m.get j := get_setSlot m i t j

theorem Spec.Extends.refl (m : VMap) : Extends m m := fun _ _ h => h

theorem Spec.Extends.trans {a b c : VMap} (h : Extends a b) (h' : Extends b c) : Extends a c :=
  fun i t e => h' i t (h i t e)

theorem matchVar_spec {m m' : VMap} {i : Nat} {t : Term} (e : m.matchVar i t = some m') :
    Extends m m' ∧ m'.get i = some t ∧
      ∀ j u, m'.get j = some u → m.get j = some u ∨ (j = i ∧ u = t) := by
  unfold VMap.matchVar at e
  split at e
  · rename_i h
    cases e
    refine ⟨?_, by rw [VMap.get_set, if_pos rfl], ?_⟩
    · intro j u hj
      rw [VMap.get_set]
      split
      · subst_vars; rw [h] at hj; cases hj
      · exact hj
    · intro j u hj
      rw [VMap.get_set] at hj
      split at hj
      · cases hj; exact .inr ⟨by assumption, rfl⟩
      · exact .inl hj
  · rename_i u h
    split at e
    · cases e; subst_vars; exact ⟨.refl _, h, fun j u h => .inl h⟩
    · cases e

/-- Growing the map does not change a term all of whose variables are mapped; in general the larger
map refines the smaller one. -/
def Covered (m : VMap) (t : Term) : Prop := ∀ i, t.hasVar i = true → (m.get i).isSome = true

theorem apply_extends {m m' : VMap} (h : Extends m m') (t : Term) (hc : Covered m t) :
    m'.apply t = m.apply t := by
  induction t with
  | atom a =>
    cases a with
    | fvar i =>
      have := hc i (by simp [hv_fvar])
      obtain ⟨u, hu⟩ := Option.isSome_iff_exists.1 this
      simp [VMap.apply, hu, h i u hu]
    | _ => rfl
  | app f a ihf iha =>
    simp only [VMap.apply]
    rw [ihf (fun i hi => hc i (hv_app.2 (.inl hi))), iha (fun i hi => hc i (hv_app.2 (.inr hi)))]
  | bind b f a ihf iha =>
    simp only [VMap.apply]
    rw [ihf (fun i hi => hc i (hv_bind.2 (.inl hi))), iha (fun i hi => hc i (hv_bind.2 (.inr hi)))]

theorem Covered.mono {m m' : VMap} (h : Extends m m') {t : Term} (hc : Covered m t) : Covered m' t := by
  intro i hi
  obtain ⟨u, hu⟩ := Option.isSome_iff_exists.1 (hc i hi)
  rw [h i u hu]; rfl

theorem Covered.app {m : VMap} {f a : Term} : Covered m (.app f a) ↔ Covered m f ∧ Covered m a := by
  constructor
  · exact fun h => ⟨fun i hi => h i (hv_app.2 (.inl hi)), fun i hi => h i (hv_app.2 (.inr hi))⟩
  · rintro ⟨h, h'⟩ i hi
    exact (hv_app.1 hi).elim (h i) (h' i)

theorem Covered.bind {m : VMap} {b : Binder} {f a : Term} :
    Covered m (.bind b f a) ↔ Covered m f ∧ Covered m a := by
  constructor
  · exact fun h => ⟨fun i hi => h i (hv_bind.2 (.inl hi)), fun i hi => h i (hv_bind.2 (.inr hi))⟩
  · rintro ⟨h, h'⟩ i hi
    exact (hv_bind.1 hi).elim (h i) (h' i)

theorem Covered.atom {m : VMap} {a : Atom} (h : ∀ i, a ≠ .fvar i) : Covered m (.atom a) := by
  intro i hi
  simp [hasVar, atoms] at hi
  exact absurd hi (h i)

/-- What a successful match establishes. -/
structure Matched (m m' : VMap) (g : Term) : Prop where
  ext : Extends m m'
  cover : Covered m' g
  new : ∀ j u, m'.get j = some u → m.get j = some u ∨ u.escapes = false

theorem Matched.trans {a b c : VMap} {f g : Term} (h : Matched a b f) (h' : Matched b c g) :
    Matched a c f ∧ Matched a c g :=
  have new : ∀ j u, c.get j = some u → a.get j = some u ∨ u.escapes = false := fun j u hj =>
    (h'.new j u hj).elim (h.new j u) .inr
  ⟨⟨h.ext.trans h'.ext, h.cover.mono h'.ext, new⟩, ⟨h.ext.trans h'.ext, h'.cover, new⟩⟩

theorem Matched.of {m m' : VMap} {g g' : Term} (h : Matched m m' g) (hc : Covered m' g') :
    Matched m m' g' := ⟨h.ext, hc, h.new⟩

theorem matchVar_matched {m m' : VMap} {i : Nat} {t : Term} (ht : t.escapes = false)
    (e : m.matchVar i t = some m') : Matched m m' (.fvar i) ∧ m'.apply (.fvar i) = t := by
  obtain ⟨h1, h2, h3⟩ := matchVar_spec e
  refine ⟨⟨h1, ?_, ?_⟩, by simp [VMap.apply, h2]⟩
  · intro j hj
    rw [hv_fvar] at hj
    subst hj; rw [h2]; rfl
  · intro j u hj
    rcases h3 j u hj with h | ⟨-, rfl⟩
    · exact .inl h
    · exact .inr ht

theorem EqSwap.refl (t : Term) : EqSwap t t := by
  induction t with
  | atom a => exact .atom a
  | app f a hf ha => exact .app hf ha
  | bind b f a hf ha => exact .bind b hf ha

theorem matchVarTyped_matched {K : KCtx} {Γ Δ : LCtx} {m m' : VMap} {i : Nat} {s : Term}
    (e : VMap.matchVarTyped K Γ Δ m i s = some (some m')) :
    Matched m m' (.fvar i) ∧ m'.apply (.fvar i) = s := by
  unfold VMap.matchVarTyped at e
  split at e
  · cases e
  · rename_i hs
    split at e
    · cases e
    · split at e
      · cases e
      · dsimp only at e
        split at e
        · cases e
        · split at e
          · split at e
            · exact matchVar_matched (by simpa using hs) (Option.some.inj e)
            · cases e
          · exact matchVar_matched (by simpa using hs) (Option.some.inj e)

theorem andThen_some {r : Option (Option VMap)} {k : VMap → Option (Option VMap)} {m' : VMap}
    (e : VMap.andThen r k = some (some m')) : ∃ m, r = some (some m) ∧ k m = some (some m') := by
  unfold VMap.andThen at e
  split at e
  · cases e
  · cases e
  · exact ⟨_, rfl, e⟩

theorem orElse_some {r k : Option (Option VMap)} {m' : VMap}
    (e : VMap.orElse r k = some (some m')) : r = some (some m') ∨ k = some (some m') := by
  unfold VMap.orElse at e
  split at e
  · cases e
  · exact .inr e
  · exact .inl e

theorem matchTerms_matched (K : KCtx) : ∀ (n : Nat) (Γ Δ : LCtx) (m m' : VMap) (g s : Term), g.size ≤ n →
    VMap.matchTerms K Γ Δ m g s = some (some m') → Matched m m' g ∧ EqSwap (m'.apply g) s := by
  intro n
  induction n with
  | zero => intro Γ Δ m m' g s hn; cases g <;> simp [size] at hn
  | succ n ih =>
    intro Γ Δ m m' g s hn e
    rw [VMap.matchTerms.eq_def] at e
    split at e
    · rename_i T a b T' a' b'
      simp only [size] at hn
      have key : ∀ x y, VMap.andThen (VMap.matchTerms K Γ Δ m T T') (fun m1 =>
            VMap.andThen (VMap.matchTerms K Γ Δ m1 a x) fun m2 =>
              VMap.matchTerms K Γ Δ m2 b y) = some (some m') →
          Matched m m' (.eq T a b) ∧ EqSwap (m'.apply T) T' ∧ EqSwap (m'.apply a) x ∧
            EqSwap (m'.apply b) y := by
        intro x y e
        obtain ⟨m1, e1, e⟩ := andThen_some e
        obtain ⟨m2, e2, e3⟩ := andThen_some e
        obtain ⟨h1, s1⟩ := ih _ _ _ _ _ _ (by omega) e1
        obtain ⟨h2, s2⟩ := ih _ _ _ _ _ _ (by omega) e2
        obtain ⟨h3, s3⟩ := ih _ _ _ _ _ _ (by omega) e3
        have hx := h2.ext.trans h3.ext
        refine ⟨(((h1.trans h2).2.trans h3).2).of ?_, ?_, ?_, s3⟩
        · exact Covered.app.2 ⟨Covered.app.2 ⟨Covered.app.2 ⟨Covered.atom (by simp),
            h1.cover.mono hx⟩, h2.cover.mono h3.ext⟩, h3.cover⟩
        · rwa [apply_extends hx _ h1.cover]
        · rwa [apply_extends h3.ext _ h2.cover]
      rcases orElse_some e with e | e
      · obtain ⟨hm, h1, h2, h3⟩ := key a' b' e
        exact ⟨hm, .app (.app (.app (.atom _) h1) h2) h3⟩
      · obtain ⟨hm, h1, h2, h3⟩ := key b' a' e
        exact ⟨hm, .swap h1 h2 h3⟩
    · obtain ⟨h, h'⟩ := matchVarTyped_matched e
      exact ⟨h, h' ▸ EqSwap.refl _⟩
    · rename_i x y hx
      split at e
      · cases e
        rename_i hxy
        subst hxy
        refine ⟨⟨.refl _, Covered.atom fun i h => hx i h, fun _ _ h => .inl h⟩, ?_⟩
        cases x with
        | fvar i => exact absurd rfl (hx i)
        | _ => exact .atom _
      · cases e
    · simp only [size] at hn
      obtain ⟨m1, e1, e2⟩ := andThen_some e
      obtain ⟨h1, s1⟩ := ih _ _ _ _ _ _ (by omega) e1
      obtain ⟨h2, s2⟩ := ih _ _ _ _ _ _ (by omega) e2
      refine ⟨(h1.trans h2).2.of (Covered.app.2 ⟨h1.cover.mono h2.ext, h2.cover⟩), .app ?_ s2⟩
      rwa [apply_extends h2.ext _ h1.cover]
    · simp only [size] at hn
      split at e
      · subst_vars
        obtain ⟨m1, e1, e2⟩ := andThen_some e
        obtain ⟨h1, s1⟩ := ih _ _ _ _ _ _ (by omega) e1
        obtain ⟨h2, s2⟩ := ih _ _ _ _ _ _ (by omega) e2
        refine ⟨(h1.trans h2).2.of (Covered.bind.2 ⟨h1.cover.mono h2.ext, h2.cover⟩), .bind _ ?_ s2⟩
        rwa [apply_extends h2.ext _ h1.cover]
      · cases e
    · cases e

/-- Untyped matching: success gives an instance, equal symbol by symbol. -/
theorem matchRaw_matched : ∀ (g : Term) (m m' : VMap) (s : Term), VMap.matchRaw m g s = some m' →
    Matched m m' g ∧ m'.apply g = s := by
  intro g
  induction g with
  | atom x =>
    intro m m' s e
    rw [VMap.matchRaw.eq_def] at e
    split at e
    · rename_i h
      cases h
      split at e
      · cases e
      · rename_i hs; exact matchVar_matched (by cases h : Term.escapes _ <;> simp_all) e
    · rename_i x y hx h
      cases h
      split at e
      · rename_i hxy
        cases e
        subst hxy
        refine ⟨⟨.refl _, Covered.atom fun i h => hx i h, fun _ _ h => .inl h⟩, ?_⟩
        cases x with
        | fvar i => exact absurd rfl (hx i)
        | _ => rfl
      · cases e
    · rename_i h; cases h
    · rename_i h; cases h
    · cases e
  | app f a ihf iha =>
    intro m m' s e
    rw [VMap.matchRaw.eq_def] at e
    split at e
    · rename_i h; cases h
    · rename_i h; cases h
    · rename_i h
      cases h
      obtain ⟨m1, e1, e2⟩ := Option.bind_eq_some_iff.1 e
      obtain ⟨h1, s1⟩ := ihf _ _ _ e1
      obtain ⟨h2, s2⟩ := iha _ _ _ e2
      refine ⟨(h1.trans h2).2.of (Covered.app.2 ⟨h1.cover.mono h2.ext, h2.cover⟩), ?_⟩
      simp only [VMap.apply]
      rw [apply_extends h2.ext _ h1.cover, s1, s2]
    · rename_i h; cases h
    · cases e
  | bind b f a ihf iha =>
    intro m m' s e
    rw [VMap.matchRaw.eq_def] at e
    split at e
    · rename_i h; cases h
    · rename_i h; cases h
    · rename_i h; cases h
    · rename_i h
      cases h
      split at e
      · subst_vars
        obtain ⟨m1, e1, e2⟩ := Option.bind_eq_some_iff.1 e
        obtain ⟨h1, s1⟩ := ihf _ _ _ e1
        obtain ⟨h2, s2⟩ := iha _ _ _ e2
        refine ⟨(h1.trans h2).2.of (Covered.bind.2 ⟨h1.cover.mono h2.ext, h2.cover⟩), ?_⟩
        simp only [VMap.apply]
        rw [apply_extends h2.ext _ h1.cover, s1, s2]
      · cases e
    · cases e

/-- Untyped matching finds an instance whenever there is one, and the one it finds is the least. -/
theorem matchRaw_complete : ∀ (g : Term) (m n : VMap) (s : Term), MapClosed n → Covered n g →
    Extends m n → n.apply g = s → ∃ m', VMap.matchRaw m g s = some m' ∧ Extends m' n := by
  intro g
  induction g with
  | atom x =>
    intro m n s hc hv he e
    subst e
    cases x with
    | fvar i =>
      obtain ⟨u, hu⟩ := Option.isSome_iff_exists.1 (hv i (by simp [hv_fvar]))
      have hcu := hc i u hu
      simp only [VMap.apply, hu, Option.getD_some]
      rw [VMap.matchRaw.eq_def]
      simp only [hcu, Bool.false_eq_true, if_false]
      unfold VMap.matchVar
      split
      · refine ⟨_, rfl, ?_⟩
        intro j w hj
        rw [VMap.get_set] at hj
        split at hj
        · cases hj; subst_vars; exact hu
        · exact he j w hj
      · rename_i w hw
        have := he i w hw
        rw [hu] at this; cases this
        exact ⟨m, by simp, he⟩
    | bvar i => exact ⟨m, by simp [VMap.matchRaw, VMap.apply], he⟩
    | sym i => exact ⟨m, by simp [VMap.matchRaw, VMap.apply], he⟩
  | app f a ihf iha =>
    intro m n s hc hv he e
    subst e
    rw [Covered.app] at hv
    obtain ⟨m1, e1, h1⟩ := ihf m n _ hc hv.1 he rfl
    obtain ⟨m2, e2, h2⟩ := iha m1 n _ hc hv.2 h1 rfl
    exact ⟨m2, by simp only [VMap.matchRaw, VMap.apply]; rw [e1]; exact e2, h2⟩
  | bind b f a ihf iha =>
    intro m n s hc hv he e
    subst e
    rw [Covered.bind] at hv
    obtain ⟨m1, e1, h1⟩ := ihf m n _ hc hv.1 he rfl
    obtain ⟨m2, e2, h2⟩ := iha m1 n _ hc hv.2 h1 rfl
    exact ⟨m2, by simp only [VMap.matchRaw, VMap.apply, if_true]; rw [e1]; exact e2, h2⟩

end Acorn
