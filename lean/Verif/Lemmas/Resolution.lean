/-
Equality resolution and factoring.
-/
import Verif.Lemmas.UnifyTyped
import Verif.Lemmas.Clause
import Verif.Model.Resolution
namespace Acorn

open Spec Term Unifier

universe u

/-- Swapping the sides of equality terms keeps types. -/
theorem EqSwap.typed {K : KCtx} {Γ : LCtx} {s t : Term} (h : EqSwap s t) : ∀ {Δ : BCtx} {J : Jdg},
    STyped K Γ Δ s J → STyped K Γ Δ t J ∧ (Typelike J → t = s) := by
  have app : ∀ {f g a b : Term} {Δ : BCtx} {J : Jdg},
      (∀ {J}, STyped K Γ Δ f J → STyped K Γ Δ g J ∧ (Typelike J → g = f)) →
      (∀ {J}, STyped K Γ Δ a J → STyped K Γ Δ b J ∧ (Typelike J → b = a)) →
      STyped K Γ Δ (.app f a) J → STyped K Γ Δ (.app g b) J ∧ (Typelike J → Term.app g b = .app f a) := by
    intro f g a b Δ J ihf iha h
    have key : Typelike J → Term.app g b = .app f a := by
      intro k
      obtain ⟨⟨J1, h1, k1⟩, ⟨J2, h2, k2⟩⟩ := h.app_typelike k
      rw [(ihf h1).2 k1, (iha h2).2 k2]
    refine ⟨?_, key⟩
    rcases h.app_inv with ⟨A, B, rfl, h1, h2, h3, h4⟩ | ⟨A, B, h1, h2, h3, h4⟩
    · exact .appVal (ihf h1).1 (iha h2).1 h3 h4
    · rw [(iha h2).2 (Or.inr ⟨_, rfl, h3⟩)]
      rcases h4 with rfl | ⟨k, rfl | ⟨T, rfl, hT⟩⟩
      · exact .appTy (ihf h1).1 h2 h3
      · rw [← (iha h2).2 (Or.inr ⟨_, rfl, h3⟩), key (.inl rfl)]; exact h
      · rw [← (iha h2).2 (Or.inr ⟨_, rfl, h3⟩), key (.inr ⟨T, rfl, endsKind_of_isKind hT⟩)]; exact h
  induction h with
  | atom a => exact fun h => ⟨h, fun _ => rfl⟩
  | app _ _ ih1 ih2 => exact app ih1 ih2
  | @bind A A' B B' c _ _ ih1 ih2 =>
    intro Δ J h
    have eA := (ih1 h.bind_dom).2 (.inl rfl)
    subst eA
    cases c with
    | pi =>
      obtain ⟨k, h1, h2⟩ := h.pi_inv
      rw [(ih2 h2).2 (.inl rfl)]
      exact ⟨h, fun _ => rfl⟩
    | lam =>
      refine ⟨?_, fun k => (h.lam_not_typelike k).elim⟩
      obtain ⟨B, rfl, h1, h2, h3, h4⟩ := h.lam_inv
      exact .lam h1 (ih2 h2).1 h3 h4
    | all =>
      refine ⟨?_, fun k => (h.quant_not_typelike (.inl rfl) k).elim⟩
      obtain ⟨rfl, h1, h2⟩ := h.quant_inv (Or.inl rfl)
      exact .all h1 (ih2 h2).1
    | ex =>
      refine ⟨?_, fun k => (h.quant_not_typelike (.inr rfl) k).elim⟩
      obtain ⟨rfl, h1, h2⟩ := h.quant_inv (Or.inr rfl)
      exact .ex h1 (ih2 h2).1
  | @swap T T' a a' b b' _ _ _ ih1 ih2 ih3 =>
    intro Δ J h
    obtain ⟨rfl, h1, h2, h3⟩ := h.eq_inv
    have e := (ih1 h1).2 (.inr ⟨_, rfl, rfl⟩)
    subst e
    refine ⟨.eq h1 (ih3 h3).1 (ih2 h2).1, ?_⟩
    rintro (k | ⟨T, hT, k⟩)
    · cases k
    · cases hT; cases k

/-- Only new variables were bound. -/
structure Stable (K : KCtx) (Q : Atom → Prop) (st st' : UState) : Prop where
  solved : Solved st'
  mono : Mono K Q st'
  ext : OutExt st st'
  cov : ∀ s t, Cov st s t → Cov st' s t
  ap : ∀ s t, Cov st s t → ap st' s t = ap st s t

theorem Stable.refl {K : KCtx} {Q : Atom → Prop} {st : UState} (h : Solved st) (hm : Mono K Q st) :
    Stable K Q st st := ⟨h, hm, .refl _, fun _ _ h => h, fun _ _ _ => rfl⟩

theorem Stable.trans {K : KCtx} {Q : Atom → Prop} {a b c : UState} (h : Stable K Q a b) (h' : Stable K Q b c) :
    Stable K Q a c :=
  ⟨h'.solved, h'.mono, h.ext.trans h'.ext, fun s t hc => h'.cov s t (h.cov s t hc),
    fun s t hc => (h'.ap s t (h.cov s t hc)).trans (h.ap s t hc)⟩

theorem stable_apply {K : KCtx} {Q : Atom → Prop} {n : Nat} {st st' : UState} {s : Nat} {t t' : Term}
    (h : Solved st) (hm : Mono K Q st) (e : Unifier.apply n st s t = some (t', st')) :
    Stable K Q st st' ∧ Cov st' s t ∧ t' = ap st' s t := by
  have h1 := apply_spec n h e
  obtain ⟨h2, h3⟩ := apply_mono hm e
  refine ⟨⟨h1.solved, h2, h3, fun s t hc => hc.mono h1.refines, fun s u hc => ?_⟩, h1.cov, h1.eq⟩
  rw [← h1.refines.ap hc]
  refine apply_none fun j hj => ?_
  rw [h1.out]
  exact h.vars hc hj

/-- The instance of a literal. -/
def litAp (st : UState) (l : Literal) : Literal := Literal.new l.positive (ap st 1 l.left) (ap st 1 l.right)

/-- The variables of a literal are bound. -/
def LitCov (st : UState) (l : Literal) : Prop := Cov st 1 l.left ∧ Cov st 1 l.right

theorem Stable.litAp {K : KCtx} {Q : Atom → Prop} {st st' : UState} (h : Stable K Q st st') {l : Literal}
    (hl : LitCov st l) : litAp st' l = litAp st l := by
  simp only [Acorn.litAp, h.ap _ _ hl.1, h.ap _ _ hl.2]

theorem Stable.litCov {K : KCtx} {Q : Atom → Prop} {st st' : UState} (h : Stable K Q st st') {l : Literal}
    (hl : LitCov st l) : LitCov st' l := ⟨h.cov _ _ hl.1, h.cov _ _ hl.2⟩

theorem applyLit_spec {K : KCtx} {Q : Atom → Prop} {n : Nat} {st st' : UState} {l l' : Literal}
    (h : Solved st) (hm : Mono K Q st) (e : applyLit n st 1 l = some (l', st')) :
    Stable K Q st st' ∧ LitCov st' l ∧ l' = litAp st' l := by
  unfold applyLit at e
  split at e
  · cases e
  · rename_i a st1 e1
    obtain ⟨s1, c1, q1⟩ := stable_apply h hm e1
    split at e
    · cases e
    · rename_i b st2 e2
      obtain ⟨s2, c2, q2⟩ := stable_apply s1.solved s1.mono e2
      simp only [Option.some.injEq, Prod.mk.injEq] at e
      obtain ⟨rfl, rfl⟩ := e
      refine ⟨s1.trans s2, ⟨s2.cov _ _ c1, c2⟩, ?_⟩
      simp only [litAp, s2.ap _ _ c1, ← q1, ← q2]

theorem applyLits_spec {K : KCtx} {Q : Atom → Prop} {n : Nat} : ∀ {ls : List Literal} {st st' : UState}
    {ls' : List Literal}, Solved st → Mono K Q st → applyLits n st ls = some (ls', st') →
    Stable K Q st st' ∧ (∀ l ∈ ls, LitCov st' l) ∧ ls' = ls.map (litAp st') := by
  intro ls
  induction ls with
  | nil =>
    intro st st' ls' h hm e
    simp only [applyLits, Option.some.injEq, Prod.mk.injEq] at e
    obtain ⟨rfl, rfl⟩ := e
    exact ⟨.refl h hm, by simp, rfl⟩
  | cons l ls ih =>
    intro st st' ls' h hm e
    unfold applyLits at e
    split at e
    · cases e
    · rename_i l1 st1 e1
      obtain ⟨s1, c1, q1⟩ := applyLit_spec h hm e1
      split at e
      · cases e
      · rename_i ls2 st2 e2
        obtain ⟨s2, c2, q2⟩ := ih s1.solved s1.mono e2
        simp only [Option.some.injEq, Prod.mk.injEq] at e
        obtain ⟨rfl, rfl⟩ := e
        refine ⟨s1.trans s2, ?_, ?_⟩
        · intro l' hl'
          rcases List.mem_cons.1 hl' with rfl | hl'
          · exact s2.litCov c1
          · exact c2 l' hl'
        · simp only [List.map_cons, s2.litAp c1, ← q1, ← q2]

/-- Not a sort. -/
def NotSort (a : Atom) : Prop := a ≠ .sym .type0 ∧ ∀ m l, a ≠ .sym (.typeclass m l)

theorem clauseUnifier_solved (Γ : LCtx) : Solved (clauseUnifier Γ) := by
  intro s i t h
  rw [show (clauseUnifier Γ).maps s = [] from rfl, get_nil] at h; cases h

theorem clauseUnifier_mono {K : KCtx} {Γ : LCtx} (hΓ : ∀ i T, Γ.get i = some T → Small K T) {Q : Atom → Prop}
    (hQ : ∀ i, Q (.fvar i)) : Mono K Q (clauseUnifier Γ) := by
  refine ⟨fun s Γ' e => ?_, fun i T e => ?_, fun i T e => ?_, fun s i t e => ?_, hQ⟩
  · change (if s = 1 then some Γ else none) = some Γ' at e
    split at e
    · cases e; exact hΓ
    · cases e
  · simp [clauseUnifier, Unifier.init, LCtx.get] at e
  · simp [clauseUnifier, Unifier.init, LCtx.get] at e
  · rw [show (clauseUnifier Γ).maps s = [] from rfl, get_nil] at e; cases e

/-- A value for each variable of the clause, from values of the output variables. -/
theorem assignment {K : KCtx} {Q : Atom → Prop} {M : Interp.{u}} (L : Lawful K M) {st : UState} {Γ : LCtx} (h : Solved st)
    (hm : Mono K Q st) (hin : st.inputs 1 = some Γ)
    (hu : ∀ i T, Γ.get i = some T → ((st.maps 1).get i).isSome = true ∨ ∃ d, ∀ ρ β, M.mem d (eval M ρ β T))
    {ρ' : Nat → M.D} (hρ : Models M st.out ρ') :
    ∃ ρ, Models M Γ ρ ∧ ∀ t β, Cov st 1 t → eval M ρ β t = eval M ρ' β (ap st 1 t) := by
  have : ∃ ρ : Nat → M.D, ∀ i, (∀ t, (st.maps 1).get i = some t → ∀ β, ρ i = eval M ρ' β t) ∧
      ((st.maps 1).get i = none → ∀ T, Γ.get i = some T → ∀ σ β, M.mem (ρ i) (eval M σ β T)) := by
    have ex : ∀ i, ∃ d : M.D, (∀ t, (st.maps 1).get i = some t → ∀ β, d = eval M ρ' β t) ∧
        ((st.maps 1).get i = none → ∀ T, Γ.get i = some T → ∀ σ β, M.mem d (eval M σ β T)) := by
      intro i
      cases e : (st.maps 1).get i with
      | some t =>
        refine ⟨eval M ρ' ρ' t, fun t' e' β => ?_, fun h => by cases h⟩
        cases e'
        exact eval_closed M ρ' ρ' β t (h 1 i t e).1
      | none =>
        cases eΓ : Γ.get i with
        | none => exact ⟨ρ' 0, fun t h => (by cases h), fun _ T h => (by cases h)⟩
        | some T =>
          rcases hu i T eΓ with h' | ⟨d, hd⟩
          · rw [e] at h'; cases h'
          · exact ⟨d, fun t h => (by cases h), fun _ T' h => (by cases h; exact hd)⟩
    exact ⟨fun i => Classical.choose (ex i), fun i => Classical.choose_spec (ex i)⟩
  obtain ⟨ρ, hρ1⟩ := this
  refine ⟨ρ, fun i T hT β => ?_, fun t β hc => ?_⟩
  · cases e : (st.maps 1).get i with
    | none => exact (hρ1 i).2 e T hT ρ β
    | some t =>
      obtain ⟨⟨Γ', T', e1, e2, e3⟩, -⟩ := hm.vals 1 i t e
      have : Γ' = Γ := by
        simp [ctxOf] at e1; rw [hin] at e1; cases e1; rfl
      subst this
      rw [hT] at e2; cases e2
      rw [(hρ1 i).1 t e β, eval_fvars M T ρ ρ' β fun j hj => by
        rw [(hm.inp 1 Γ' hin i T hT).noVars j] at hj; cases hj]
      exact HasType.mem L hρ e3.typed β
  · show _ = eval M ρ' β ((st.maps 1).apply t)
    rw [eval_apply (h.closed 1)]
    refine eval_fvars M t _ _ β fun j hj => ?_
    obtain ⟨u, hu⟩ := Option.isSome_iff_exists.1 (hc (by decide) j hj)
    rw [(hρ1 j).1 u hu β]
    simp only [Through, hu]

/-- Unified well-typed terms have the same value. -/
theorem same_value {K : KCtx} {M : Interp.{u}} (L : Lawful K M) {st : UState} {Γ : LCtx} (h : Solved st)
    (hm : Mono K NotSort st) (hin : st.inputs 1 = some Γ) {s t T : Term} (hs : SHasType K Γ s T)
    (qs : ∀ a ∈ s.atoms, NotSort a) (hsame : Same st 1 s 1 t) {ρ' : Nat → M.D} (hρ : Models M st.out ρ')
    (β : Nat → M.D) : eval M ρ' β (ap st 1 s) = eval M ρ' β (ap st 1 t) := by
  have hΓ : ctxOf st 1 = some Γ := by simp [ctxOf, hin]
  obtain ⟨Γ', B, d, J, e, h1, h2, h3, hq⟩ := Tm.ap hm (Tm.of_nil hΓ hs qs) hsame.cov1
  simp [ctxOf] at e
  subst e
  have h4 := h3.closed_nil h1 (apply_escapes (h.closed 1) s 0 (HasType.closed hs.typed).1)
  exact ((EqSwap.keeps L hρ (hsame.unified.eqSwap hq) BCtx.nil _ h4).1.eval β bmodels_nil).symm

/-- The instance of a well-typed term has its type. -/
theorem ap_typed {K : KCtx} {Q : Atom → Prop} {st : UState} {Γ : LCtx} (hm : Mono K Q st)
    (hin : st.inputs 1 = some Γ) {t T : Term} (h : SHasType K Γ t T) (hc : Cov st 1 t) :
    SHasType K st.out (ap st 1 t) T := by
  refine mono_apply (hm.inp 1 Γ hin) h (by intro i T h; cases h) fun k V hk hV => ?_
  obtain ⟨u, hu⟩ := Option.isSome_iff_exists.1 (hc (by decide) k hk)
  rw [hu]
  obtain ⟨⟨Γ', T', e1, e2, e3⟩, -⟩ := hm.vals 1 k u hu
  simp [ctxOf] at e1; rw [hin] at e1; cases e1
  rw [hV] at e2; cases e2; exact e3

/-- Unified well-typed terms have a common type. -/
theorem same_type {K : KCtx} {st : UState} {Γ : LCtx} (hm : Mono K NotSort st) (hin : st.inputs 1 = some Γ)
    {s t T T' : Term} (hs : SHasType K Γ s T) (ht : SHasType K Γ t T') (qs : ∀ a ∈ s.atoms, NotSort a)
    (hsame : Same st 1 s 1 t) : T = T' ∨ (isKind T = true ∧ isKind T' = true) := by
  have h1 := ap_typed hm hin hs hsame.cov1
  have h2 := ap_typed hm hin ht hsame.cov2
  have q : ∀ a ∈ (ap st 1 s).atoms, NotSort a := by
    intro a ha
    rcases atoms_apply ha with h | ⟨i, u, hu, h⟩
    · exact qs a h
    · exact (hm.vals 1 i u hu).2 a h
  exact Typed.unique ((EqSwap.typed (hsame.unified.eqSwap q) h1).1.typed) h2.typed

theorem kind_type0 {K : KCtx} {Γ : LCtx} {t T : Term} (h : SHasType K Γ t T) (k : isKind T = true) :
    SHasType K Γ t .type0 := by
  unfold isKind at k
  split at k
  · rename_i s
    cases s with
    | type0 => exact h
    | typeclass m l => exact .forget h
    | _ => cases k
  · cases k

theorem litAp_typed {K : KCtx} {Q : Atom → Prop} {st : UState} {Γ : LCtx}
    (hm : Mono K Q st) (hin : st.inputs 1 = some Γ) {l : Literal} (hl : LitTyped K Γ l) (hc : LitCov st l) :
    LitTyped K st.out (litAp st l) := by
  obtain ⟨T, h1, h2⟩ := hl
  exact litTyped_new.2 ⟨T, ap_typed hm hin h1 hc.1, ap_typed hm hin h2 hc.2⟩

theorem litAp_holds {M : Interp.{u}} {st : UState} {ρ ρ' β : Nat → M.D}
    (h : ∀ t β, Cov st 1 t → eval M ρ β t = eval M ρ' β (ap st 1 t)) {l : Literal} (hc : LitCov st l) :
    LitHolds M ρ' β (litAp st l) ↔ LitHolds M ρ β l := by
  rw [litAp, litHolds_new]
  simp only [LitHolds, h _ _ hc.1, h _ _ hc.2]

theorem mem_consFound {r : Option (Option Found)} {more : Option (List Found)} {fs : List Found} {f : Found}
    (e : consFound r more = some fs) (h : f ∈ fs) : r = some (some f) ∨ ∃ gs, more = some gs ∧ f ∈ gs := by
  unfold consFound at e
  split at e
  · cases e
    rcases List.mem_cons.1 h with rfl | h
    · exact .inl rfl
    · exact .inr ⟨_, rfl, h⟩
  · cases e; exact .inr ⟨_, rfl, h⟩
  · cases e

theorem mem_resolutionsFrom {K : KCtx} {n : Nat} {c : Clause} {f : Found} : ∀ {ls : List Literal} {i : Nat}
    {fs : List Found}, c.lits.drop i = ls → resolutionsFrom K n c i ls = some fs → f ∈ fs →
    ∃ j l, c.lits[j]? = some l ∧ l.positive = false ∧ resolveAt K n c j l = some (some f) := by
  intro ls
  induction ls with
  | nil => intro i fs _ e h; simp only [resolutionsFrom, Option.some.injEq] at e; subst e; cases h
  | cons l ls ih =>
    intro i fs hd e h
    unfold resolutionsFrom at e
    split at e
    · cases e; cases h
    · rename_i hp
      rcases mem_consFound e h with h | ⟨gs, e', h⟩
      · refine ⟨i, l, ?_, not_true hp, h⟩
        have := congrArg (fun x => x[0]?) hd
        simpa using this
      · refine ih (i := i + 1) ?_ e' h
        have := congrArg List.tail hd
        simpa using this

theorem mem_factorRest {K : KCtx} {n : Nat} {Γ : LCtx} {rest : List Literal} {s t : Term} {f : Found} :
    ∀ {ls : List Literal} {i : Nat} {fs : List Found}, rest.drop i = ls →
    factorRest K n Γ rest s t i ls = some fs → f ∈ fs →
    ∃ j l, rest[j]? = some l ∧ l.positive = true ∧
      (factorAt K n Γ rest s t j l.left l.right = some (some f) ∨
        factorAt K n Γ rest s t j l.right l.left = some (some f)) := by
  intro ls
  induction ls with
  | nil => intro i fs _ e h; simp only [factorRest, Option.some.injEq] at e; subst e; cases h
  | cons l ls ih =>
    intro i fs hd e h
    have hd' : rest.drop (i + 1) = ls := by
      have := congrArg List.tail hd
      simpa using this
    unfold factorRest at e
    split at e
    · exact ih hd' e h
    · rename_i hp
      have hi : rest[i]? = some l := by
        have := congrArg (fun x => x[0]?) hd
        simpa using this
      have hp' : l.positive = true := by
        cases hl : l.positive with
        | true => rfl
        | false => rw [hl] at hp; exact absurd rfl hp
      split at e
      · cases e
      · exact ih hd' e h
      · rcases mem_consFound e h with h | ⟨gs, e', h⟩
        · exact ⟨i, l, hi, hp', .inl h⟩
        · rcases mem_consFound e' h with h | ⟨gs', e'', h⟩
          · exact ⟨i, l, hi, hp', .inr h⟩
          · exact ih hd' e'' h

theorem mem_eraseIdx_or {l : Literal} {ls : List Literal} : ∀ {i : Nat} {k : Literal}, ls[i]? = some k → l ∈ ls →
    l = k ∨ l ∈ ls.eraseIdx i := by
  induction ls with
  | nil => intro i k _ h; cases h
  | cons a ls ih =>
    intro i k hi h
    cases i with
    | zero =>
      simp at hi; subst hi
      rcases List.mem_cons.1 h with h | h
      · exact .inl h
      · exact .inr h
    | succ i =>
      simp at hi
      rcases List.mem_cons.1 h with h | h
      · subst h; exact .inr (by simp [List.eraseIdx])
      · rcases ih hi h with h | h
        · exact .inl h
        · exact .inr (by simp [List.eraseIdx]; exact .inr h)

end Acorn
