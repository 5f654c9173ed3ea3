/-
Unifying terms of two clauses, and what the instances mean.
-/
import Verif.Model.ActiveSet
import Verif.Lemmas.CheckerRules
namespace Acorn
namespace Active
open Spec Term Unifier

universe u

variable {K : KCtx} {M : Interp.{u}} {Q : Atom → Prop}

/-- The instance of a literal. -/
def litApAt (st : UState) (s : Nat) (l : Literal) : Literal :=
  Literal.new l.positive (ap st s l.left) (ap st s l.right)

/-- The variables of a literal are bound. -/
def LitCovAt (st : UState) (s : Nat) (l : Literal) : Prop := Cov st s l.left ∧ Cov st s l.right

theorem stable_litApAt {st st' : UState} (h : Stable K Q st st') {s : Nat} {l : Literal} (hl : LitCovAt st s l) :
    litApAt st' s l = litApAt st s l := by
  simp only [litApAt, h.ap _ _ hl.1, h.ap _ _ hl.2]

theorem stable_litCovAt {st st' : UState} (h : Stable K Q st st') {s : Nat} {l : Literal} (hl : LitCovAt st s l) :
    LitCovAt st' s l := ⟨h.cov _ _ hl.1, h.cov _ _ hl.2⟩

theorem applyLitAt_spec {n s : Nat} {st st' : UState} {l l' : Literal}
    (h : Solved st) (hm : Mono K Q st) (e : applyLit n st s l = some (l', st')) :
    Stable K Q st st' ∧ LitCovAt st' s l ∧ l' = litApAt st' s l := by
  unfold applyLit at e
  split at e
  · cases e
  · rename_i a st1 e1
    obtain ⟨s1, c1, q1⟩ := stable_apply h hm e1
    split at e
    · cases e
    · rename_i b st2 e2
      obtain ⟨s2, c2, q2⟩ := stable_apply s1.solved s1.mono e2
      simp only [Option.some.injEq, Prod.mk.injEq] at e
      obtain ⟨rfl, rfl⟩ := e
      refine ⟨s1.trans s2, ⟨s2.cov _ _ c1, c2⟩, ?_⟩
      simp only [litApAt, s2.ap _ _ c1, ← q1, ← q2]

theorem applyRight_spec {n : Nat} : ∀ {ls : List Literal} {st st' : UState}
    {ls' : List Literal}, Solved st → Mono K Q st → applyRight n st ls = some (ls', st') →
    Stable K Q st st' ∧ (∀ l ∈ ls, LitCovAt st' 2 l) ∧ ls' = ls.map (litApAt st' 2) := by
  intro ls
  induction ls with
  | nil =>
    intro st st' ls' h hm e
    simp only [applyRight, Option.some.injEq, Prod.mk.injEq] at e
    obtain ⟨rfl, rfl⟩ := e
    exact ⟨.refl h hm, by simp, rfl⟩
  | cons l ls ih =>
    intro st st' ls' h hm e
    unfold applyRight at e
    split at e
    · cases e
    · rename_i l1 st1 e1
      obtain ⟨s1, c1, q1⟩ := applyLitAt_spec h hm e1
      split at e
      · cases e
      · rename_i ls2 st2 e2
        obtain ⟨s2, c2, q2⟩ := ih s1.solved s1.mono e2
        simp only [Option.some.injEq, Prod.mk.injEq] at e
        obtain ⟨rfl, rfl⟩ := e
        refine ⟨s1.trans s2, ?_, ?_⟩
        · intro l' hl'
          rcases List.mem_cons.1 hl' with rfl | hl'
          · exact stable_litCovAt s2 c1
          · exact c2 l' hl'
        · simp only [List.map_cons, stable_litApAt s2 c1, ← q1, ← q2]

theorem pairUnifier_solved (Γ Δ : LCtx) : Solved (pairUnifier Γ Δ) := by
  intro s i t h
  rw [show (pairUnifier Γ Δ).maps s = [] from rfl, get_nil] at h; cases h

theorem pairUnifier_mono {Γ Δ : LCtx} (hΓ : ValueVars K Γ) (hΔ : ValueVars K Δ) (hQ : ∀ i, Q (.fvar i)) :
    Mono K Q (pairUnifier Γ Δ) := by
  refine ⟨fun s Γ' e => ?_, fun i T e => ?_, fun i T e => ?_, fun s i t e => ?_, hQ⟩
  · change (if s = 1 then some Γ else if s = 2 then some Δ else none) = some Γ' at e
    split at e
    · cases e; exact hΓ
    · split at e
      · cases e; exact hΔ
      · cases e
  · simp [pairUnifier, Unifier.init, LCtx.get] at e
  · simp [pairUnifier, Unifier.init, LCtx.get] at e
  · rw [show (pairUnifier Γ Δ).maps s = [] from rfl, get_nil] at e; cases e

theorem ctxOf_at {st : UState} {s : Nat} {Γ : LCtx} (hs : s ≠ 0) (h : st.inputs s = some Γ) : ctxOf st s = some Γ := by
  simp [ctxOf, h, hs]

/-- A value for each variable of the clause, from values of the output variables. -/
theorem assignmentAt (L : Lawful K M) {st : UState} {s : Nat} (hs : s ≠ 0) {Γ : LCtx} (h : Solved st)
    (hm : Mono K Q st) (hin : st.inputs s = some Γ)
    (hu : ∀ i T, Γ.get i = some T → ((st.maps s).get i).isSome = true ∨ ∃ d, ∀ ρ β, M.mem d (eval M ρ β T))
    {ρ' : Nat → M.D} (hρ : Models M st.out ρ') :
    ∃ ρ, Models M Γ ρ ∧ ∀ t β, Cov st s t → eval M ρ β t = eval M ρ' β (ap st s t) := by
  have : ∃ ρ : Nat → M.D, ∀ i, (∀ t, (st.maps s).get i = some t → ∀ β, ρ i = eval M ρ' β t) ∧
      ((st.maps s).get i = none → ∀ T, Γ.get i = some T → ∀ σ β, M.mem (ρ i) (eval M σ β T)) := by
    have ex : ∀ i, ∃ d : M.D, (∀ t, (st.maps s).get i = some t → ∀ β, d = eval M ρ' β t) ∧
        ((st.maps s).get i = none → ∀ T, Γ.get i = some T → ∀ σ β, M.mem d (eval M σ β T)) := by
      intro i
      cases e : (st.maps s).get i with
      | some t =>
        refine ⟨eval M ρ' ρ' t, fun t' e' β => ?_, fun h => by cases h⟩
        cases e'
        exact eval_closed M ρ' ρ' β t (h s i t e).1
      | none =>
        cases eΓ : Γ.get i with
        | none => exact ⟨ρ' 0, fun t h => (by cases h), fun _ T h => (by cases h)⟩
        | some T =>
          rcases hu i T eΓ with h' | ⟨d, hd⟩
          · rw [e] at h'; cases h'
          · exact ⟨d, fun t h => (by cases h), fun _ T' h => (by cases h; exact hd)⟩
    exact ⟨fun i => Classical.choose (ex i), fun i => Classical.choose_spec (ex i)⟩
  obtain ⟨ρ, hρ1⟩ := this
  refine ⟨ρ, fun i T hT β => ?_, fun t β hc => ?_⟩
  · cases e : (st.maps s).get i with
    | none => exact (hρ1 i).2 e T hT ρ β
    | some t =>
      obtain ⟨⟨Γ', T', e1, e2, e3⟩, -⟩ := hm.vals s i t e
      have : Γ' = Γ := by
        rw [ctxOf_at hs hin] at e1; cases e1; rfl
      subst this
      rw [hT] at e2; cases e2
      rw [(hρ1 i).1 t e β, eval_fvars M T ρ ρ' β fun j hj => by
        rw [(hm.inp s Γ' hin i T hT).noVars j] at hj; cases hj]
      exact HasType.mem L hρ e3.typed β
  · show _ = eval M ρ' β (ap st s t)
    rw [show ap st s t = (st.maps s).apply t by simp [ap, hs]]
    rw [eval_apply (h.closed s)]
    refine eval_fvars M t _ _ β fun j hj => ?_
    obtain ⟨u, hu⟩ := Option.isSome_iff_exists.1 (hc hs j hj)
    rw [(hρ1 j).1 u hu β]
    simp only [Through, hu]

/-- The instance of a well-typed term has its type. -/
theorem ap_typedAt {st : UState} {s : Nat} (hs : s ≠ 0) {Γ : LCtx} (hm : Mono K Q st)
    (hin : st.inputs s = some Γ) {t T : Term} (h : SHasType K Γ t T) (hc : Cov st s t) :
    SHasType K st.out (ap st s t) T := by
  rw [show ap st s t = (st.maps s).apply t by simp [ap, hs]]
  refine mono_apply (hm.inp s Γ hin) h (by intro i T h; cases h) fun k V hk hV => ?_
  obtain ⟨u, hu⟩ := Option.isSome_iff_exists.1 (hc hs k hk)
  rw [hu]
  obtain ⟨⟨Γ', T', e1, e2, e3⟩, -⟩ := hm.vals s k u hu
  rw [ctxOf_at hs hin] at e1; cases e1
  rw [hV] at e2; cases e2; exact e3

theorem ap_notSort {st : UState} {s : Nat} (hs : s ≠ 0) (hm : Mono K NotSort st) {t : Term}
    (h : ∀ a ∈ t.atoms, NotSort a) : ∀ a ∈ (ap st s t).atoms, NotSort a := by
  rw [show ap st s t = (st.maps s).apply t by simp [ap, hs]]
  intro a ha
  rcases atoms_apply ha with h' | ⟨i, u, hu, h'⟩
  · exact h a h'
  · exact (hm.vals s i u hu).2 a h'

/-- Unified well-typed terms have the same value. -/
theorem same_valueAt (L : Lawful K M) {st : UState} {s1 s2 : Nat} (h1 : s1 ≠ 0) {Γ : LCtx}
    (hm : Mono K NotSort st) (hin : st.inputs s1 = some Γ) {s t T : Term} (hs : SHasType K Γ s T)
    (qs : ∀ a ∈ s.atoms, NotSort a) (hsame : Same st s1 s s2 t) {ρ' : Nat → M.D} (hρ : Models M st.out ρ')
    (β : Nat → M.D) : eval M ρ' β (ap st s1 s) = eval M ρ' β (ap st s2 t) :=
  ((EqSwap.keeps L hρ (hsame.unified.eqSwap (ap_notSort h1 hm qs)) BCtx.nil _
    (ap_typedAt h1 hm hin hs hsame.cov1)).1.eval β bmodels_nil).symm

/-- Unified well-typed terms have a common type. -/
theorem same_typeAt {st : UState} {s1 s2 : Nat} (h1 : s1 ≠ 0) (h2 : s2 ≠ 0) {Γ Δ : LCtx} (hm : Mono K NotSort st)
    (hin : st.inputs s1 = some Γ) (hin' : st.inputs s2 = some Δ)
    {s t T T' : Term} (hs : SHasType K Γ s T) (ht : SHasType K Δ t T') (qs : ∀ a ∈ s.atoms, NotSort a)
    (hsame : Same st s1 s s2 t) : T = T' ∨ (isKind T = true ∧ isKind T' = true) :=
  Typed.unique ((EqSwap.typed (hsame.unified.eqSwap (ap_notSort h1 hm qs)) (ap_typedAt h1 hm hin hs hsame.cov1)).1.typed)
    (ap_typedAt h2 hm hin' ht hsame.cov2).typed

theorem neat_litApAt {st : UState} {s : Nat} (hs : s ≠ 0) {Γ : LCtx} (hm : Mono K NotSort st)
    (hin : st.inputs s = some Γ) {l : Literal} (h : Neat K Γ l) (hc : LitCovAt st s l) :
    Neat K st.out (litApAt st s l) := by
  obtain ⟨⟨T, hT, h1, h2⟩, s1, s2⟩ := h
  exact neat_new.2 ⟨⟨T, hT, ap_typedAt hs hm hin h1 hc.1, ap_typedAt hs hm hin h2 hc.2⟩, ap_notSort hs hm s1, ap_notSort hs hm s2⟩

theorem litApAt_holds {st : UState} {s : Nat} {ρ ρ' β : Nat → M.D}
    (h : ∀ t β, Cov st s t → eval M ρ β t = eval M ρ' β (ap st s t)) {l : Literal} (hc : LitCovAt st s l) :
    LitHolds M ρ' β (litApAt st s l) ↔ LitHolds M ρ β l := by
  rw [litApAt, litHolds_new]
  simp only [LitHolds, h _ _ hc.1, h _ _ hc.2]

/-- A unification of a term of the left clause with one of the right clause. -/
theorem unify_step {n : Nat} {st st' : UState} {Γ Δ : LCtx} {s t S T : Term} (h : Solved st) (hm : Mono K NotSort st)
    (i1 : st.inputs 1 = some Γ) (i2 : st.inputs 2 = some Δ) (hs : SHasType K Γ s S) (ht : SHasType K Δ t T)
    (qs : SortFree s) (qt : SortFree t) (e : Unifier.unify K n st 1 s 2 t = some (true, st')) :
    Solved st' ∧ Mono K NotSort st' ∧ st'.inputs = st.inputs ∧ Refines st st' ∧ Same st' 1 s 2 t := by
  obtain ⟨p1, same⟩ := (correct K n).unify h e
  obtain ⟨m1, o1⟩ := (monoOk K NotSort n).unify h hm (.of_nil (ctxOf_at (by decide) i1) hs qs)
    (.of_nil (ctxOf_at (by decide) i2) ht qt) e
  exact ⟨p1.solved, m1, o1.inputs, p1.refines, same rfl⟩

end Active
end Acorn
