/-
C13: boolean reductions are sound.
C14: the checker's boolean reduction sets are sufficient.
C41: the reductions listed by the search are the ones a certificate step replays.

C13 is false as stated in one corner: a reduction may drop a variable over a type without elements
(`C13_empty_type_unsound`); the checker guards against this (see C26).
The theorems named `_partial` cover literals typed by the restricted judgement (`LitsTyped`) and, for
disequalities of functions, simple function types between small types (`FnTyped`).
-/
import Verif.Lemmas.BoolSound
import Verif.Spec.DemoSimple
namespace Acorn
open Term Spec

universe u

/-! ### C13 -/

/-- Each clause produced by a boolean reduction holds wherever the source clause holds.  The reduction
may add a variable (`preCtx`) and renumbers variables (`varIds`): the new variable `j` is the old
variable `varIds[j]`. -/
theorem C13_sound_partial {K : KCtx} {M : Interp.{u}} (L : Lawful K M) {c : Clause}
    (ho : CtxOrdered c.ctx) (hc : CtxClosed c.ctx) (h : LitsTyped K c.ctx c.lits) {fuel : Nat}
    {k : BoolKind} {i : Nat} {t : Trace}
    (hfn : FnDiseqSimple K c.ctx c.lits)
    (e : c.boolReductionAt fuel K k i = some t) :
    (∀ j T, c.ctx.get j = some T → t.preCtx.get j = some T) ∧
    ∀ ρ, Models M t.preCtx ρ → ∀ σ, (∀ j v, t.varIds[j]? = some v → σ j = ρ v) →
      ∀ β, LitsHold M ρ β c.lits → LitsHold M σ β t.clause.lits := by
  obtain ⟨_, h1, h2⟩ := boolReductionAt_sound L ho hc h (hfn.kind (ctxOk_of ho hc) h e) e
  exact ⟨h1, fun ρ hρ σ hσ β => (h2 ρ hρ).2.2 σ hσ β⟩

/-- When the variables that the reduction drops range over types with elements, the produced clause is
true if the source clause is. -/
theorem C13_true_partial {K : KCtx} {M : Interp.{u}} (L : Lawful K M) {c : Clause}
    (ho : CtxOrdered c.ctx) (hc : CtxClosed c.ctx) (h : LitsTyped K c.ctx c.lits) {fuel : Nat}
    {k : BoolKind} {i : Nat} {t : Trace}
    (hfn : FnDiseqSimple K c.ctx c.lits)
    (e : c.boolReductionAt fuel K k i = some t) (hi : VarsInhabited M t.preCtx (· ∉ t.varIds))
    (ht : ClauseTrue M c) : ClauseTrue M t.clause := by
  obtain ⟨o, _, h2⟩ := boolReductionAt_sound L ho hc h (hfn.kind (ctxOk_of ho hc) h e) e
  intro σ hσ β
  obtain ⟨ρ, hρ, ha⟩ := boolReductionAt_extend e o hi hσ
  obtain ⟨m, _, h3⟩ := h2 ρ hρ
  exact h3 σ ha β (ht ρ m β)

/-- The produced clause is well typed (in every interpretation where its variables can be given
values). -/
theorem C13_typed_partial {K : KCtx} {M : Interp.{u}} (L : Lawful K M) {c : Clause}
    (ho : CtxOrdered c.ctx) (hc : CtxClosed c.ctx) (h : LitsTyped K c.ctx c.lits) {fuel : Nat}
    {k : BoolKind} {i : Nat} {t : Trace}
    (hfn : FnDiseqSimple K c.ctx c.lits)
    (e : c.boolReductionAt fuel K k i = some t) {ρ : Nat → M.D} (hρ : Models M t.preCtx ρ) :
    LitsTyped K t.clause.ctx t.clause.lits :=
  ((boolReductionAt_sound L ho hc h (hfn.kind (ctxOk_of ho hc) h e) e).2.2 ρ hρ).2.1

/-- Disagreement: a dropped variable over an empty type.  The clause `forall (x: Void). false` is
(vacuously) true, its reduction is the empty clause. -/
theorem C13_empty_type_unsound : ∃ (c : Clause) (k : BoolKind) (t : Trace), Lawful Demo.K Demo.M ∧
    CtxOrdered c.ctx ∧ CtxClosed c.ctx ∧ LitsTyped Demo.K c.ctx c.lits ∧
    FnDiseqSimple Demo.K c.ctx c.lits ∧ c.boolReductionAt 5 Demo.K k 0 = some t ∧
    ClauseTrue Demo.M c ∧ ¬ ClauseTrue Demo.M t.clause := by
  let c : Clause := ⟨[⟨true, .bind .all Demo.void .ff, .tt⟩], []⟩
  refine ⟨c, .posForallOpen, ⟨⟨[⟨true, .ff, .tt⟩], []⟩, [], [some Demo.void]⟩, Demo.lawful, ?_, ?_, ?_, ?_,
    by decide +kernel, ?_, ?_⟩
  · intro i T h; simp [c, LCtx.get] at h
  · intro i T h; simp [c, LCtx.get] at h
  · intro l hl
    simp only [c, List.mem_cons, List.not_mem_nil, or_false] at hl
    subst hl
    exact ⟨.boolTy, .all (.tyOf (Demo.s_sym rfl rfl)) ff_typed, tt_typed⟩
  · intro l hl hp
    simp only [c, List.mem_cons, List.not_mem_nil, or_false] at hl
    subst hl
    cases hp
  · intro ρ hρ β
    refine ⟨_, List.mem_cons_self, ?_⟩
    exact (Demo.lawful.all_tt _ _ (fun a ha => absurd ha (ZFSet.notMem_empty a))).2
      (fun a ha => absurd ha (ZFSet.notMem_empty a))
  · intro h
    obtain ⟨l, hl, hh⟩ := h (fun _ => (∅ : ZFSet)) (Demo.models_nil _) (fun _ => (∅ : ZFSet))
    simp only [List.mem_cons, List.not_mem_nil, or_false] at hl
    subst hl
    exact Demo.lawful.tt_ne_ff hh.symm

/-- Non-vacuity: `forall y. even(y)` opens to `even(x0)`, and the clause meets the hypotheses. -/
example : ∃ c : Clause, CtxOrdered c.ctx ∧ CtxClosed c.ctx ∧ LitsTyped Demo.K c.ctx c.lits ∧
    FnDiseqSimple Demo.K c.ctx c.lits ∧ c.boolReductionAt 5 Demo.K .posForallOpen 0 =
      some ⟨⟨[⟨true, .app Demo.even (.fvar 0), .tt⟩], [some Demo.nat]⟩, [0], [some Demo.nat]⟩ := by
  let c : Clause := ⟨[⟨true, .bind .all Demo.nat (.app Demo.even (.bvar 0)), .tt⟩], []⟩
  refine ⟨c, ?_, ?_, ?_, ?_, by decide +kernel⟩
  · intro i T h; simp [c, LCtx.get] at h
  · intro i T h; simp [c, LCtx.get] at h
  · intro l hl
    simp only [c, List.mem_cons, List.not_mem_nil, or_false] at hl
    subst hl
    exact ⟨.boolTy, .all (.tyOf Demo.s_nat) (Demo.s_even (.bvar rfl)), tt_typed⟩
  · intro l hl hp
    simp only [c, List.mem_cons, List.not_mem_nil, or_false] at hl
    subst hl
    cases hp

/-- Non-vacuity for the function reduction: `suc != suc` (at type `nat -> nat`). -/
example : ∃ c : Clause, CtxOrdered c.ctx ∧ CtxClosed c.ctx ∧ LitsTyped Demo.K c.ctx c.lits ∧
    FnDiseqSimple Demo.K c.ctx c.lits ∧
    (c.boolReductionAt 5 Demo.K .fnNeqToExists 0).isSome = true := by
  let c : Clause := ⟨[⟨false, Demo.suc, Demo.suc⟩], []⟩
  have hs : SHasType Demo.K [] Demo.suc (.pi Demo.nat Demo.nat) := Demo.s_sym rfl rfl
  refine ⟨c, ?_, ?_, ?_, ?_, by decide +kernel⟩
  · intro i T h; simp [c, LCtx.get] at h
  · intro i T h; simp [c, LCtx.get] at h
  · intro l hl
    simp only [c, List.mem_cons, List.not_mem_nil, or_false] at hl
    subst hl
    exact ⟨_, hs, hs⟩
  · intro l hl hp A B _
    simp only [c, List.mem_cons, List.not_mem_nil, or_false] at hl
    subst hl
    exact ⟨Demo.nat, Demo.nat, hs, hs, Demo.s_nat, Demo.s_nat⟩

/-! ### C14 -/

/-- If every clause of one of the checker's reduction sets is true then the clause is true.  `inh` is
whatever test the checker uses to skip reductions that drop variables. -/
theorem C14_sets_sufficient_partial {K : KCtx} {M : Interp.{u}} (L : Lawful K M) {c : Clause}
    (ho : CtxOrdered c.ctx) (hc : CtxClosed c.ctx) (h : LitsTyped K c.ctx c.lits)
    (hfn : FnDiseqSimple K c.ctx c.lits) {fuel : Nat} {inh : Trace → Bool}
    {sets : List (List Clause)} (e : c.checkerReductionSets fuel K inh = some sets)
    {s : List Clause} (hs : s ∈ sets) (ht : ∀ d ∈ s, ClauseTrue M d) : ClauseTrue M c :=
  checkerReductionSets_complete L ho hc h (fun _ hl he => hfn.at (ctxOk_of ho hc) h hl he) e hs ht

/-- Non-vacuity: `even(x0) and even(x1)` has one set, of two clauses. -/
example : ∃ c : Clause, CtxOrdered c.ctx ∧ CtxClosed c.ctx ∧ LitsTyped Demo.K c.ctx c.lits ∧
    FnDiseqSimple Demo.K c.ctx c.lits ∧ c.checkerReductionSets 9 Demo.K (fun _ => true) =
      some [[⟨[⟨true, .app Demo.even (.fvar 0), .tt⟩], [some Demo.nat]⟩,
        ⟨[⟨true, .app Demo.even (.fvar 0), .tt⟩], [some Demo.nat]⟩]] := by
  let c : Clause := ⟨[⟨true, .and (.app Demo.even (.fvar 0)) (.app Demo.even (.fvar 1)), .tt⟩],
    [some Demo.nat, some Demo.nat]⟩
  have hΓ : ∀ i T, c.ctx.get i = some T → T = Demo.nat := by
    intro i T h
    match i, h with
    | 0, h => cases h; rfl
    | 1, h => cases h; rfl
  refine ⟨c, ?_, ?_, ?_, ?_, by decide +kernel⟩
  · intro i T h j hj
    rw [hΓ i T h] at hj; simp [Term.hasVar, atoms] at hj
  · intro i T h
    rw [hΓ i T h]; rfl
  · intro l hl
    simp only [c, List.mem_cons, List.not_mem_nil, or_false] at hl
    subst hl
    exact ⟨.boolTy, .and (Demo.s_even (.fvar rfl rfl)) (Demo.s_even (.fvar rfl rfl)), tt_typed⟩
  · intro l hl hp
    simp only [c, List.mem_cons, List.not_mem_nil, or_false] at hl
    subst hl
    cases hp

/-! ### C41 -/

/-- Every reduction listed by the search is exactly the one obtained by replaying its kind at its
literal. -/
theorem C41_replay {K : KCtx} {fuel : Nat} {c : Clause} {rs : List (BoolKind × Nat × Trace)}
    (e : c.findBoolReductions fuel K = some rs) {k : BoolKind} {i : Nat} {t : Trace}
    (h : (k, i, t) ∈ rs) : c.boolReductionAt fuel K k i = some t :=
  (findBoolReductions_spec e).2 k i t h

/-- Non-vacuity: a clause with two listed reductions. -/
example : ∃ (c : Clause) (rs : List (BoolKind × Nat × Trace)), c.findBoolReductions 9 Demo.K = some rs ∧
    rs.map (fun r => (r.1, r.2.1)) = [(.negOrLeft, 0), (.negOrRight, 0)] := by
  let c : Clause := ⟨[⟨false, .or Demo.prop (.app Demo.even Demo.zero), .tt⟩], []⟩
  refine ⟨c, (c.findBoolReductions 9 Demo.K).getD [], by decide +kernel, by decide +kernel⟩

end Acorn
