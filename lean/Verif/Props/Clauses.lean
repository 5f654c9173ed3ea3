/-
C08: literals.
C09: clause normalization.
-/
import Verif.Lemmas.ClauseNew
import Verif.Spec.DemoSimple
namespace Acorn
open Term Spec

universe u

/-! ### C08 -/

/-- A literal built from a sign and two sides is true exactly when the equation, or the inequation,
between the two sides is. -/
theorem C08_new (M : Interp.{u}) (ρ β : Nat → M.D) (l r : Term) :
    (LitHolds M ρ β (Literal.new true l r) ↔ eval M ρ β l = eval M ρ β r) ∧
    (LitHolds M ρ β (Literal.new false l r) ↔ eval M ρ β l ≠ eval M ρ β r) :=
  ⟨litHolds_new true l r, litHolds_new false l r⟩

/-- The signed literals of a term say that it is, or is not, true. -/
theorem C08_signed (M : Interp.{u}) (ρ β : Nat → M.D) (t : Term) :
    (LitHolds M ρ β (Literal.pos t) ↔ eval M ρ β t = M.sym .true_) ∧
    (LitHolds M ρ β (Literal.neg t) ↔ eval M ρ β t ≠ M.sym .true_) ∧
    (∀ p, LitHolds M ρ β (Literal.fromSigned t p) ↔ (eval M ρ β t = M.sym .true_ ↔ p = true)) ∧
    LitHolds M ρ β Literal.trueValue ∧ ¬ LitHolds M ρ β Literal.falseValue := by
  refine ⟨litHolds_new true t .tt, litHolds_new false t .tt, ?_, ?_, ?_⟩
  · intro p; exact (litHolds_new p t .tt).trans litHolds_signed
  · exact (litHolds_new true .tt .tt).2 rfl
  · intro h; exact (litHolds_new false .tt .tt).1 h rfl

/-- Negation is complement. -/
theorem C08_negate (M : Interp.{u}) (ρ β : Nat → M.D) (l : Literal) :
    LitHolds M ρ β l.negate ↔ ¬ LitHolds M ρ β l := by
  obtain ⟨p, l, r⟩ := l
  cases p <;> simp [LitHolds, Literal.negate]

/-- A reported tautology is true. -/
theorem C08_tautology (M : Interp.{u}) (ρ β : Nat → M.D) {l : Literal} (h : l.isTautology = true) :
    LitHolds M ρ β l := by
  simp only [Literal.isTautology, Bool.and_eq_true, decide_eq_true_eq] at h
  simp [LitHolds, h.1, h.2]

/-- A reported impossibility is false. -/
theorem C08_impossible (M : Interp.{u}) (ρ β : Nat → M.D) {l : Literal} (h : l.isImpossible = true) :
    ¬ LitHolds M ρ β l := by
  simp only [Literal.isImpossible, Bool.and_eq_true, Bool.not_eq_true', decide_eq_true_eq] at h
  simp [LitHolds, h.1, h.2]

/-- Non-vacuity. -/
example : (Literal.new true Demo.zero Demo.zero).isTautology = true ∧
    (Literal.new false Demo.zero Demo.zero).isImpossible = true := by
  rw [new_new, new_new] <;> simp [Literal.isTautology, Literal.isImpossible, Literal.needsFlip, extCmp_refl]

/-- The constructor puts the sides in order: the left side never compares below the right one. -/
theorem C08_oriented (p : Bool) (l r : Term) :
    extCmp (Literal.new p l r).left (Literal.new p l r).right ≠ .lt := by
  have := new_oriented p l r
  simpa [Literal.needsFlip] using this

/-- For sides without binders it does not matter in which order they are given. -/
theorem C08_symmetric (p : Bool) {l r : Term} (hl : l.noBinder = true) (hr : r.noBinder = true) :
    Literal.new p l r = Literal.new p r l := by
  have := extCmp_swap _ l r (Nat.le_refl _)
  by_cases h : extCmp r l = .eq
  · have := extCmp_eq_eq _ _ _ (Nat.le_refl _) hr hl h; subst this; rfl
  · have e : Literal.needsFlip l r = !Literal.needsFlip r l := by
      simp only [Literal.needsFlip, this]
      generalize extCmp r l = o at *
      cases o
      · rfl
      · exact absurd rfl h
      · rfl
    simp only [Literal.new, Literal.newWithFlip, e]
    cases Literal.needsFlip r l <;> rfl

/-- Non-vacuity: two different sides. -/
example : ∃ l r : Term, l.noBinder = true ∧ r.noBinder = true ∧ l ≠ r :=
  ⟨.fvar 0, Demo.zero, rfl, rfl, by simp⟩

/-! ### C09 -/

/-- Whenever `Clause::new` returns, there is a renaming of variables such that for each assignment of
the original context the renamed assignment fits the new context and the literals say the same.
Partial: the types of terms may not mention values (`LitsTyped` uses the restricted judgement). -/
theorem C09_new_partial {ls : List Literal} {Γ : LCtx} {c : Clause} (e : Clause.new ls Γ = some c) :
    ∃ f : Nat → Nat, ∀ {K : KCtx} {M : Interp.{u}}, Lawful K M → LitsTyped K Γ ls →
      ∀ ρ, Models M Γ ρ → LitsTyped K c.ctx c.lits ∧ Models M c.ctx (ρ ∘ f) ∧
        ∀ β, (LitsHold M (ρ ∘ f) β c.lits ↔ LitsHold M ρ β ls) :=
  normalizePinned_spec e

/-- A clause is true when its normalized form is. -/
theorem C09_true_of_normalized_partial {ls : List Literal} {Γ : LCtx} {c : Clause} {K : KCtx}
    {M : Interp.{u}} (L : Lawful K M) (h : LitsTyped K Γ ls) (e : Clause.new ls Γ = some c)
    (hc : ClauseTrue M c) : ClauseTrue M ⟨ls, Γ⟩ := by
  obtain ⟨f, hf⟩ := normalizePinned_spec e
  intro ρ hρ β
  obtain ⟨_, m, hh⟩ := hf L h ρ hρ
  exact (hh β).1 (hc _ m β)

/-- The normalized form is true when the clause is, provided the types of the variables have elements
(normalization forgets variables that do not occur). -/
theorem C09_normalized_true_partial {ls : List Literal} {Γ : LCtx} {c : Clause} {K : KCtx}
    {M : Interp.{u}} (L : Lawful K M) (h : LitsTyped K Γ ls) (ho : CtxOrdered Γ)
    (hi : CtxInhabited M Γ) (e : Clause.new ls Γ = some c) (hc : ClauseTrue M ⟨ls, Γ⟩) :
    ClauseTrue M c := by
  intro σ hσ β
  obtain ⟨ρ, m, hh⟩ := normalizePinned_extend e L h ho h.declared (by omega) hi hσ
  exact (hh β).2 (hc ρ m β)

/-- `Clause::new` does not panic when the literals only use variables of the context, and the type of
each variable only earlier variables. -/
theorem C09_no_panic {ls : List Literal} {Γ : LCtx} (ho : CtxOrdered Γ)
    (hd : ∀ l ∈ ls, ∀ i, l.left.hasVar i = true ∨ l.right.hasVar i = true → (Γ.get i).isSome = true) :
    ∃ c, Clause.new ls Γ = some c :=
  normalizePinned_total ho hd (by omega)

/-- The clause `even(x1) or x0 = suc(x0)` in a context with a third, unused, variable meets all the
hypotheses above. -/
example : ∃ (ls : List Literal) (Γ : LCtx) (c : Clause) (ρ : Nat → Demo.M.D), Lawful Demo.K Demo.M ∧
    LitsTyped Demo.K Γ ls ∧ CtxOrdered Γ ∧ CtxInhabited Demo.M Γ ∧ Models Demo.M Γ ρ ∧
    Clause.new ls Γ = some c := by
  let ls : List Literal := [⟨true, .app Demo.even (.fvar 1), .tt⟩, ⟨true, .fvar 0, .app Demo.suc (.fvar 0)⟩]
  let Γ : LCtx := [some Demo.nat, some Demo.nat, some Demo.nat]
  have hΓ : ∀ i T, Γ.get i = some T → T = Demo.nat := by
    intro i T h
    match i, h with
    | 0, h => cases h; rfl
    | 1, h => cases h; rfl
    | 2, h => cases h; rfl
  have hv : ∀ i, i < 3 → STyped Demo.K Γ BCtx.nil (.fvar i) (.ty Demo.nat) := by
    intro i hi
    match i, hi with
    | 0, _ => exact .fvar rfl rfl
    | 1, _ => exact .fvar rfl rfl
    | 2, _ => exact .fvar rfl rfl
  have ht : LitsTyped Demo.K Γ ls := by
    intro l hl
    simp only [ls, List.mem_cons, List.not_mem_nil, or_false] at hl
    rcases hl with rfl | rfl
    · exact ⟨.boolTy, Demo.s_even (hv 1 (by omega)), Demo.s_tt⟩
    · exact ⟨Demo.nat, hv 0 (by omega), Demo.s_suc (hv 0 (by omega))⟩
  have ho : CtxOrdered Γ := by
    intro i T h j hj
    rw [hΓ i T h] at hj; simp [Term.hasVar, atoms] at hj
  obtain ⟨c, e⟩ := C09_no_panic (ls := ls) ho ht.declared
  refine ⟨ls, Γ, c, fun _ => (∅ : ZFSet), Demo.lawful, ht, ho, ?_, ?_, e⟩
  · intro i T h ρ
    rw [hΓ i T h]
    exact ⟨(∅ : ZFSet), fun β => ZFSet.omega_zero⟩
  · intro i T h β
    rw [hΓ i T h]
    exact ZFSet.omega_zero

/-- Disagreement: without the assumption that types have elements, normalization loses information.
The empty clause over a variable of an empty type is (vacuously) true, its normal form is false. -/
theorem C09_unused_variable_of_empty_type : ∃ (Γ : LCtx) (c : Clause), Lawful Demo.K Demo.M ∧
    LitsTyped Demo.K Γ [] ∧ CtxOrdered Γ ∧ Clause.new [] Γ = some c ∧
    ClauseTrue Demo.M ⟨[], Γ⟩ ∧ ¬ ClauseTrue Demo.M c := by
  refine ⟨[some Demo.void], ⟨[], []⟩, Demo.lawful, ?_, ?_, ?_, ?_, ?_⟩
  · intro l hl; cases hl
  · intro i T h j hj
    match i, h with
    | 0, h => cases h; simp [Term.hasVar, atoms] at hj
  · simp [Clause.new, Clause.normalizePinned, Clause.normVarsPinned, litsPass, sortLits, insertSort, dedupAdj,
      litsNormVars, LCtx.remap]
  · intro ρ hρ β
    exact absurd (hρ 0 _ rfl β) (ZFSet.notMem_empty _)
  · intro h
    obtain ⟨l, hl, _⟩ := h (fun _ => (∅ : ZFSet)) (Demo.models_nil _) (fun _ => (∅ : ZFSet))
    cases hl

/-- What the result looks like: every literal is in order, no literal `t ≠ t` without variables is
left, negative literals come first, and (for literals without binders) no literal is repeated. -/
theorem C09_normal_form {ls : List Literal} {Γ : LCtx} {c : Clause} (e : Clause.new ls Γ = some c) :
    (∀ l ∈ c.lits, extCmp l.left l.right ≠ .lt) ∧
    (∀ l ∈ c.lits, l.positive = false → l.left = l.right → l.left.hasAnyVar = true) ∧
    (∀ i j (hi : i < c.lits.length) (hj : j < c.lits.length), i < j →
      c.lits[j].positive = false → c.lits[i].positive = false) ∧
    ((∀ l ∈ c.lits, l.left.noBinder = true ∧ l.right.noBinder = true) → c.lits.Nodup) := by
  refine ⟨?_, ?_, ?_, normalizePinned_nodup e⟩
  · intro l hl
    have := normalizePinned_oriented e l hl
    simpa [Literal.isNormalized, Literal.needsFlip] using this
  · intro l hl hp he
    have := normalizePinned_not_droppable e l hl
    simp only [Literal.droppable, Literal.isImpossible, hp, he, Literal.hasAnyVar] at this
    rw [he]
    simpa using this
  · exact List.pairwise_iff_getElem.1 (normalizePinned_negFirst e)

/-- A normalized clause that is reported to be a tautology holds in every interpretation. -/
theorem C09_tautology {ls : List Literal} {Γ : LCtx} {c : Clause} (e : Clause.new ls Γ = some c)
    (h : c.isTautology = true) (M : Interp.{u}) (ρ β : Nat → M.D) : LitsHold M ρ β c.lits :=
  tautology_holds (normalizePinned_negFirst e) h ρ β

/-- More generally for any clause whose negative literals come first. -/
theorem C09_tautology_of_sorted {c : Clause}
    (hn : c.lits.Pairwise fun a b => b.positive = false → a.positive = false)
    (h : c.isTautology = true) (M : Interp.{u}) (ρ β : Nat → M.D) : LitsHold M ρ β c.lits :=
  tautology_holds hn h ρ β

/-- Non-vacuity: `not b or b`. -/
example : ∃ c : Clause, (c.lits.Pairwise fun a b => b.positive = false → a.positive = false) ∧
    c.isTautology = true :=
  ⟨⟨[⟨false, Demo.prop, .tt⟩, ⟨true, Demo.prop, .tt⟩], []⟩, by simp, by decide⟩

/-- Without that order the test is wrong: `not b or zero = suc(zero) or not b` is reported to be a
tautology, and is false where `b` is true. -/
theorem C09_unsorted_tautology_wrong : ∃ c : Clause, LitsTyped Demo.K c.ctx c.lits ∧
    c.isTautology = true ∧ ¬ ClauseTrue Demo.M c := by
  refine ⟨⟨[⟨false, Demo.prop, .tt⟩, ⟨true, Demo.zero, .app Demo.suc Demo.zero⟩,
    ⟨false, Demo.prop, .tt⟩], []⟩, ?_, by decide, ?_⟩
  · intro l hl
    simp only [List.mem_cons, List.not_mem_nil, or_false] at hl
    rcases hl with rfl | rfl | rfl
    · exact ⟨_, Demo.s_prop, Demo.s_tt⟩
    · exact ⟨_, Demo.s_zero, Demo.s_suc Demo.s_zero⟩
    · exact ⟨_, Demo.s_prop, Demo.s_tt⟩
  · intro h
    obtain ⟨l, hl, hh⟩ := h (fun _ => (∅ : ZFSet)) (Demo.models_nil _) (fun _ => (∅ : ZFSet))
    have hp : ¬ LitHolds Demo.M (fun _ => (∅ : ZFSet)) (fun _ => (∅ : ZFSet)) ⟨false, Demo.prop, .tt⟩ :=
      fun h => h rfl
    simp only [List.mem_cons, List.not_mem_nil, or_false] at hl
    rcases hl with rfl | rfl | rfl
    · exact hp hh
    · have e : (∅ : ZFSet) = SetModel.app (SetModel.lam ZFSet.omega fun n => insert n n) ∅ := hh
      rw [SetModel.app_lam ZFSet.omega_zero] at e
      have : (∅ : ZFSet) ∈ (insert ∅ ∅ : ZFSet) := ZFSet.mem_insert _ _
      rw [← e] at this
      exact ZFSet.notMem_empty _ this
    · exact hp hh

end Acorn
