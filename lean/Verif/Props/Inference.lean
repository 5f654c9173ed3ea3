/-
C15: injectivity, extensionality, equality resolution and equality factoring are sound.

Both injectivity and extensionality are false as stated in a corner that the code does not test for:
 * injectivity compares heads with a function that looks through binders, so it confuses two different
   lambdas that bind the same type (`C15_injectivity_lambda_unsound`);
 * extensionality forgets that a peeled *type* variable may occur in the types of the other variables
   (`C15_extensionality_type_unsound`).
The theorems named `_partial` have the missing test as a hypothesis.
-/
import Verif.Lemmas.Extensionality
import Verif.Spec.DemoSimple
namespace Acorn
open Term Spec

universe u

/-! ### Injectivity -/

/-- Each list of literals found by injectivity holds, for all values of the variables for which the
clause holds, when the applications in the negative literals have an atom as their head. -/
theorem C15_injectivity_partial {M : Interp.{u}} {ls : List Literal} {rs : List (List Literal)}
    (ha : ∀ l ∈ ls, l.positive = false → AtomHead l.left ∧ AtomHead l.right)
    (e : findInjectivities ls = some rs) :
    ∀ r ∈ rs, ∀ ρ β : Nat → M.D, LitsHold M ρ β ls → LitsHold M ρ β r :=
  findInjectivitiesFrom_sound ha ls 0 rs rfl e

/-- Disagreement: `(fun x. suc x)(zero) != (fun x. x)((fun x. x)(zero))` is true, but injectivity
derives `zero != (fun x. x)(zero)` from it. -/
theorem C15_injectivity_lambda_unsound : ∃ (l : Literal) (r : List Literal),
    LitTyped Demo.K [] l ∧ findInjectivities [l] = some [r] ∧
    (∀ ρ β, LitsHold Demo.M ρ β [l]) ∧ ∀ ρ β, ¬ LitsHold Demo.M ρ β r := by
  have hid : ∀ {Γ : LCtx} {Δ : BCtx}, STyped Demo.K Γ Δ (.bind .lam Demo.nat (.bvar 0))
      (.ty (.pi Demo.nat Demo.nat)) := .lam (B := Demo.nat) (.tyOf Demo.s_nat) (.bvar rfl) rfl rfl
  let idz : Term := .app (.bind .lam Demo.nat (.bvar 0)) Demo.zero
  have hz : ∀ ρ β, eval Demo.M ρ β idz = eval Demo.M ρ β Demo.zero := fun ρ β =>
    Demo.lawful.beta _ _ _ ZFSet.omega_zero
  have tz : STyped Demo.K [] BCtx.nil idz (.ty Demo.nat) :=
    .appVal (B := Demo.nat) hid Demo.s_zero rfl rfl
  refine ⟨⟨false, .app (.bind .lam Demo.nat (.app Demo.suc (.bvar 0))) Demo.zero,
      .app (.bind .lam Demo.nat (.bvar 0)) idz⟩, [⟨false, idz, Demo.zero⟩], ⟨Demo.nat, ?_, ?_⟩,
    by decide +kernel, fun ρ β => ⟨_, List.mem_cons_self, ?_⟩, ?_⟩
  · exact .appVal (B := Demo.nat) (.lam (B := Demo.nat) (.tyOf Demo.s_nat) (Demo.s_suc (.bvar rfl)) rfl rfl)
      Demo.s_zero rfl rfl
  · exact .appVal (B := Demo.nat) hid tz rfl rfl
  · have e1 : eval Demo.M ρ β (.app (.bind .lam Demo.nat (.app Demo.suc (.bvar 0))) Demo.zero) =
        (insert ∅ ∅ : ZFSet) := by
      refine (Demo.lawful.beta _ _ _ ZFSet.omega_zero).trans ?_
      exact SetModel.app_lam ZFSet.omega_zero
    have e2 : eval Demo.M ρ β (.app (.bind .lam Demo.nat (.bvar 0)) idz) = (∅ : ZFSet) := by
      show Demo.M.app _ (eval Demo.M ρ β idz) = _
      rw [hz]
      exact Demo.lawful.beta _ _ _ ZFSet.omega_zero
    show ¬ _ = _
    rw [e1, e2]
    intro h
    exact ZFSet.notMem_empty ∅ ((congrArg (fun x : ZFSet => ∅ ∈ x) h).mp (ZFSet.mem_insert ∅ ∅))
  · rintro ρ β ⟨l, hl, hh⟩
    simp only [List.mem_cons, List.not_mem_nil, or_false] at hl
    subst hl
    exact hh (hz ρ β)

/-- Non-vacuity: `suc(x0) != suc(zero) or even(x0)` gives `x0 != zero or even(x0)`. -/
example : ∃ ls : List Literal, (∀ l ∈ ls, l.positive = false → AtomHead l.left ∧ AtomHead l.right) ∧
    findInjectivities ls =
      some [[⟨false, Demo.zero, .fvar 0⟩, ⟨true, .app Demo.even (.fvar 0), .tt⟩]] := by
  refine ⟨[⟨false, .app Demo.suc (.fvar 0), .app Demo.suc Demo.zero⟩,
    ⟨true, .app Demo.even (.fvar 0), .tt⟩], ?_, by decide +kernel⟩
  intro l hl hp
  simp only [List.mem_cons, List.not_mem_nil, or_false] at hl
  rcases hl with rfl | rfl
  · exact ⟨fun f a h => ⟨_, [.fvar 0], rfl⟩, fun f a h => ⟨_, [Demo.zero], rfl⟩⟩
  · cases hp

/-! ### Extensionality -/

/-- The literals found by extensionality hold for all values of the variables that are left, when the
types of these variables do not mention a peeled variable.  Nothing is asked of the peeled variables,
not even that their types have elements. -/
theorem C15_extensionality_partial {K : KCtx} {M : Interp.{u}} (L : Lawful K M) {c : Clause}
    (ho : CtxOrdered c.ctx) (hc : CtxClosed c.ctx) (h : LitsTyped K c.ctx c.lits)
    (ha : ∀ l ∈ c.lits, AtomHead l.left ∧ AtomHead l.right) {vp : Symbol → Bool} {ls : List Literal}
    {P : List Nat} (e : c.findExtensionality K vp = some (ls, P))
    (hT : ∀ v ∈ P, ∀ i T, i ∉ P → c.ctx.get i = some T → T.hasVar v = false)
    (ht : ClauseTrue M c) : ∀ ρ, ModelsExcept M c.ctx P ρ → ∀ β, LitsHold M ρ β ls :=
  findExtensionalityFrom_sound L ho hc h ha ht c.lits 0 rfl e hT

/-- Disagreement: the clause `single[T] = never[T] or y = z` with `y, z : T` is true, since `single`
and `never` only differ on types with at most one element.  Extensionality derives
`single = never or y = z` from it, which is false for two different elements of `Bool`. -/
theorem C15_extensionality_type_unsound : ∃ (c : Clause) (ls : List Literal) (P : List Nat),
    Lawful Demo.K Demo.M ∧ CtxOrdered c.ctx ∧ CtxClosed c.ctx ∧ LitsTyped Demo.K c.ctx c.lits ∧
    (∀ l ∈ c.lits, AtomHead l.left ∧ AtomHead l.right) ∧
    c.findExtensionality Demo.K (fun _ => false) = some (ls, P) ∧
    ClauseTrue Demo.M c ∧ ¬ ClauseTrue Demo.M ⟨ls, c.ctx⟩ := by
  let c : Clause := ⟨[⟨true, .app Demo.single (.fvar 0), .app Demo.never (.fvar 0)⟩,
    ⟨true, .fvar 1, .fvar 2⟩], [some .type0, some (.fvar 0), some (.fvar 0)]⟩
  refine ⟨c, [⟨true, Demo.never, Demo.single⟩, ⟨true, .fvar 1, .fvar 2⟩], [0], Demo.lawful, ?_, ?_, ?_,
    ?_, by decide +kernel, ?_, ?_⟩
  · intro i T h j hj
    match i, h with
    | 0, h => cases h; simp [hasVar, atoms] at hj
    | 1, h => cases h; rw [hv_fvar] at hj; subst hj; exact ⟨by omega, rfl⟩
    | 2, h => cases h; rw [hv_fvar] at hj; subst hj; exact ⟨by omega, rfl⟩
  · intro i T h
    match i, h with
    | 0, h => cases h; rfl
    | 1, h => cases h; rfl
    | 2, h => cases h; rfl
  · intro l hl
    simp only [c, List.mem_cons, List.not_mem_nil, or_false] at hl
    rcases hl with rfl | rfl
    · exact ⟨.boolTy, .appTy (B := .boolTy) (Demo.s_sym rfl rfl) (.fvar rfl rfl) rfl,
        .appTy (B := .boolTy) (Demo.s_sym rfl rfl) (.fvar rfl rfl) rfl⟩
    · exact ⟨.fvar 0, .fvar rfl rfl, .fvar rfl rfl⟩
  · intro l hl
    simp only [c, List.mem_cons, List.not_mem_nil, or_false] at hl
    rcases hl with rfl | rfl
    · exact ⟨fun f a h => ⟨_, [.fvar 0], rfl⟩, fun f a h => ⟨_, [.fvar 0], rfl⟩⟩
    · exact ⟨fun f a h => (by cases h), fun f a h => (by cases h)⟩
  · intro ρ hρ β
    have h0 : (ρ 0 : ZFSet) ∈ SetModel.U := hρ 0 .type0 rfl β
    have h1 : (show ZFSet.{1} from ρ 1) ∈ (show ZFSet.{1} from ρ 0) := hρ 1 (.fvar 0) rfl β
    have h2 : (show ZFSet.{1} from ρ 2) ∈ (show ZFSet.{1} from ρ 0) := hρ 2 (.fvar 0) rfl β
    by_cases h : ρ 1 = ρ 2
    · exact ⟨⟨true, .fvar 1, .fvar 2⟩, by simp [c], h⟩
    · refine ⟨⟨true, .app Demo.single (.fvar 0), .app Demo.never (.fvar 0)⟩, by simp [c], ?_⟩
      show SetModel.app (SetModel.lam SetModel.U _) (ρ 0) = SetModel.app (SetModel.lam SetModel.U _) (ρ 0)
      rw [SetModel.app_lam h0, SetModel.app_lam h0, SetModel.ofProp, if_neg]
      intro hall
      exact h (hall _ h1 _ h2)
  · intro h
    let ρ : Nat → Demo.M.D := fun i => match i with
      | 0 => SetModel.bool
      | 1 => SetModel.tt
      | _ => SetModel.ff
    have hρ : Models Demo.M c.ctx ρ := by
      intro i T h β
      match i, h with
      | 0, h => cases h; exact SetModel.U_bool
      | 1, h => cases h; exact SetModel.mem_bool.2 (Or.inl rfl)
      | 2, h => cases h; exact SetModel.mem_bool.2 (Or.inr rfl)
    obtain ⟨l, hl, hh⟩ := h ρ hρ ρ
    simp only [List.mem_cons, List.not_mem_nil, or_false] at hl
    rcases hl with rfl | rfl
    · have hh : SetModel.lam SetModel.U _ = SetModel.lam SetModel.U _ := hh
      have := congrArg (fun f => SetModel.app f ∅) hh
      simp only [SetModel.app_lam SetModel.U_empty] at this
      rw [SetModel.ofProp, if_pos (fun a ha => absurd ha (ZFSet.notMem_empty a))] at this
      exact SetModel.tt_ne_ff this.symm
    · exact SetModel.tt_ne_ff hh

/-- Non-vacuity: `add(zero, x0) = suc(x0) or even(zero)` gives `add(zero) = suc or even(zero)`. -/
example : ∃ c : Clause, CtxOrdered c.ctx ∧ CtxClosed c.ctx ∧ LitsTyped Demo.K c.ctx c.lits ∧
    (∀ l ∈ c.lits, AtomHead l.left ∧ AtomHead l.right) ∧
    c.findExtensionality Demo.K (fun _ => false) =
      some ([⟨true, .app Demo.add Demo.zero, Demo.suc⟩, ⟨true, .app Demo.even Demo.zero, .tt⟩], [0]) ∧
    ∀ v ∈ [0], ∀ i T, i ∉ [0] → c.ctx.get i = some T → T.hasVar v = false := by
  let c : Clause := ⟨[⟨true, .app (.app Demo.add Demo.zero) (.fvar 0), .app Demo.suc (.fvar 0)⟩,
    ⟨true, .app Demo.even Demo.zero, .tt⟩], [some Demo.nat]⟩
  refine ⟨c, ?_, ?_, ?_, ?_, by decide +kernel, ?_⟩
  · intro i T h j hj
    match i, h with
    | 0, h => cases h; simp [hasVar, atoms] at hj
  · intro i T h
    match i, h with
    | 0, h => cases h; rfl
  · intro l hl
    simp only [c, List.mem_cons, List.not_mem_nil, or_false] at hl
    rcases hl with rfl | rfl
    · exact ⟨Demo.nat, Demo.s_add Demo.s_zero (.fvar rfl rfl), Demo.s_suc (.fvar rfl rfl)⟩
    · exact ⟨.boolTy, Demo.s_even Demo.s_zero, Demo.s_tt⟩
  · intro l hl
    simp only [c, List.mem_cons, List.not_mem_nil, or_false] at hl
    rcases hl with rfl | rfl
    · exact ⟨fun f a h => ⟨_, [Demo.zero, .fvar 0], rfl⟩, fun f a h => ⟨_, [.fvar 0], rfl⟩⟩
    · exact ⟨fun f a h => ⟨_, [Demo.zero], rfl⟩, fun f a h => (by cases h)⟩
  · intro v _ i T hi h
    match i, h with
    | 0, h => simp at hi

end Acorn
