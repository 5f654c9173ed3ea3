/-
C05: reported types are sound.

Full statement: whenever the checker assigns a type to a term in a context, the value of the term is
an element of the value of that type, in every lawful interpretation and every assignment respecting
the context.  This is false of the code (`C05_type0_in_itself`, `C05_element_as_class_argument`):
the checker takes `Type0 : Type0`, does not look inside quantifiers and function types, and accepts an
element of a typeclass-constrained type where a type of the class is required.  What holds is proved
in the theorems named `_partial`.
-/
import Verif.Lemmas.CheckedType
import Verif.Spec.Demo
namespace Acorn
open Spec Term

universe u

/-- If the checker assigns a type to a term, and it also accepts the parts it skips (`DeepOk`), the
value of the term is an element of the value of the type.  Missing from the full property: the
`DeepOk` hypothesis. -/
theorem C05_checked_sound_partial {K : KCtx} {M : Interp.{u}} (L : Lawful K M) {Γ : LCtx}
    (hΓ : CtxOk Γ) {t T : Term} (hd : DeepOk K Γ t) (hc : checkedType K Γ t = some T)
    {ρ : Nat → M.D} (hρ : Models M Γ ρ) (β : Nat → M.D) :
    M.mem (eval M ρ β t) (eval M ρ β T) :=
  ((typed_of_checkedType t.size (Nat.le_refl _) hΓ).1 T hd hc).mem L hρ β

/-- The same, syntactically: the term has the reported type in the textbook type system. -/
theorem C05_checked_typed_partial {K : KCtx} {Γ : LCtx} (hΓ : CtxOk Γ) {t T : Term}
    (hd : DeepOk K Γ t) (hc : checkedType K Γ t = some T) : HasType K Γ t T :=
  (typed_of_checkedType t.size (Nat.le_refl _) hΓ).1 T hd hc

/-- Non-vacuity: `suc(zero)` and a variable `x0 : nat` applied to `add`, in a lawful interpretation. -/
example : checkedType Demo.K [some Demo.nat] (.app (.app Demo.add (.fvar 0)) (.app Demo.suc Demo.zero))
    = some Demo.nat ∧ DeepOk Demo.K [some Demo.nat]
      (.app (.app Demo.add (.fvar 0)) (.app Demo.suc Demo.zero)) ∧ CtxOk [some Demo.nat] ∧
    Lawful Demo.K Demo.M ∧ ∃ ρ, Models Demo.M [some Demo.nat] ρ := by
  have t1 : checkedType Demo.K [some Demo.nat] Demo.add = some (.pi Demo.nat (.pi Demo.nat Demo.nat)) := by
    rw [checkedType]; rfl
  have t2 : checkedType Demo.K [some Demo.nat] (.fvar 0) = some Demo.nat := by
    rw [checkedType]; rfl
  have t3 : checkedType Demo.K [some Demo.nat] (.app Demo.add (.fvar 0)) = some (.pi Demo.nat Demo.nat) := by
    rw [checkedType, t1, t2]; rfl
  have t4 : checkedType Demo.K [some Demo.nat] Demo.suc = some (.pi Demo.nat Demo.nat) := by
    rw [checkedType]; rfl
  have t5 : checkedType Demo.K [some Demo.nat] Demo.zero = some Demo.nat := by
    rw [checkedType]; rfl
  have t6 : checkedType Demo.K [some Demo.nat] (.app Demo.suc Demo.zero) = some Demo.nat := by
    rw [checkedType, t4, t5]; rfl
  refine ⟨?_, ?_, ?_, Demo.lawful, fun _ => (∅ : ZFSet), ?_⟩
  · rw [checkedType, t3, t6]; rfl
  · refine .app (.app (.sym rfl fun T h => Demo.ground h) .fvar ?_)
      (.app (.sym rfl fun T h => Demo.ground h) (.sym rfl fun T h => Demo.ground h) ?_) ?_
    · intro A B m l h e; rw [t1] at h; cases h; cases e
    · intro A B m l h e; rw [t4] at h; cases h; cases e
    · intro A B m l h e; rw [t3] at h; cases h; cases e
  · intro i T h
    match i, h with
    | 0, h =>
      cases h
      exact ⟨rfl, fun j hj => by simp [hasVar, atoms] at hj⟩
  · intro i T h β
    match i, h with
    | 0, h => cases h; exact ZFSet.omega_zero

/-- For a well-typed term, the unchecked type computation returns its type (up to the difference
between `Type0` and a typeclass for terms that are types). -/
theorem C05_get_type {K : KCtx} {Γ : LCtx} (hΓ : CtxOk Γ) {t T : Term} (h : HasType K Γ t T) :
    getType K Γ t = some T ∨ (isKind T = true ∧ ∃ T', getType K Γ t = some T' ∧ isKind T' = true) :=
  getType_of_typed t.size (Nat.le_refl _) hΓ h

/-- For a term of a non-kind type, the unchecked computation returns exactly that type, and the value
of the term is an element of it. -/
theorem C05_get_type_sound {K : KCtx} {M : Interp.{u}} (L : Lawful K M) {Γ : LCtx} (hΓ : CtxOk Γ)
    {t T : Term} (h : HasType K Γ t T) (hk : isKind T = false) {ρ : Nat → M.D} (hρ : Models M Γ ρ)
    (β : Nat → M.D) : ∃ T', getType K Γ t = some T' ∧ M.mem (eval M ρ β t) (eval M ρ β T') := by
  rcases C05_get_type hΓ h with h' | ⟨h', _⟩
  · exact ⟨T, h', h.mem L hρ β⟩
  · rw [hk] at h'; cases h'

/-- Non-vacuity: a lambda and a quantifier are well typed. -/
example : HasType Demo.K [] (.all Demo.nat (.app Demo.even (.bvar 0))) .boolTy ∧
    HasType Demo.K [] (.lam Demo.nat (.app Demo.suc (.bvar 0))) (.pi Demo.nat Demo.nat) := by
  refine ⟨.all (.tyOf Demo.nat_ty) ?_, .lam (.tyOf Demo.nat_ty) ?_ rfl⟩
  · exact .app (A := Demo.nat) (B := .boolTy) Demo.even_ty (.bvar rfl)
  · exact .app (A := Demo.nat) (B := Demo.nat) Demo.suc_ty (.bvar rfl)

/-- The argument check for typeclass parameters is sound for ground types and for variables declared
as types: what it accepts really is a type of the class.  Missing from the full property: instance
schemes, and variables whose declared type is itself a variable. -/
theorem C05_class_argument_partial {K : KCtx} {M : Interp.{u}} (L : Lawful K M) {Γ : LCtx}
    (hs : ∀ c, K.schemes c = [])
    (hi : ∀ m l c, K.isInstanceOf (m, l) c = true → K.paramKinds (m, l) = [])
    {c : Id2} {arg : Term} (hv : ∀ i, arg = .fvar i → ∀ T, Γ.get i = some T → isKind T = true)
    (h : validTypeclassArg K Γ c arg = true) {ρ : Nat → M.D} (hρ : Models M Γ ρ) (β : Nat → M.D) :
    M.mem (eval M ρ β arg) (M.sym (.typeclass c.1 c.2)) :=
  (validTypeclassArg_sound hs hi hv h).mem L hρ β

/-- Non-vacuity: `nat` is accepted as an instance of the class, and so is a variable of the class. -/
example : validTypeclassArg Demo.K [] (0, 0) Demo.nat = true ∧
    validTypeclassArg Demo.K [some Demo.mon] (0, 0) (.fvar 0) = true ∧
    validTypeclassArg Demo.K [] (0, 0) .boolTy = false := by decide

/-- Disagreement: the checker reports `Type0` as the type of `Type0`, but in a lawful interpretation
the universe is not an element of itself. -/
theorem C05_type0_in_itself : ∃ (K : KCtx) (M : Interp.{2}) (t T : Term), Lawful K M ∧
    checkedType K [] t = some T ∧ ∀ ρ β, ¬ M.mem (eval M ρ β t) (eval M ρ β T) := by
  refine ⟨Demo.K, Demo.M, .type0, .type0, Demo.lawful, by rw [checkedType]; rfl, ?_⟩
  intro ρ β h
  exact ZFSet.mem_irrefl _ h

/-- Disagreement: in the context `x0 : mon, x1 : x0` the checker accepts the *element* `x1` as the
type argument of `mul`, and the reported type does not contain the value. -/
theorem C05_element_as_class_argument : ∃ (K : KCtx) (M : Interp.{2}) (Γ : LCtx) (ρ : Nat → M.D)
    (t T : Term), Lawful K M ∧ Models M Γ ρ ∧ checkedType K Γ t = some T ∧
    ∀ β, ¬ M.mem (eval M ρ β t) (eval M ρ β T) := by
  have one : ({∅} : ZFSet) ∈ (ZFSet.omega : SetModel.S) := by
    have := ZFSet.omega_succ (ZFSet.omega_zero)
    rwa [show insert (∅ : ZFSet) ∅ = {∅} from rfl] at this
  refine ⟨Demo.K, Demo.M, [some Demo.mon, some (.fvar 0)],
    fun i => if i = 0 then (ZFSet.omega : SetModel.S) else ({∅} : ZFSet),
    .app Demo.mul (.fvar 1), .pi (.fvar 1) (.pi (.fvar 1) (.fvar 1)), Demo.lawful, ?_, ?_, ?_⟩
  · intro i T h β
    match i, h with
    | 0, h => cases h; exact ZFSet.mem_singleton.2 rfl
    | 1, h => cases h; exact one
  · have h1 : checkedType Demo.K [some Demo.mon, some (.fvar 0)] Demo.mul
        = some (.pi Demo.mon (.pi (.bvar 0) (.pi (.bvar 1) (.bvar 2)))) := by
      rw [checkedType]; rfl
    have h2 : checkedType Demo.K [some Demo.mon, some (.fvar 0)] (.fvar 1) = some (.fvar 0) := by
      rw [checkedType]; rfl
    rw [checkedType, h1, h2]
    decide
  · intro β h
    have h' : SetModel.app (Demo.vals (.global 0 4)) ({∅} : ZFSet) ∈
        SetModel.pi {∅} fun _ => SetModel.pi {∅} fun _ => {∅} := h
    have e : SetModel.app (Demo.vals (.global 0 4)) ({∅} : ZFSet) = ∅ := by
      rw [SetModel.app, dif_neg]
      rintro ⟨b, hb⟩
      rw [Demo.vals, SetModel.lam] at hb
      obtain ⟨z, hz, e⟩ := SetModel.mem_img.1 hb
      have := (ZFSet.pair_injective e).1
      rw [ZFSet.mem_singleton] at hz
      subst hz
      rw [this] at one
      exact ZFSet.mem_irrefl _ one
    rw [e, SetModel.mem_pi] at h'
    have h2 : ZFSet.pair ∅ (SetModel.app ∅ ∅) ∈ SetModel.lam {∅} (SetModel.app ∅) :=
      SetModel.mem_img.2 ⟨∅, ZFSet.mem_singleton.2 rfl, rfl⟩
    rw [h'.1] at h2
    exact ZFSet.notMem_empty _ h2

end Acorn
