/-
What literals and clauses say.
-/
import Verif.Model.Clause
import Verif.Spec.SimplyTyped
namespace Acorn
namespace Spec

universe u

/-- A literal holds when its two sides are equal, or, for a negative literal, different. -/
def LitHolds (M : Interp.{u}) (ρ β : Nat → M.D) (l : Literal) : Prop :=
  if l.positive then eval M ρ β l.left = eval M ρ β l.right
  else eval M ρ β l.left ≠ eval M ρ β l.right

/-- A list of literals is read as a disjunction. -/
def LitsHold (M : Interp.{u}) (ρ β : Nat → M.D) (ls : List Literal) : Prop :=
  ∃ l ∈ ls, LitHolds M ρ β l

/-- A clause is true in an interpretation when its literals hold for all values of its variables. -/
def ClauseTrue (M : Interp.{u}) (c : Clause) : Prop :=
  ∀ ρ, Models M c.ctx ρ → ∀ β, LitsHold M ρ β c.lits

/-- The two sides of a literal have a common type. -/
def LitTyped (K : KCtx) (Γ : LCtx) (l : Literal) : Prop :=
  ∃ T, SHasType K Γ l.left T ∧ SHasType K Γ l.right T

/-- All literals are well typed. -/
def LitsTyped (K : KCtx) (Γ : LCtx) (ls : List Literal) : Prop := ∀ l ∈ ls, LitTyped K Γ l

/-- Every type of the context has an element, whatever the values of the other variables are. -/
def CtxInhabited (M : Interp.{u}) (Γ : LCtx) : Prop :=
  ∀ i T, Γ.get i = some T → ∀ ρ, ∃ d, ∀ β, M.mem d (eval M ρ β T)

/-- The type of each variable in `P` has an element, whatever values the variables before it have. -/
def VarsInhabited (M : Interp.{u}) (Γ : LCtx) (P : Nat → Prop) : Prop :=
  ∀ i T, Γ.get i = some T → P i → ∀ ρ, Models M (Γ.take i) ρ → ∃ d, ∀ β, M.mem d (eval M ρ β T)

/-- The type of each variable only mentions earlier variables of the context. -/
def CtxOrdered (Γ : LCtx) : Prop :=
  ∀ i T, Γ.get i = some T → ∀ j, T.hasVar j = true → j < i ∧ (Γ.get j).isSome = true

/-- The types of the context have no dangling bound variables. -/
def CtxClosed (Γ : LCtx) : Prop := ∀ i T, Γ.get i = some T → T.escapes = false

/-- A disequality between functions that the function reduction treats: both sides have a simple
function type between small types. -/
def FnTyped (K : KCtx) (Γ : LCtx) (l : Literal) : Prop :=
  ∃ A B, SHasType K Γ l.left (.pi A (Term.ren Nat.succ B)) ∧
    SHasType K Γ l.right (.pi A (Term.ren Nat.succ B)) ∧
    SHasType K Γ A .type0 ∧ SHasType K Γ B .type0

/-- Disequalities between functions are between functions of a simple type. -/
def FnDiseqSimple (K : KCtx) (Γ : LCtx) (ls : List Literal) : Prop :=
  ∀ l ∈ ls, l.positive = false → ∀ A B, SHasType K Γ l.left (.pi A B) → FnTyped K Γ l

/-- An application is an atom applied to arguments (true for beta-normal terms). -/
def AtomHead (t : Term) : Prop := ∀ f a, t = .app f a → ∃ h as, t = (Term.atom h).apply as

/-- `ρ` respects the context except for the variables in `P`. -/
def ModelsExcept (M : Interp.{u}) (Γ : LCtx) (P : List Nat) (ρ : Nat → M.D) : Prop :=
  ∀ i T, i ∉ P → Γ.get i = some T → ∀ β, M.mem (ρ i) (eval M ρ β T)

end Spec
end Acorn
