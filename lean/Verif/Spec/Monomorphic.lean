/-
The fragment without polymorphism.
-/
import Verif.Spec.Clauses
namespace Acorn
namespace Spec

universe u

/-- Every variable is a value of a closed type, not a type. -/
def ValueVars (K : KCtx) (Γ : LCtx) : Prop := ∀ i T, Γ.get i = some T → SHasType K [] T .type0

/-- Nothing quantifies over types. -/
def NoSorts (ls : List Literal) : Prop :=
  ∀ l ∈ ls, ∀ a ∈ l.left.atoms ++ l.right.atoms,
    a ≠ .sym .type0 ∧ ∀ m n, a ≠ .sym (.typeclass m n)

/-- Every variable of the context occurs in the literals, or its type has an element. -/
def VarsUsed (M : Interp.{u}) (Γ : LCtx) (ls : List Literal) : Prop :=
  ∀ i T, Γ.get i = some T →
    (∃ l ∈ ls, l.left.hasVar i = true ∨ l.right.hasVar i = true) ∨ ∃ d, ∀ ρ β, M.mem d (eval M ρ β T)

end Spec
end Acorn
