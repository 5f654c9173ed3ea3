/-
Terms without beta redexes.
-/
import Verif.Model.Term
namespace Acorn

/-- Is the term a binder? -/
def Term.isBind : Term → Bool
  | .bind _ _ _ => true
  | _ => false

/-- No binder is applied. -/
def Term.BetaFree : Term → Prop
  | .atom _ => True
  | .app f a => f.isBind = false ∧ f.BetaFree ∧ a.BetaFree
  | .bind _ A B => A.BetaFree ∧ B.BetaFree

end Acorn
