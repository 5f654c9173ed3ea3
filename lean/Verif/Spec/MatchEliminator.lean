/-
What the type of the match eliminator of a datatype should be.
-/
import Verif.Model.AcornValue
namespace Acorn
namespace Spec

open Elab

/-- The type of the eliminator at the instance `d[as]` with results in `r`, when the constructors have fields
of these types: it takes an element of the datatype and a function on the fields for each constructor. -/
def eliminatorAt (d : String) (as : List Ty) (fields : List (List Ty)) (r : Ty) : Ty :=
  Ty.functional (.data d as :: fields.map fun ts => Ty.functional ts r) r

/-- A type parameter, of a declaration or fixed for a proof. -/
def IsTypeParam (t : Ty) : Prop := (∃ n, t = .tvar n) ∨ ∃ n, t = .arb n

end Spec
end Acorn
