/-
When a type has a typeclass.
-/
import Verif.Model.TypeUnifier
namespace Acorn
namespace Spec

open Elab

/-- The type is a datatype that has been declared an instance of the typeclass, or a type parameter that
comes with the typeclass or an extension of it. -/
inductive HasClass (C : Classes) (tc : String) : Ty → Prop
  | data (d : String) (as : List Ty) (h : C.isInstance (.data d as) tc = true) : HasClass C tc (.data d as)
  | arb (n : String) (actual : String) (h : C.ofInstance n = some actual)
      (h' : actual = tc ∨ C.extends_ actual tc = true) : HasClass C tc (.arb n)
  | tvar (n : String) (actual : String) (h : C.ofInstance n = some actual)
      (h' : actual = tc ∨ C.extends_ actual tc = true) : HasClass C tc (.tvar n)

/-- The type meets what the declaration of the parameter asks. -/
def MeetsClass (C : Classes) (n : String) (t : Ty) : Prop := ∀ tc, C.ofGeneric n = some tc → HasClass C tc t

end Spec
end Acorn
