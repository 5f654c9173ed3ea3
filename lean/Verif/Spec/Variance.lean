/-
Where type parameters and types occur within types, and which arbitrary types a value mentions.
-/
import Verif.Spec.SetTypes
import Verif.Model.Datatypes
namespace Acorn
namespace Spec

open Elab

/-- The variance declared for the parameter number `i` of the datatype `d`. -/
def declaredVariance (lookup : String → Option (List Variance)) (d : String) (i : Nat) : Option Variance :=
  (lookup d).bind (·[i]?)

/-- The type parameter `p` occurs in a type, positively (`true`) or negatively (`false`): an argument of a
function turns the sign around, so does a contravariant parameter of a datatype, and an invariant parameter
of a datatype gives occurrences of both signs. -/
inductive Occurs (lookup : String → Option (List Variance)) (p : String) : Bool → Ty → Prop
  | tvar : Occurs lookup p true (.tvar p)
  | arb : Occurs lookup p true (.arb p)
  | arg {b : Bool} {as : List Ty} {r a : Ty} : a ∈ as → Occurs lookup p b a → Occurs lookup p (!b) (.fn as r)
  | res {b : Bool} {as : List Ty} {r : Ty} : Occurs lookup p b r → Occurs lookup p b (.fn as r)
  | contra {b : Bool} {d : String} {as : List Ty} {i : Nat} {a : Ty} : as[i]? = some a →
      declaredVariance lookup d i = some .negative → Occurs lookup p b a → Occurs lookup p (!b) (.data d as)
  | inv {b c : Bool} {d : String} {as : List Ty} {i : Nat} {a : Ty} : as[i]? = some a →
      declaredVariance lookup d i = some .both → Occurs lookup p b a → Occurs lookup p c (.data d as)
  | co {b : Bool} {d : String} {as : List Ty} {i : Nat} {a : Ty} : as[i]? = some a →
      declaredVariance lookup d i ≠ some .negative → declaredVariance lookup d i ≠ some .both →
      Occurs lookup p b a → Occurs lookup p b (.data d as)

/-- The datatype `name` occurs where a strictly positive type may not: in an argument of a function, or in the
argument of a datatype for a parameter that is not covariant. Arguments beyond the declared parameters are
not looked at. -/
inductive Misplaced (lookup : String → Option (List Variance)) (name : String) : Ty → Prop
  | arg {as : List Ty} {r a : Ty} : a ∈ as → ¬ TyFree name a → Misplaced lookup name (.fn as r)
  | res {as : List Ty} {r : Ty} : Misplaced lookup name r → Misplaced lookup name (.fn as r)
  | param {d : String} {as : List Ty} {i : Nat} {a : Ty} : as[i]? = some a → ¬ TyFree name a →
      (declaredVariance lookup d i = some .negative ∨ declaredVariance lookup d i = some .both) →
      Misplaced lookup name (.data d as)
  | inside {d : String} {as : List Ty} {i : Nat} {a : Ty} : as[i]? = some a →
      (lookup d = none ∨ (declaredVariance lookup d i).isSome) → Misplaced lookup name a → Misplaced lookup name (.data d as)

mutual

/-- The names of the arbitrary types of a type. -/
def tyArbs : Ty → List String
  | .arb n => [n]
  | .data _ as => tysArbs as
  | .fn as r => tysArbs as ++ tyArbs r
  | _ => []

/-- Those of several types. -/
def tysArbs : List Ty → List String
  | [] => []
  | t :: ts => tyArbs t ++ tysArbs ts

end

mutual

/-- The names of the arbitrary types of a value. -/
def valueArbs : Value → List String
  | .var _ t => tyArbs t
  | .const _ ps t => tysArbs ps ++ tyArbs t
  | .app f as => valueArbs f ++ valuesArbs as
  | .tapp f _ ts => valueArbs f ++ tysArbs ts
  | .lam ts b => tysArbs ts ++ valueArbs b
  | .bin _ a b => valueArbs a ++ valueArbs b
  | .not a => valueArbs a
  | .try_ a t => valueArbs a ++ tyArbs t
  | .all ts b => tysArbs ts ++ valueArbs b
  | .ex ts b => tysArbs ts ++ valueArbs b
  | .group a => valueArbs a
  | .bool _ => []
  | .ite c a b => valueArbs c ++ (valueArbs a ++ valueArbs b)
  | .match_ s cs => valueArbs s ++ casesArbs cs

/-- Those of several values. -/
def valuesArbs : List Value → List String
  | [] => []
  | v :: vs => valueArbs v ++ valuesArbs vs

/-- Those of the cases of a match. -/
def casesArbs : List Case → List String
  | [] => []
  | .mk ts p r _ _ :: cs => tysArbs ts ++ (valueArbs p ++ (valueArbs r ++ casesArbs cs))

end

end Spec
end Acorn
