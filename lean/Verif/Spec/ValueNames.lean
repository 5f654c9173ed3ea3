/-
The names of type parameters that occur in a type or value, and those a value binds.
-/
import Verif.Model.AcornValue
namespace Acorn
namespace Spec

open Elab

mutual

/-- The names of the type parameters of a type. -/
def tyNames : Ty → List String
  | .tvar n => [n]
  | .arb n => [n]
  | .data _ as => tysNames as
  | .fn as r => tysNames as ++ tyNames r
  | .bool => []
  | .type0 => []
  | .constraint _ => []

/-- Those of several types. -/
def tysNames : List Ty → List String
  | [] => []
  | t :: ts => tyNames t ++ tysNames ts

end

mutual

/-- The names of the type parameters that occur in a value. -/
def typeNames : Value → List String
  | .var _ t => tyNames t
  | .const _ ps t => tysNames ps ++ tyNames t
  | .app f as => typeNames f ++ typeNamesAll as
  | .tapp f ns ts => typeNames f ++ (ns ++ tysNames ts)
  | .lam ts b => tysNames ts ++ typeNames b
  | .bin _ a b => typeNames a ++ typeNames b
  | .not a => typeNames a
  | .try_ a t => typeNames a ++ tyNames t
  | .all ts b => tysNames ts ++ typeNames b
  | .ex ts b => tysNames ts ++ typeNames b
  | .group a => typeNames a
  | .bool _ => []
  | .ite c a b => typeNames c ++ (typeNames a ++ typeNames b)
  | .match_ s cs => typeNames s ++ typeNamesCases cs

/-- Those of several values. -/
def typeNamesAll : List Value → List String
  | [] => []
  | v :: vs => typeNames v ++ typeNamesAll vs

/-- Those of the cases of a match. -/
def typeNamesCases : List Case → List String
  | [] => []
  | .mk ts p r _ _ :: cs => tysNames ts ++ (typeNames p ++ (typeNames r ++ typeNamesCases cs))

end

mutual

/-- The names of the type parameters that explicit type applications bind within a value. -/
def boundNames : Value → List String
  | .var _ _ => []
  | .const _ _ _ => []
  | .app f as => boundNames f ++ boundNamesAll as
  | .tapp f ns _ => ns ++ boundNames f
  | .lam _ b => boundNames b
  | .bin _ a b => boundNames a ++ boundNames b
  | .not a => boundNames a
  | .try_ a _ => boundNames a
  | .all _ b => boundNames b
  | .ex _ b => boundNames b
  | .group a => boundNames a
  | .bool _ => []
  | .ite c a b => boundNames c ++ (boundNames a ++ boundNames b)
  | .match_ s cs => boundNames s ++ boundNamesCases cs

/-- Those of several values. -/
def boundNamesAll : List Value → List String
  | [] => []
  | v :: vs => boundNames v ++ boundNamesAll vs

/-- Those of the cases of a match. -/
def boundNamesCases : List Case → List String
  | [] => []
  | .mk _ p r _ _ :: cs => boundNames p ++ (boundNames r ++ boundNamesCases cs)

end

mutual

/-- A value without binders, all of whose variables are among the first `n` levels of the stack. -/
def PlainOn (n : Nat) : Value → Prop
  | .var i _ => i < n
  | .const _ _ _ => True
  | .app f as => PlainOn n f ∧ PlainOnAll n as
  | .tapp f _ _ => PlainOn n f
  | .lam _ _ => False
  | .bin _ a b => PlainOn n a ∧ PlainOn n b
  | .not a => PlainOn n a
  | .try_ a _ => PlainOn n a
  | .all _ _ => False
  | .ex _ _ => False
  | .group a => PlainOn n a
  | .bool _ => True
  | .ite c a b => PlainOn n c ∧ PlainOn n a ∧ PlainOn n b
  | .match_ _ _ => False

/-- Several such values. -/
def PlainOnAll (n : Nat) : List Value → Prop
  | [] => True
  | v :: vs => PlainOn n v ∧ PlainOnAll n vs

end

mutual

/-- No lambda stands directly in function position, and there are no type applications. -/
def NoRedex : Value → Prop
  | .var _ _ => True
  | .const _ _ _ => True
  | .app f as => (∀ ts b, f ≠ .lam ts b) ∧ NoRedex f ∧ NoRedexAll as
  | .tapp _ _ _ => False
  | .lam _ b => NoRedex b
  | .bin _ a b => NoRedex a ∧ NoRedex b
  | .not a => NoRedex a
  | .try_ a _ => NoRedex a
  | .all _ b => NoRedex b
  | .ex _ b => NoRedex b
  | .group a => NoRedex a
  | .bool _ => True
  | .ite c a b => NoRedex c ∧ NoRedex a ∧ NoRedex b
  | .match_ s cs => NoRedex s ∧ NoRedexCases cs

/-- The arguments. -/
def NoRedexAll : List Value → Prop
  | [] => True
  | v :: vs => NoRedex v ∧ NoRedexAll vs

/-- The cases. -/
def NoRedexCases : List Case → Prop
  | [] => True
  | .mk _ p r _ _ :: cs => NoRedex p ∧ NoRedex r ∧ NoRedexCases cs

end

end Spec
end Acorn
