/-
Declarations of typeclasses.
-/
import Mathlib.Logic.Relation
import Verif.Model.Typeclasses
namespace Acorn
namespace Spec

/-- What happens to the modules of a project: a declaration, or an import of another module. -/
inductive ClassCmd
  | declare (m : Nat) (name : String) (bases : List TC)
  | import (m m' : Nat)

/-- Run one command; `none`: it is rejected. -/
def ClassCmd.run (w : ClassWorld) : ClassCmd → Option ClassWorld
  | .declare m name bases => Classes.declare w m name bases
  | .import m m' => some (Classes.importModule w m m')

/-- The worlds that can arise, with the accepted commands. -/
inductive ClassReach : ClassWorld → List ClassCmd → Prop
  | init : ClassReach (fun _ => .empty) []
  | step {w w' : ClassWorld} {cs : List ClassCmd} {c : ClassCmd} :
    ClassReach w cs → c.run w = some w' → ClassReach w' (c :: cs)

/-- `a` was declared to extend `b` directly. -/
def Declares (cs : List ClassCmd) (a b : TC) : Prop :=
  ∃ bases, ClassCmd.declare a.1 a.2 bases ∈ cs ∧ b ∈ bases

/-- What happens to the type store of the kernel: a typeclass is registered, or a fact about the bases of a
typeclass is added. -/
inductive StoreCmd
  | add (c : TC)
  | extends (c : TC) (bases : List TC)

/-- Run one command. -/
def StoreCmd.run (s : ClassStore) : StoreCmd → ClassStore
  | .add c => (s.addClass c).2
  | .extends c bases => s.lowerExtends c bases

end Spec
end Acorn
