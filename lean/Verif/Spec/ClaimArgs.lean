/-
Which variables a value mentions.
-/
import Verif.Model.AcornValue
namespace Acorn
namespace Spec
namespace ClaimArgs
open Elab

mutual

/-- A value mentions the variable at a level of the stack, free or bound. -/
def Mentions (i : Nat) : Value → Prop
  | .var j _ => i = j
  | .const _ _ _ => False
  | .app f as => Mentions i f ∨ SomeMentions i as
  | .tapp f _ _ => Mentions i f
  | .lam _ b => Mentions i b
  | .bin _ a b => Mentions i a ∨ Mentions i b
  | .not a => Mentions i a
  | .try_ a _ => Mentions i a
  | .all _ b => Mentions i b
  | .ex _ b => Mentions i b
  | .group a => Mentions i a
  | .bool _ => False
  | .ite c a b => Mentions i c ∨ Mentions i a ∨ Mentions i b
  | .match_ s cs => Mentions i s ∨ CaseMentions i cs

/-- One of some values does. -/
def SomeMentions (i : Nat) : List Value → Prop
  | [] => False
  | v :: vs => Mentions i v ∨ SomeMentions i vs

/-- One of some cases does. -/
def CaseMentions (i : Nat) : List Case → Prop
  | [] => False
  | .mk _ p r _ _ :: cs => Mentions i p ∨ Mentions i r ∨ CaseMentions i cs

end

/-- Is a value in parentheses? -/
def InParens : Value → Prop
  | .group _ => True
  | _ => False

mutual

/-- A value as the constructors build it: applications have arguments, binders bind something, and parentheses are not
doubled. -/
def Tidy : Value → Prop
  | .var _ _ => True
  | .const _ _ _ => True
  | .app f as => as ≠ [] ∧ Tidy f ∧ AllTidy as
  | .tapp f _ ts => ts ≠ [] ∧ Tidy f
  | .lam ts b => ts ≠ [] ∧ Tidy b
  | .bin _ a b => Tidy a ∧ Tidy b
  | .not a => Tidy a
  | .try_ a _ => Tidy a
  | .all ts b => ts ≠ [] ∧ Tidy b
  | .ex ts b => ts ≠ [] ∧ Tidy b
  | .group a => ¬ InParens a ∧ Tidy a
  | .bool _ => True
  | .ite c a b => Tidy c ∧ Tidy a ∧ Tidy b
  | .match_ s cs => Tidy s ∧ CasesTidy cs

/-- All of some values are. -/
def AllTidy : List Value → Prop
  | [] => True
  | v :: vs => Tidy v ∧ AllTidy vs

/-- All of some cases are. -/
def CasesTidy : List Case → Prop
  | [] => True
  | .mk _ p r _ _ :: cs => Tidy p ∧ Tidy r ∧ CasesTidy cs

end

end ClaimArgs
end Spec
end Acorn
