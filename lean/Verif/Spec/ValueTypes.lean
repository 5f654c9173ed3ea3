/-
Types in the form the elaborator keeps them in.
-/
import Verif.Spec.ValueNames
namespace Acorn
namespace Spec

open Elab

/-- Not the type of a function. -/
def NotFn (t : Ty) : Prop := ∀ as r, t ≠ .fn as r

mutual

/-- Functions have at least one argument and do not return functions. -/
def NormalTy : Ty → Prop
  | .bool => True
  | .data _ as => NormalTys as
  | .fn as r => as ≠ [] ∧ NormalTys as ∧ NormalTy r ∧ NotFn r
  | .tvar _ => True
  | .arb _ => True
  | .type0 => True
  | .constraint _ => True

/-- Several such types. -/
def NormalTys : List Ty → Prop
  | [] => True
  | t :: ts => NormalTy t ∧ NormalTys ts

end

mutual

/-- All types written in the value are in that form, and binders bind something. -/
def NormalIn : Value → Prop
  | .var _ t => NormalTy t
  | .const _ ps t => NormalTys ps ∧ NormalTy t
  | .app f as => NormalIn f ∧ NormalInAll as
  | .tapp f _ ts => NormalIn f ∧ NormalTys ts
  | .lam ts b => ts ≠ [] ∧ NormalTys ts ∧ NormalIn b
  | .bin _ a b => NormalIn a ∧ NormalIn b
  | .not a => NormalIn a
  | .try_ a t => NormalIn a ∧ NormalTy t
  | .all ts b => NormalTys ts ∧ NormalIn b
  | .ex ts b => NormalTys ts ∧ NormalIn b
  | .group a => NormalIn a
  | .bool _ => True
  | .ite c a b => NormalIn c ∧ NormalIn a ∧ NormalIn b
  | .match_ s cs => NormalIn s ∧ NormalInCases cs

/-- Several values. -/
def NormalInAll : List Value → Prop
  | [] => True
  | v :: vs => NormalIn v ∧ NormalInAll vs

/-- The cases of a match. -/
def NormalInCases : List Case → Prop
  | [] => True
  | .mk ts p r _ _ :: cs => NormalTys ts ∧ NormalIn p ∧ NormalIn r ∧ NormalInCases cs

end

mutual

/-- Every match has a case. -/
def CasesGiven : Value → Prop
  | .var _ _ => True
  | .const _ _ _ => True
  | .app f as => CasesGiven f ∧ CasesGivenAll as
  | .tapp f _ _ => CasesGiven f
  | .lam _ b => CasesGiven b
  | .bin _ a b => CasesGiven a ∧ CasesGiven b
  | .not a => CasesGiven a
  | .try_ a _ => CasesGiven a
  | .all _ b => CasesGiven b
  | .ex _ b => CasesGiven b
  | .group a => CasesGiven a
  | .bool _ => True
  | .ite c a b => CasesGiven c ∧ CasesGiven a ∧ CasesGiven b
  | .match_ s cs => CasesGiven s ∧ cs ≠ [] ∧ CasesGivenCases cs

/-- In several values. -/
def CasesGivenAll : List Value → Prop
  | [] => True
  | v :: vs => CasesGiven v ∧ CasesGivenAll vs

/-- In the cases of a match. -/
def CasesGivenCases : List Case → Prop
  | [] => True
  | .mk _ p r _ _ :: cs => CasesGiven p ∧ CasesGiven r ∧ CasesGivenCases cs

end

end Spec
end Acorn
