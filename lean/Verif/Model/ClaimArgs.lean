/-
How the arguments of a claim are renumbered when a certificate is written (/repo/src/claim_codec.rs).

As in `Verif/Model/AcornValue.lean` there are no datatype families, so no type mentions a variable.
-/
import Verif.Model.AcornValue
namespace Acorn
namespace Elab
namespace Value

/-- `AcornValue::type_apply` (acorn_value.rs:1054-1070). -/
def typeApply (f : Value) (names : List String) (args : List Ty) : Value := if args.isEmpty then f else .tapp f names args

/-- `AcornValue::grouped` (acorn_value.rs:929-934). -/
def grouped (v : Value) : Value :=
  match v with
  | .group a => .group a
  | v => .group v

mutual

/-- `ClaimCodec::rebase_value_to_standalone` (claim_codec.rs:885-976).  It never fails. -/
def rebase (n : Nat) : Value → Value
  | .var i t => if i < n then .var i t else .var (i - n) t
  | .const c ps t => .const c ps t
  | .app f as => (f.rebase n).apply (rebaseAll n as)
  | .tapp f ns ts => (f.rebase n).typeApply ns ts
  | .lam ts b => mkLam ts (b.rebase n)
  | .bin op a b => .bin op (a.rebase n) (b.rebase n)
  | .not a => .not (a.rebase n)
  | .try_ a t => .try_ (a.rebase n) t
  | .all ts b => mkAll ts (b.rebase n)
  | .ex ts b => mkEx ts (b.rebase n)
  | .group a => (a.rebase n).grouped
  | .bool b => .bool b
  | .ite c a b => .ite (c.rebase n) (a.rebase n) (b.rebase n)
  | .match_ s cs => .match_ (s.rebase n) (rebaseCases n cs)

/-- The arguments. -/
def rebaseAll (n : Nat) : List Value → List Value
  | [] => []
  | v :: vs => v.rebase n :: rebaseAll n vs

/-- The cases. -/
def rebaseCases (n : Nat) : List Case → List Case
  | [] => []
  | .mk ts p r i k :: cs => .mk ts (p.rebase n) (r.rebase n) i k :: rebaseCases n cs

end

mutual

/-- `ClaimCodec::shift_value_variables` (claim_codec.rs:979-1042). -/
def shift (n : Nat) : Value → Value
  | .var i t => .var (i + n) t
  | .const c ps t => .const c ps t
  | .app f as => (f.shift n).apply (shiftAll n as)
  | .tapp f ns ts => (f.shift n).typeApply ns ts
  | .lam ts b => mkLam ts (b.shift n)
  | .bin op a b => .bin op (a.shift n) (b.shift n)
  | .not a => .not (a.shift n)
  | .try_ a t => .try_ (a.shift n) t
  | .all ts b => mkAll ts (b.shift n)
  | .ex ts b => mkEx ts (b.shift n)
  | .group a => (a.shift n).grouped
  | .bool b => .bool b
  | .ite c a b => .ite (c.shift n) (a.shift n) (b.shift n)
  | .match_ s cs => .match_ (s.shift n) (shiftCases n cs)

/-- The arguments. -/
def shiftAll (n : Nat) : List Value → List Value
  | [] => []
  | v :: vs => v.shift n :: shiftAll n vs

/-- The cases. -/
def shiftCases (n : Nat) : List Case → List Case
  | [] => []
  | .mk ts p r i k :: cs => .mk ts (p.shift n) (r.shift n) i k :: shiftCases n cs

end

mutual

/-- `ClaimCodec::value_has_variable` (claim_codec.rs:1045-1076). -/
def hasVariable : Value → Bool
  | .var _ _ => true
  | .const _ _ _ => false
  | .bool _ => false
  | .app f as => f.hasVariable || hasVariableAny as
  | .tapp f _ _ => f.hasVariable
  | .lam _ b => b.hasVariable
  | .all _ b => b.hasVariable
  | .ex _ b => b.hasVariable
  | .group a => a.hasVariable
  | .not a => a.hasVariable
  | .try_ a _ => a.hasVariable
  | .bin _ a b => a.hasVariable || b.hasVariable
  | .ite c a b => c.hasVariable || a.hasVariable || b.hasVariable
  | .match_ s cs => s.hasVariable || hasVariableCases cs

/-- The arguments. -/
def hasVariableAny : List Value → Bool
  | [] => false
  | v :: vs => v.hasVariable || hasVariableAny vs

/-- The cases. -/
def hasVariableCases : List Case → Bool
  | [] => false
  | .mk _ p r _ _ :: cs => p.hasVariable || r.hasVariable || hasVariableCases cs

end

/-- The value written for an argument of a claim (claim_codec.rs:391-414): with variables of the claim, the numbers of
the type parameters, which come first, are taken away; without, room is made for the names of the claim's variables. -/
def claimArg (open_ : Bool) (typeParams valueVars : Nat) (quoted : Value) : Value :=
  if open_ then quoted.rebase typeParams else quoted.shift valueVars

end Value
end Elab
end Acorn
