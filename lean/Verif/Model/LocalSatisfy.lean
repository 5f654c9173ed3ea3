/-
Local `let x: T satisfy { ... }` inside an expression, when the condition fixes the value of `x`
(/repo/src/elaborator/evaluator.rs).
-/
import Verif.Model.AcornValue
namespace Acorn
namespace Elab

mutual

/-- Equality of types (derived in acorn_type.rs:1106). -/
def Ty.same : Ty → Ty → Bool
  | .bool, .bool => true
  | .data a as, .data b bs => a == b && Ty.sameAll as bs
  | .fn as r, .fn bs q => Ty.sameAll as bs && Ty.same r q
  | .tvar a, .tvar b => a == b
  | .arb a, .arb b => a == b
  | .type0, .type0 => true
  | .constraint a, .constraint b => a == b
  | _, _ => false

/-- Equality of lists of types. -/
def Ty.sameAll : List Ty → List Ty → Bool
  | [], [] => true
  | a :: as, b :: bs => Ty.same a b && Ty.sameAll as bs
  | _, _ => false

end

namespace Value

mutual

/-- `Evaluator::references_stack_var` (evaluator.rs:705-742). -/
def refersTo (i : Nat) : Value → Bool
  | .var j _ => j == i
  | .const _ _ _ => false
  | .bool _ => false
  | .app f as => f.refersTo i || refersToAll i as
  | .tapp f _ _ => f.refersTo i
  | .lam _ b => b.refersTo i
  | .all _ b => b.refersTo i
  | .ex _ b => b.refersTo i
  | .group b => b.refersTo i
  | .not b => b.refersTo i
  | .try_ b _ => b.refersTo i
  | .bin _ a b => a.refersTo i || b.refersTo i
  | .ite c a b => c.refersTo i || a.refersTo i || b.refersTo i
  | .match_ s cs => s.refersTo i || refersToCases i cs

/-- The arguments. -/
def refersToAll (i : Nat) : List Value → Bool
  | [] => false
  | v :: vs => v.refersTo i || refersToAll i vs

/-- The cases. -/
def refersToCases (i : Nat) : List Case → Bool
  | [] => false
  | .mk _ p r _ _ :: cs => p.refersTo i || r.refersTo i || refersToCases i cs

end

/-- The value is the given variable (the comparisons of evaluator.rs:752-754). -/
def isVar (i : Nat) (t : Ty) : Value → Bool
  | .var j u => j == i && Ty.same u t
  | _ => false

/-- `Evaluator::local_satisfy_equality_witness` (evaluator.rs:744-769). -/
def satisfyWitness (i : Nat) (t : Ty) : Value → Option Value
  | .bin .equals l r =>
    if l.isVar i t && !r.refersTo i then some r
    else if r.isVar i t && !l.refersTo i then some l
    else none
  | .bin .and l r => (l.satisfyWitness i t).or (r.satisfyWitness i t)
  | .group v => v.satisfyWitness i t
  | _ => none

/-- `Evaluator::evaluate_local_satisfy_let` (evaluator.rs:2223-2247), when the condition has an equality
for the new variable: the value of the alias, used from then on at the stack size `size`
(`push_local_alias`, evaluator.rs:271-277), and the claim to be proved. -/
def satisfyLet (size : Nat) (t : Ty) (condition : Value) : Option (Value × Value) := do
  let w ← condition.satisfyWitness size t
  return (w, condition.bindValues size (size + 1) [w])

/-- `Evaluator::local_alias_value` (evaluator.rs:232-245): the value of an alias on a larger stack. -/
def aliasValue (aliasSize size : Nat) (v : Value) : Value :=
  v.insertStack aliasSize (size - aliasSize)

end Value
end Elab
end Acorn
