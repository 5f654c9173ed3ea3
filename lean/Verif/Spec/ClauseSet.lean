/-
What a set of ground clauses with two indexes should do.
-/
import Verif.Model.ClauseSet
namespace Acorn
namespace Spec

universe u

/-- The operations of the clause set. -/
inductive CSetOp where
  | insert (c : GClause)
  | remove (c : GClause)
  | removeLiteral (l : GLit)
  | removeGroup (k : Nat)

/-- A clause mentions a group. -/
def Mentions (k : Nat) (c : GClause) : Prop := ∃ l ∈ c, l.left = k ∨ l.right = k

/-- Effect of an operation on the set of stored clauses. -/
def CSetOp.after (S : GClause → Prop) : CSetOp → GClause → Prop
  | .insert c, d => d = c ∨ S d
  | .remove c, d => S d ∧ d ≠ c
  | .removeLiteral l, d => S d ∧ l ∉ d
  | .removeGroup k, d => S d ∧ ¬ Mentions k d

/-- The stored clauses after a history. -/
def storedAfter : List CSetOp → GClause → Prop
  | ops => ops.foldl CSetOp.after (fun _ => False)

/-- Perform an operation on the data structure. -/
def CSetOp.run (s : ClauseSet) : CSetOp → ClauseSet
  | .insert c => s.insert c
  | .remove c => s.remove c
  | .removeLiteral l => (s.removeLiteral l).2
  | .removeGroup k => (s.removeGroup k).2

/-- The data structure after a history. -/
def runCSet (ops : List CSetOp) : ClauseSet := ops.foldl CSetOp.run ClauseSet.empty

/-- Truth of a ground literal when every group denotes an element. -/
def GLitHolds {D : Type u} (v : Nat → D) (l : GLit) : Prop :=
  if l.positive then v l.left = v l.right else v l.left ≠ v l.right

/-- Truth of a ground clause. -/
def GClauseHolds {D : Type u} (v : Nat → D) (c : List GLit) : Prop := ∃ l ∈ c, GLitHolds v l

end Spec
end Acorn
