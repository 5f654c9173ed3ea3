/-
Ground clauses over groups of equal terms.  Models /repo/src/kernel/clause_set.rs.

Simplifications: group ids are unbounded numbers (`u32` in Rust).  A `HashSet` is a list without
repetitions.
-/
import Verif.Model.AMap
namespace Acorn

/-- `LiteralId` (clause_set.rs:56-62): an equation or disequation between two groups. -/
structure GLit where
  left : Nat
  right : Nat
  positive : Bool
deriving DecidableEq, Repr

/-- `ClauseId` (clause_set.rs:112-113). -/
abbrev GClause := List GLit

/-- `LiteralId::new` (clause_set.rs:65-80): the smaller group comes first. -/
def GLit.new (left right : Nat) (positive : Bool) : GLit :=
  if left ≤ right then ⟨left, right, positive⟩ else ⟨right, left, positive⟩

/-- The derived order of `LiteralId` (clause_set.rs:57): fields from left to right. -/
def GLit.le (a b : GLit) : Bool :=
  decide (a.left < b.left) || (decide (a.left = b.left) &&
    (decide (a.right < b.right) || (decide (a.right = b.right) && (!a.positive || b.positive))))

/-- Insert into a sorted list. -/
def insertLit (l : GLit) : List GLit → List GLit
  | [] => [l]
  | a :: as => if l.le a then l :: a :: as else a :: insertLit l as

/-- `literals.sort()`: the order is total, so every sorting algorithm gives the same list. -/
def sortGLits : List GLit → List GLit
  | [] => []
  | l :: ls => insertLit l (sortGLits ls)

/-- `Vec::dedup`: remove adjacent repetitions. -/
def dedupGLits : List GLit → List GLit
  | [] => []
  | [a] => [a]
  | a :: b :: rest => if a = b then dedupGLits (b :: rest) else a :: dedupGLits (b :: rest)

/-- `Normalization` (clause_set.rs:115-120). -/
inductive GNorm where
  | tt
  | ff
  | clause (c : GClause)
deriving DecidableEq, Repr

/-- Two literals over the same groups with opposite signs. -/
def GLit.opposite (a b : GLit) : Bool :=
  decide (a.left = b.left) && decide (a.right = b.right) && decide (a.positive ≠ b.positive)

/-- The tautology test of `ClauseId::new` (clause_set.rs:188-198). -/
def hasOpposite : List GLit → Bool
  | [] => false
  | a :: as => as.any (a.opposite ·) || hasOpposite as

/-- `ClauseId::new` (clause_set.rs:164-201). -/
def GClause.new (ls : List GLit) : GNorm :=
  let ls := dedupGLits (sortGLits ls)
  if ls.any (fun l => decide (l.left = l.right) && l.positive) then .tt
  else
    let ls := ls.filter (fun l => decide (l.left ≠ l.right))
    if ls.isEmpty then .ff
    else if hasOpposite ls then .tt
    else .clause ls

/-- `HashSet::insert`. -/
def setInsert (s : List GClause) (c : GClause) : List GClause := if s.contains c then s else c :: s

/-- `HashSet::remove`. -/
def setRemove (s : List GClause) (c : GClause) : List GClause := s.filter (· != c)

/-- `ClauseSet` (clause_set.rs:236-241). -/
structure ClauseSet where
  clauses : List GClause
  forGroup : AMap Nat (List GClause)
  forLiteral : AMap GLit (List GClause)

namespace ClauseSet

/-- `ClauseSet::new` (clause_set.rs:244-250). -/
def empty : ClauseSet := ⟨[], AMap.empty, AMap.empty⟩

/-- `entry(k).or_insert_with(HashSet::new).insert(c)`. -/
def addTo {κ : Type} [DecidableEq κ] (m : AMap κ (List GClause)) (k : κ) (c : GClause) :
    AMap κ (List GClause) := m.insert k (setInsert ((m.get? k).getD []) c)

/-- Remove a clause from an entry, and the entry when it becomes empty (clause_set.rs:281-288). -/
def dropFrom {κ : Type} [DecidableEq κ] (m : AMap κ (List GClause)) (k : κ) (c : GClause) :
    AMap κ (List GClause) :=
  match m.get? k with
  | none => m
  | some s => if (setRemove s c).isEmpty then m.erase k else m.insert k (setRemove s c)

/-- `ClauseSet::insert` (clause_set.rs:252-272). -/
def insert (s : ClauseSet) (c : GClause) : ClauseSet :=
  if s.clauses.contains c then s
  else
    c.foldl (fun s l =>
      { s with
        forGroup := addTo (addTo s.forGroup l.left c) l.right c
        forLiteral := addTo s.forLiteral l c }) { s with clauses := c :: s.clauses }

/-- `ClauseSet::contains` (clause_set.rs:274-276). -/
def contains (s : ClauseSet) (c : GClause) : Bool := s.clauses.contains c

/-- `ClauseSet::remove` (clause_set.rs:279-310). -/
def remove (s : ClauseSet) (c : GClause) : ClauseSet :=
  if s.clauses.contains c then
    c.foldl (fun s l =>
      { s with
        forGroup := dropFrom (dropFrom s.forGroup l.left c) l.right c
        forLiteral := dropFrom s.forLiteral l c }) { s with clauses := setRemove s.clauses c }
  else s

/-- `ClauseSet::remove_literal` (clause_set.rs:314-328); also returns the removed clauses. -/
def removeLiteral (s : ClauseSet) (l : GLit) : List GClause × ClauseSet :=
  let cs := (s.forLiteral.get? l).getD []
  (cs, cs.foldl remove s)

/-- `ClauseSet::remove_group` (clause_set.rs:332-346); also returns the removed clauses. -/
def removeGroup (s : ClauseSet) (g : Nat) : List GClause × ClauseSet :=
  let cs := (s.forGroup.get? g).getD []
  (cs, cs.foldl remove s)

end ClauseSet
end Acorn
