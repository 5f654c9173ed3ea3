import Verif.Model.Literal
import Mathlib.Logic.Relation
/-
What it means for a certificate line to depend on a later one, and for an order to be the stable
topological order of these dependencies.
-/
namespace Acorn.Spec

/-- Line `s` comes after line `d` but supports it: either `d` has several literals, one of them
negative, and `s` states exactly the opposite of that literal; or `d` states a single literal and
`s` is a longer clause that contains it. -/
def Supports (cs : List (List Literal)) (s d : Nat) : Prop :=
  d < s ∧ ∃ cd, cs[d]? = some cd ∧ ∃ ls, cs[s]? = some ls ∧
    ((1 < cd.length ∧ ∃ l ∈ cd, l.positive = false ∧ ls = [⟨true, l.left, l.right⟩]) ∨
     (1 < ls.length ∧ ∃ l ∈ ls, cd = [l]))

/-- Some line supports itself through a chain of lines. -/
def Cyclic (cs : List (List Literal)) : Prop := ∃ i, Relation.TransGen (Supports cs) i i

/-- In `order`, `a` comes strictly before `b`. -/
def Before (order : List Nat) (a b : Nat) : Prop :=
  ∃ pre post, order = pre ++ b :: post ∧ a ∈ pre

/-- All the lines that line `j` depends on are among `placed`. -/
def Unblocked (cs : List (List Literal)) (placed : List Nat) (j : Nat) : Prop :=
  ∀ s, Supports cs s j → s ∈ placed

end Acorn.Spec
