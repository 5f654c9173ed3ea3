/-
Using the equality graph: commands, histories and what they assert.
-/
import Verif.Model.EqualityGraph
import Verif.Spec.Clauses
namespace Acorn
namespace Spec

universe u

/-- A call to the equality graph, with the terms it is about. -/
inductive GCmd where
  /-- Make the graph know a term. -/
  | insert (t : Term)
  /-- Assert that two terms are equal (with a pattern step and an inspiration step). -/
  | equate (s t : Term) (pattern : Nat) (inspiration : Option Nat)
  /-- Assert that two terms are different. -/
  | separate (s t : Term) (step : Nat)
  /-- Assert a clause. -/
  | clause (ls : List Literal) (step : Nat)
  /-- Ask whether a literal holds. -/
  | evaluate (l : Literal)
  /-- Ask whether a clause holds. -/
  | check (ls : List Literal)
  /-- Ask whether a clause is stored. -/
  | lookup (ls : List Literal)

/-- Perform a command.  Questions return an answer. -/
def GCmd.run (ω : HashOrder) (fuel : Nat) (g : EGraph) : GCmd → Out (Option Bool × EGraph)
  | .insert t => do
    let (_, g) ← g.insertTerm ω fuel t
    return (none, g)
  | .equate s t p i => do
    let (a, g) ← g.insertTerm ω fuel s
    let (b, g) ← g.insertTerm ω fuel t
    let g ← g.setTermsEqual ω fuel a b p i
    return (none, g)
  | .separate s t step => do
    let (a, g) ← g.insertTerm ω fuel s
    let (b, g) ← g.insertTerm ω fuel t
    let g ← g.setTermsNotEqual ω fuel a b step
    return (none, g)
  | .clause ls step => do
    let g ← g.insertClause ω fuel ls step
    return (none, g)
  | .evaluate l => g.evaluateLiteral ω fuel l
  | .check ls => do
    let (b, g) ← g.checkClause ω fuel ls
    return (some b, g)
  | .lookup ls => do
    let (b, g) ← g.clauseExists ω fuel ls
    return (some b, g)

/-- The graph after a history of commands, each performed with some order of its hash maps and some
number of steps. -/
inductive Reach : List GCmd → EGraph → Prop
  | start : Reach [] EGraph.empty
  | step {cs g ω fuel c r} : Reach cs g → GCmd.run ω fuel g c = .done r → Reach (cs ++ [c]) r.2

/-- What a command asserts. -/
def GCmd.Holds (M : Interp.{u}) (ρ β : Nat → M.D) : GCmd → Prop
  | .equate s t _ _ => eval M ρ β s = eval M ρ β t
  | .separate s t _ => eval M ρ β s ≠ eval M ρ β t
  | .clause ls _ => LitsHold M ρ β ls
  | _ => True

/-- The terms of a command. -/
def GCmd.terms : GCmd → List Term
  | .insert t => [t]
  | .equate s t _ _ => [s, t]
  | .separate s t _ => [s, t]
  | .clause ls _ => ls.flatMap fun l => [l.left, l.right]
  | .evaluate l => [l.left, l.right]
  | .check ls => ls.flatMap fun l => [l.left, l.right]
  | .lookup ls => ls.flatMap fun l => [l.left, l.right]

/-- All terms of a command have a type. -/
def GCmd.Typed (K : KCtx) (Γ : LCtx) (c : GCmd) : Prop := ∀ t ∈ c.terms, ∃ T, SHasType K Γ t T

end Spec
end Acorn
