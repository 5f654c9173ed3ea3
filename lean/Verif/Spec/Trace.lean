import Verif.Model.Trace
/-
Which steps a trimmed trace keeps, and what it means for two traces to say the same.
-/
namespace Acorn.Spec

/-- The step at `i` is not auxiliary, or some step names it as a premise. -/
def Kept (steps : List TraceStep) (i : Nat) : Prop :=
  ∃ s, steps[i]? = some s ∧ (s.generic = false ∨ ∃ t ∈ steps, i ∈ t.premises)

/-- `new` is `old` with its premises read through the list `positions` of old positions: apart from
that nothing changed. -/
def SameStep (positions : List Nat) (new old : TraceStep) : Prop :=
  new.rule = old.rule ∧ new.claim = old.claim ∧ new.generic = old.generic ∧ new.brKind = old.brKind ∧
  new.brLiteral = old.brLiteral ∧ new.premises.length = old.premises.length ∧
  ∀ (j : Nat) q p, new.premises[j]? = some q → old.premises[j]? = some p → positions[q]? = some p

end Acorn.Spec
