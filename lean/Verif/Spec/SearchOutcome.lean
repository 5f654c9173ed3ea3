/-
What the outcomes of a proof search mean.
-/
import Verif.Model.SearchOutcome
import Verif.Spec.ActiveSet
import Verif.Spec.PassiveSet
namespace Acorn
namespace Spec
open Active
open Passive (Step)

variable {R : Type}

/-- The modes in which a search only takes shallow steps: all but the interactive one. -/
def IsShallow : ProverMode → Prop
  | .interactive _ _ => False
  | .shallow _ _ => True
  | .test => True

/-- How many activations that do not only depend on facts a mode allows: in tests 500. -/
def capOf : ProverMode → Int
  | .interactive _ cap => cap
  | .shallow _ cap => cap
  | .test => 500

/-- How long a search in a mode may take, in milliseconds: in tests half a second. -/
def timeOf : ProverMode → Nat
  | .interactive time _ => time
  | .shallow time _ => time
  | .test => 500

/-- A step waits. -/
def SomeWaits (st : State R) : Prop := ∃ id s sc, st.passive.Waits id s sc

/-- Only shallow steps were taken, and another one waits. -/
def ShallowLeft (st : State R) : Prop :=
  st.passive.allShallow = true ∧ ∃ id s sc, st.passive.Waits id s sc ∧ sc.shallow = true

/-- The steps that a final step rests on: the step itself, the two waiting steps, or the active steps that the
explanation of the contradiction names. -/
def RestsOn (H : Hunt R) (a : ActiveSet R) : Final R → Step (Info R) → Prop
  | .step f, s => s = f
  | .passive x y, s => s = x ∨ s = y
  | .graph, s => ∃ i ∈ (H.chain a.graph).1 :: (H.chain a.graph).2, a.steps[i]? = some s

/-- A final step claims to depend on the negated goal. -/
def UsesGoal (H : Hunt R) (a : ActiveSet R) (f : Final R) : Prop :=
  ∃ s, RestsOn H a f s ∧ s.info.truth = .counterfactual

/-- What an outcome says about the state in which a search in some mode stops, after it saw some moments; without an
outcome the search goes on. -/
def Says (H : Hunt R) (mode : ProverMode) (ms : List Moment) (r : Run R) : Option Outcome → Prop
  | none => r.state.final = none ∧ ∀ m ∈ ms, m.cancelled = false ∧ m.elapsed < timeOf mode
  | some .success => ∃ f, r.state.final = some f ∧ (UsesGoal H r.state.active f ∨ H.okay = some true)
  | some .inconsistent => ∃ f, r.state.final = some f ∧ ¬ UsesGoal H r.state.active f ∧ H.okay ≠ some true
  | some .exhausted => r.state.final = none ∧ ¬ IsShallow mode ∧ ¬ SomeWaits r.state
  | some .shallowExhausted => r.state.final = none ∧ IsShallow mode ∧ ¬ ShallowLeft r.state ∧
      r.state.passive.getContradiction = .ok none
  | some .shallowExplosion => r.state.final = none ∧ capOf mode ≤ r.count ∧ ShallowLeft r.state
  | some .activationCap => r.state.final = none ∧ capOf mode ≤ r.count ∧ ¬ IsShallow mode ∧
      SomeWaits r.state ∧ ¬ ShallowLeft r.state
  | some .interrupted => r.state.final = none ∧ ∃ m ∈ ms, m.cancelled = true
  | some .timeout => r.state.final = none ∧ SomeWaits r.state ∧ ∃ m ∈ ms, timeOf mode ≤ m.elapsed

/-- The steps among some that do not only depend on facts. -/
def nonfactual (ss : List (Step (Info R))) : List (Step (Info R)) := ss.filter fun s => s.info.truth ≠ .factual

end Spec
end Acorn
