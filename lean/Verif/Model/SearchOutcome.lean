/-
The loop of a proof search and the outcome it reports (/repo/src/prover/prover.rs, /repo/src/prover/mod.rs).
-/
import Verif.Model.ActiveSet
namespace Acorn
namespace Active
open Passive (Step)

variable {R : Type}

/-- `Outcome` (prover/mod.rs:110-119). -/
inductive Outcome
  | success | shallowExhausted | shallowExplosion | exhausted | inconsistent | interrupted | timeout | activationCap
  deriving DecidableEq, Repr

/-- `ProverMode` (prover/mod.rs:88-106).  Times are in milliseconds instead of seconds. -/
inductive ProverMode
  | interactive (timeout : Nat) (limit : Int)
  | shallow (timeout : Nat) (limit : Int)
  | test

/-- The activation limit of a mode (prover.rs:1058-1068). -/
def ProverMode.limit : ProverMode → Int
  | .interactive _ l => l
  | .shallow _ l => l
  | .test => 500

/-- The time limit of a mode (prover.rs:1058-1068). -/
def ProverMode.timeout : ProverMode → Nat
  | .interactive t _ => t
  | .shallow t _ => t
  | .test => 500

/-- Does a mode only take shallow steps (prover.rs:1058-1068)? -/
def ProverMode.shallowOnly : ProverMode → Bool
  | .interactive _ _ => false
  | .shallow _ _ => true
  | .test => true

/-- What a search is given next to the prover: `inconsistency_okay` of the goal, if there is a goal, and what the
explanation of a contradiction in the equality graph names: the inequality and the patterns of the rewrites
(`get_contradiction_trace`, /repo/src/kernel/equality_graph.rs:414-422). -/
structure Hunt (R : Type) where
  prover : Prover R
  okay : Option Bool
  chain : EGraph → Nat × List Nat

/-- The parts of `Prover` (prover.rs) that the loop changes. -/
structure Run (R : Type) where
  state : State R
  /-- `nonfactual_activations`, an `i32` in the code. -/
  count : Nat := 0

/-- What one round of the loop sees of the outside: is one of the tokens cancelled, and how much time has passed? -/
structure Moment where
  cancelled : Bool
  elapsed : Nat

/-- The truthiness of the steps with the given numbers, combined (prover.rs:642-647).  `get_step` panics for a
number that is not in use. -/
def blame (a : ActiveSet R) (t : Truthiness) : List Nat → Option Truthiness
  | [] => some t
  | i :: is => do
    let s ← a.steps[i]?
    blame a (t.combine s.info.truth) is

/-- `truthiness` of the final step: `passive_contradiction` (proof_step.rs:1182-1204) and
`report_equality_graph_contradiction` (prover.rs:631-733) for the contradictions. -/
def Hunt.truth (H : Hunt R) (a : ActiveSet R) : Final R → Option Truthiness
  | .step s => some s.info.truth
  | .passive x y => some ((Truthiness.factual.combine x.info.truth).combine y.info.truth)
  | .graph => do
    let s ← a.steps[(H.chain a.graph).1]?
    blame a s.info.truth (H.chain a.graph).2

/-- The outcome of a search with a final step (prover.rs:1013-1021, 1095-1108). -/
def Hunt.verdict (H : Hunt R) (a : ActiveSet R) (f : Final R) : Option Outcome := do
  let t ← H.truth a f
  if t = .counterfactual then return .success
  else if H.okay = some true then return .success
  else return .inconsistent

/-- `check_shallow_frontier` (prover.rs:997-1031), with the assertion of `report_passive_contradiction`
(prover.rs:741) that no contradiction between waiting steps was reported before.  The steps that
`report_equality_graph_contradiction` reports are left out, so the assertion is weaker in the model; it makes a
difference only if a prover that ended with such a contradiction is asked to search again. -/
def Hunt.frontier (H : Hunt R) (st : State R) (shallowOnly : Bool) : Option (State R × Option Outcome) :=
  if !shallowOnly || st.passive.canPopForVerification then some (st, none)
  else do
    match ← noPanic st.passive.getContradiction with
    | some (x, y) =>
      match st.final with
      | some (.passive _ _) => none
      | _ => do
        let o ← H.verdict st.active (.passive x y)
        return ({ st with final := some (.passive x y) }, some o)
    | none => return (st, some .shallowExhausted)

/-- The step that `activate_next` takes, if it takes one (prover.rs:774-813). -/
def State.takes (P : Prover R) (st : State R) (shallowOnly : Bool) : Option (Step (Info R)) :=
  if st.final.isSome then none
  else
    match noPanic st.passive.getContradiction with
    | some none => (st.pop P shallowOnly).bind Prod.fst
    | _ => none

/-- `activate_next` with its counter (prover.rs:772-857). -/
def Run.next (H : Hunt R) (r : Run R) (shallowOnly : Bool) : Option (Run R × Bool) := do
  let (st, stop) ← r.state.next H.prover shallowOnly
  match r.state.takes H.prover shallowOnly with
  | some s => return (⟨st, if s.info.truth = .factual then r.count else r.count + 1⟩, stop)
  | none => return (⟨st, r.count⟩, stop)

/-- The second half of a round of the loop (prover.rs:1111-1135). -/
def Hunt.check (H : Hunt R) (mode : ProverMode) (m : Moment) (r : Run R) : Option (Run R × Option Outcome) :=
  if m.cancelled then some (r, some .interrupted)
  else do
    let (st, o) ← H.frontier r.state mode.shallowOnly
    let r := { r with state := st }
    match o with
    | some o => return (r, some o)
    | none =>
      if r.state.passive.len = 0 then return (r, some .exhausted)
      else if mode.limit ≤ r.count then
        if r.state.passive.canPopForVerification then return (r, some .shallowExplosion)
        else return (r, some .activationCap)
      else if mode.timeout ≤ m.elapsed then return (r, some .timeout)
      else return (r, none)

/-- One round of the loop (prover.rs:1089-1136). -/
def Hunt.round (H : Hunt R) (mode : ProverMode) (m : Moment) (r : Run R) : Option (Run R × Option Outcome) := do
  let (st, o) ← H.frontier r.state mode.shallowOnly
  let r := { r with state := st }
  match o with
  | some o => return (r, some o)
  | none =>
    let (r, stop) ← r.next H mode.shallowOnly
    if stop then
      match r.state.final with
      | some f => return (r, some (← H.verdict r.state.active f))
      | none => return (r, some .exhausted)
    else H.check mode m r

/-- `search` (prover.rs:1039-1137) as far as some moments go: no outcome if the search goes on after them. -/
def Hunt.search (H : Hunt R) (mode : ProverMode) : List Moment → Run R → Option (Run R × Option Outcome)
  | [], r => some (r, none)
  | m :: ms, r => do
    match ← H.round mode m r with
    | (r, some o) => return (r, some o)
    | (r, none) => H.search mode ms r

end Active
end Acorn
