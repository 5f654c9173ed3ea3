/-
Using a checker: sequences of calls to its public methods (/repo/src/kernel/checker.rs).
-/
import Verif.Model.Checker
namespace Acorn

/-- A call to a method of the checker. -/
inductive Request
  /-- `insert_clause` (checker.rs:600-608). -/
  | insert (c : Clause) (reason : StepReason)
  /-- `insert_normalized_clause` (checker.rs:675-687). -/
  | insertNormalized (c : Clause) (reason : StepReason)
  /-- `insert_clause_for_trace` (checker.rs:610-618). -/
  | insertTrace (c : Clause) (reason : StepReason)
  /-- `set_eager_boolean_reductions` (checker.rs:196-198). -/
  | setEager (b : Bool)
  /-- `enable_eager_boolean_reductions` (checker.rs:200-203). -/
  | enableEager
  /-- `check_clause` (checker.rs:1229-1238). -/
  | check (c : Clause)
  /-- `check_clause_direct_for_trace` (checker.rs:721-732). -/
  | checkTrace (c : Clause)

/-- The call: did a check succeed, and the new state.  Calls that are no checks answer `false`. -/
def Request.run (env : CheckEnv) (s : Checker) : Request → Out (Bool × Checker)
  | .insert c reason => do
    let s ← s.insert env c reason
    return (false, s)
  | .insertNormalized c reason => do
    let s ← s.insertNormalized env c reason
    return (false, s)
  | .insertTrace c reason => do
    let s ← s.insertTrace env c reason
    return (false, s)
  | .setEager b => .done (false, s.setEager b)
  | .enableEager => do
    let s ← s.enableEager env
    return (false, s)
  | .check c => do
    let (r, s) ← s.check env c
    return (r.isSome, s)
  | .checkTrace c => do
    let (r, s) ← s.checkTrace env c
    return (r.isSome, s)

/-- A sequence of calls. -/
def Checker.runAll : List (CheckEnv × Request) → Checker → Out Checker
  | [], s => .done s
  | (env, q) :: rest, s => do
    let (_, s) ← q.run env s
    runAll rest s

end Acorn
