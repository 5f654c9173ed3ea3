import Verif.Model.BuildSkip
/-
Verification of modules in parallel.

Models `src/builder.rs` (`process_module_work_pipeline`, `merge_pipeline_result`,
`merge_module_build_result`, `prepare_loaded_module_work`, `build_owned_modules_parallel`).

Simplifications: the result that verifying a module has is given with the module (each worker uses
its own builder, so it does not depend on the others); of the metrics the model has the counters
below, the others are added in the same way; times are left out; the whole build sees one project.
The workers and the channel are not modelled as threads: an execution is any sequence of steps of the
main thread in which the results of the modules handed out arrive in any order and at any time.
-/
namespace Acorn.Build
open Paths

/-- Models `enum BuildStatus` (`src/builder.rs:1190-1199`). -/
inductive Status where
  | good | warning | error
  deriving DecidableEq, Repr

/-- Models `struct BuildMetrics` (`src/builder.rs:463-…`). -/
structure Metrics where
  modulesTotal : Int := 0
  modulesCached : Int := 0
  goalsTotal : Int := 0
  goalsDone : Int := 0
  goalsSuccess : Int := 0
  pendingModules : Int := 0
  pendingGoals : Int := 0
  certsCached : Int := 0
  certsCreated : Int := 0
  searches : Int := 0
  deriving DecidableEq, Repr

/-- Models `add_module_result` (`src/builder.rs:895-929`): the totals are not added. -/
def Metrics.addResult (m r : Metrics) : Metrics :=
  { m with
    modulesCached := m.modulesCached + r.modulesCached
    goalsDone := m.goalsDone + r.goalsDone
    goalsSuccess := m.goalsSuccess + r.goalsSuccess
    certsCached := m.certsCached + r.certsCached
    certsCreated := m.certsCreated + r.certsCreated
    searches := m.searches + r.searches }

/-- Models `struct BuildEvent` (`src/builder.rs:1167-1187`); `text` stands for the message, the
diagnostic and the verified lines. -/
structure Event where
  buildId : Nat
  progress : Option (Int × Int)
  module : Desc
  text : List Char
  deriving DecidableEq

/-- Models `struct ModuleBuildResult` (`src/builder.rs:329-337`), without the index and the times. -/
structure Result where
  status : Status
  metrics : Metrics
  cache : Option Cache
  used : AMap Desc Nat
  events : List Event

/-- The part of `struct Builder` that merging changes; `log` is what the event handler was given. -/
structure Builder where
  id : Nat
  status : Status := .good
  metrics : Metrics := {}
  cache : Cache := .empty
  used : AMap Desc Nat := .empty
  log : List Event := []

/-- The match on the status in `merge_module_build_result` (`src/builder.rs:1627-1631`). -/
def Status.merge : Status → Status → Status
  | _, .error => .error
  | .good, .warning => .warning
  | s, _ => s

/-- The event as it is passed on (`src/builder.rs:1633-1637`). -/
def Event.relay (id : Nat) (done total : Int) (e : Event) : Event :=
  { e with buildId := id, progress := if e.progress.isSome then some (done, total) else e.progress }

/-- Models `merge_module_build_result` (`src/builder.rs:1617-1640`). -/
def Builder.merge (b : Builder) (r : Result) : Builder :=
  let m := b.metrics.addResult r.metrics
  { b with
    metrics := m
    cache := match r.cache with
      | some c => b.cache.mergeUpdates c
      | none => b.cache
    used := insertAll b.used r.used
    status := b.status.merge r.status
    log := b.log ++ r.events.map (·.relay b.id m.goalsDone m.goalsTotal) }

/-! ### A batch -/

/-- The end of `build_modules_parallel` and `build_owned_modules_parallel`
(`src/builder.rs:3214-3225`, `3285-3296`): the results of the workers are concatenated, sorted by index
and merged. -/
def Builder.mergeBatch (b : Builder) (workers : List (List (Nat × Result))) : Builder :=
  ((workers.flatten.mergeSort fun x y => decide (x.1 ≤ y.1)).map Prod.snd).foldl Builder.merge b

/-! ### The pipeline -/

/-- A loaded module: a package interface, or a module with its number of goals and the result
that verifying it has.  `surface`: `is_surface_check_module`. -/
inductive Item where
  | interface (d : Desc)
  | module (surface : Bool) (goals : Nat) (result : Result)

/-- Models one iteration in `prepare_loaded_module_work` (`src/builder.rs:1344-1352`) and
`lowered_module_loaded` (`src/builder.rs:1803-1811`). -/
def Builder.prepareOne (src : Path) (p : Project) (b : Builder) : Item → Builder
  | .interface d => { b with cache := recordUnchanged src p b.cache d }
  | .module surface goals _ =>
    { b with
      metrics := if surface then
          { b.metrics with
            pendingModules := b.metrics.pendingModules + 1
            pendingGoals := b.metrics.pendingGoals + goals }
        else { b.metrics with goalsTotal := b.metrics.goalsTotal + goals } }

/-- The results of the modules that are to be verified. -/
def itemResults (items : List Item) : List Result :=
  items.filterMap fun
    | .interface _ => none
    | .module _ _ r => some r

/-- Models `prepare_loaded_module_work` (`src/builder.rs:1334-1356`). -/
def Builder.prepare (src : Path) (p : Project) (b : Builder) (batch : List Item) : Builder :=
  let b := batch.foldl (Builder.prepareOne src p) b
  { b with metrics :=
      { b.metrics with modulesTotal := b.metrics.modulesTotal + (itemResults batch).length } }

/-- The state of `process_module_work_pipeline`: `todo` are the batches `load_next` has yet to
deliver, `enq` the modules of the present batch not yet handed out, `flight` the results of the modules
handed out that have not been received, with their index. -/
structure Pipe where
  builder : Builder
  todo : List (List Item)
  enq : List Result := []
  flight : List (Nat × Result) := []
  pending : AMap Nat Result := .empty
  nextIndex : Nat := 0
  nextMerge : Nat := 0

/-- The loop in `merge_pipeline_result` (`src/builder.rs:1611-1614`).  The first argument bounds the
number of iterations; the size of the map is enough. -/
def drain : Nat → Builder → AMap Nat Result → Nat → Builder × AMap Nat Result × Nat
  | 0, b, pending, next => (b, pending, next)
  | n + 1, b, pending, next =>
    match pending.get? next with
    | none => (b, pending, next)
    | some r => drain n (b.merge r) (pending.erase next) (next + 1)

/-- Models `merge_pipeline_result` (`src/builder.rs:1604-1615`). -/
def Pipe.receive (s : Pipe) (index : Nat) (r : Result) : Pipe :=
  let pending := s.pending.insert index r
  let d := drain (pending.entries.length + 1) s.builder pending s.nextMerge
  { s with builder := d.1, pending := d.2.1, nextMerge := d.2.2 }

/-- The condition under which the loop stops (`src/builder.rs:1481`, `1520-1522`). -/
def Pipe.stopped (exitOnWarning : Bool) (s : Pipe) : Bool :=
  decide (s.builder.status = .error) || (exitOnWarning && decide (s.builder.status ≠ .good))

/-- One step of the main thread of `process_module_work_pipeline` (`src/builder.rs:1474-1556`). -/
inductive Pipe.Step (src : Path) (p : Project) (exitOnWarning : Bool) : Pipe → Pipe → Prop
  /-- `load_next` delivers a batch. -/
  | load (s : Pipe) (batch : List Item) (rest : List (List Item))
      (h : s.stopped exitOnWarning = false) (he : s.enq = []) (ht : s.todo = batch :: rest) :
      Step src p exitOnWarning s
        { s with builder := s.builder.prepare src p batch, todo := rest, enq := itemResults batch }
  /-- The next module is handed out. -/
  | enqueue (s : Pipe) (r : Result) (rest : List Result)
      (h : s.stopped exitOnWarning = false) (he : s.enq = r :: rest) :
      Step src p exitOnWarning s
        { s with enq := rest, flight := s.flight ++ [(s.nextIndex, r)]
                 nextIndex := s.nextIndex + 1 }
  /-- A result is received. -/
  | receive (s : Pipe) (i : Nat) (r : Result) (before after : List (Nat × Result))
      (h : s.flight = before ++ (i, r) :: after) :
      Step src p exitOnWarning s ({ s with flight := before ++ after }.receive i r)

/-- The pipeline has ended: nothing is left to load or hand out unless it was stopped, and every
result has been received. -/
def Pipe.Done (exitOnWarning : Bool) (s : Pipe) : Prop :=
  s.flight = [] ∧ (s.stopped exitOnWarning = true ∨ (s.enq = [] ∧ s.todo = []))

/-- The beginning. -/
def Pipe.start (id : Nat) (batches : List (List Item)) : Pipe :=
  { builder := { id }, todo := batches }

end Acorn.Build
