import Verif.Model.ProjectLoad
/-
Loading many modules at a time.

Models `ParallelProjectLoader` in `src/project.rs`: the jobs are prepared in order, then worker
threads elaborate those whose dependencies are done, each on a snapshot of the project taken when the
job was handed out.  Which of the jobs being worked on ends first is not up to the loader: every
step takes the position of that job as an argument.

Simplifications, on top of those of `ProjectLoad`.
* Channels and threads are not modelled: a job that was sent is active until its result is received.
  Since there are never more active jobs than workers, any active job may be the next to end.
* Taking the lowered modules out of the project (`take_lowered_modules_for_target_set`) is left out:
  snapshots do not contain them.
* The choice among the ready jobs goes by an arbitrary preference between modules; in the code it is
  the larger number of cached certificate steps, then the smaller name.
* A panic is a result of its own (`none`).
-/
namespace Acorn.Proj

/-- `struct ParallelModuleLoadJob` (`src/project.rs:113-120`). -/
structure Job (I : Type) where
  mod : Mod
  stmts : List (Stmt I)
  deps : List Mod
  libs : List Mod

/-- The loop over the dependency names in `prepare_parallel_module_load_job`
(`src/project.rs:2514-2554`).  It returns the dependencies known to the project and the `lib(...)`
dependencies among them. -/
def noteDependencies {E : Type} (m : Mod) (libNames : List Mod) :
    Table E → List Mod → Table E × List Mod × List Mod
  | p, [] => (p, [], [])
  | p, d :: ds =>
    if d = m then noteDependencies m libNames p ds
    else
      match p.states d with
      | some _ =>
        let r := noteDependencies m libNames (p.setError d none) ds
        (r.1, d :: r.2.1, if d ∈ libNames then d :: r.2.2 else r.2.2)
      | none => noteDependencies m libNames (p.setError d (some .notFound)) ds

/-- The dependencies of a job with the prelude, if the project knows it
(`src/project.rs:2556-2562`). -/
def withPrelude {E : Type} (p : Table E) (m : Mod) (deps : List Mod) : List Mod :=
  if m = preludeMod then deps
  else
    match p.states preludeMod with
    | some _ => addDependency deps preludeMod
    | none => deps

/-- `prepare_parallel_module_load_job` (`src/project.rs:2447-2573`). -/
def prepareJob {E I : Type} (files : Files I) (p : Table E) (m : Mod) :
    Table E × Except ImportError (Option (Job I)) :=
  match p.states m with
  | some .loading => (p, .error .circular)
  | some (.error _) => (p, .ok none)
  | some (.ok _) => (p, .ok none)
  | none | some .registered =>
    match files.lookup m with
    | none => (p, .error .notFound)
    | some .unparsable => (p.set m (.error false), .ok none)
    | some (.parsed stmts) =>
      let r := noteDependencies m (libNames stmts) (p.set m .loading) (dependencyNames stmts)
      (r.1, .ok (some ⟨m, stmts, withPrelude r.1 m r.2.1, r.2.2⟩))

/-- The loop over the load order in `ParallelProjectLoader::new` (`src/project.rs:745-754`). -/
def prepareAll {E I : Type} (files : Files I) :
    Table E → List Mod → Table E × Except ImportError (List (Job I))
  | p, [] => (p, .ok [])
  | p, m :: ms =>
    match prepareJob files p m with
    | (p', .error e) => (p', .error e)
    | (p', .ok none) => prepareAll files p' ms
    | (p', .ok (some job)) =>
      match prepareAll files p' ms with
      | (q, .ok jobs) => (q, .ok (job :: jobs))
      | (q, .error e) => (q, .error e)

/-- `module_to_job` (`src/project.rs:756-760`). -/
def jobOf {I : Type} (jobs : List (Job I)) (d : Mod) : Option Nat :=
  jobs.findIdx? (fun job => job.mod = d)

/-- `remaining_dependencies` (`src/project.rs:761-770`): how many dependencies of each job are
jobs. -/
def remainingOf {I : Type} (jobs : List (Job I)) : List Nat :=
  jobs.map fun job => (job.deps.filter fun d => (jobOf jobs d).isSome).length

/-- `dependents` (`src/project.rs:762-770`): the jobs that wait for job `i`, in the order in which the
loops of the code push them. -/
def dependentsOf {I : Type} (jobs : List (Job I)) (i : Nat) : List Nat :=
  (List.range jobs.length).flatMap fun j =>
    match jobs[j]? with
    | none => []
    | some job => (job.deps.filter fun d => jobOf jobs d = some i).map fun _ => j

/-- `struct ParallelProjectLoader` (`src/project.rs:138-149`), with the module table of the project.
`taken` are the jobs whose parsed file has been taken out, `active` the jobs handed out, with the
snapshot each got. -/
structure Loader (E I : Type) where
  table : Table E
  jobs : List (Job I)
  taken : List Nat
  remaining : List Nat
  dependents : List (List Nat)
  ready : List Nat
  active : List (Nat × Table E)
  completed : Nat
  workers : Nat

/-- The ready job that `pop_ready_parallel_load_job` chooses (`src/project.rs:2575-2587`). -/
def bestReady {I : Type} (prefer : Mod → Mod → Bool) (jobs : List (Job I)) : List Nat → Option Nat
  | [] => none
  | i :: rest =>
    match bestReady prefer jobs rest with
    | none => some i
    | some j =>
      match jobs[i]?, jobs[j]? with
      | some a, some b => some (if prefer a.mod b.mod then i else j)
      | _, _ => some j

/-- `enqueue_parallel_load_job` (`src/project.rs:2589-2614`); it panics if the job has been enqueued
before. -/
def Loader.enqueue {E I : Type} (L : Loader E I) (i : Nat) : Option (Loader E I) :=
  if i ∈ L.taken then none
  else some { L with
    taken := i :: L.taken
    ready := L.ready.erase i
    active := L.active ++ [(i, L.table)] }

/-- The loop of `enqueue_available`, with the number of rounds it may still make. -/
def Loader.fill {E I : Type} (prefer : Mod → Mod → Bool) : Nat → Loader E I → Option (Loader E I)
  | 0, L => some L
  | n + 1, L =>
    match bestReady prefer L.jobs L.ready with
    | none => some L
    | some i => (L.enqueue i).bind (Loader.fill prefer n)

/-- `enqueue_available` (`src/project.rs:836-848`). -/
def Loader.enqueueAvailable {E I : Type} (prefer : Mod → Mod → Bool) (L : Loader E I) :
    Option (Loader E I) :=
  Loader.fill prefer (L.workers - L.active.length) L

/-- What `ParallelProjectLoader::new` gives. -/
inductive Started (E I : Type) where
  | failed (e : ImportError)
  | panicked
  | started (L : Loader E I)

/-- `ParallelProjectLoader::new` (`src/project.rs:737-834`), on a table in which all modules on disk
are registered. -/
def Loader.new {E I : Type} (prefer : Mod → Mod → Bool) (files : Files I) (p : Table E)
    (targets order : List Mod) (workers : Nat) : Started E I :=
  match prepareAll files p (order.filter (· ∈ targets)) with
  | (_, .error e) => .failed e
  | (q, .ok jobs) =>
    let remaining := remainingOf jobs
    let ready := (List.range jobs.length).filter fun i => remaining[i]? = some 0
    if jobs ≠ [] ∧ ready = [] then .failed .circular
    else
      match Loader.enqueueAvailable prefer
          ⟨q, jobs, [], remaining, (List.range jobs.length).map (dependentsOf jobs), ready, [], 0,
            max (min workers jobs.length) 1⟩ with
      | none => .panicked
      | some L => .started L

/-- The loop over the dependents of a job that is done (`src/project.rs:899-904`); it panics if a
counter would go below zero. -/
def release : List Nat → List Nat → List Nat → Option (List Nat × List Nat)
  | [], remaining, ready => some (remaining, ready)
  | j :: js, remaining, ready =>
    match remaining[j]? with
    | none => none
    | some 0 => none
    | some (n + 1) => release js (remaining.set j n) (if n = 0 then ready ++ [j] else ready)

/-- What a worker makes of a job: `elaborate_and_lower_module` on the snapshot
(`src/project.rs:794-801`), stored as in `src/project.rs:872-897`. -/
def Job.result {E I σ : Type} (El : Elaborator E I σ) (job : Job I) (snapshot : Table E) :
    LoadState E :=
  match elaborate El snapshot job.mod job.stmts job.libs with
  | .ok e => .ok e
  | .error c => .error c

/-- What `next_loaded_modules` does next (`src/project.rs:855-868`): it is through, gives up because
nothing can go on, or waits for a result. -/
inductive Next where
  | finished
  | circular
  | waits
deriving DecidableEq

/-- The tests at the head of the loop of `next_loaded_modules` (`src/project.rs:855-868`). -/
def Loader.next {E I : Type} (L : Loader E I) : Next :=
  if L.completed ≥ L.jobs.length then .finished
  else if L.active.isEmpty ∧ L.ready.isEmpty then .circular
  else .waits

/-- One round of the loop of `next_loaded_modules`, when the result that arrives is that of the job at
position `k` among the active ones (`src/project.rs:870-905`). -/
def Loader.receive {E I σ : Type} (El : Elaborator E I σ) (prefer : Mod → Mod → Bool)
    (L : Loader E I) (k : Nat) : Option (Loader E I) :=
  match L.active[k]? with
  | none => none
  | some (i, snapshot) =>
    match L.jobs[i]?, L.dependents[i]? with
    | some job, some waiting =>
      match release waiting L.remaining L.ready with
      | none => none
      | some (remaining, ready) =>
        Loader.enqueueAvailable prefer { L with
          table := L.table.set job.mod (job.result El snapshot)
          remaining := remaining
          ready := ready
          active := L.active.eraseIdx k
          completed := L.completed + 1 }
    | _, _ => none

/-- Starting the parallel loader on a project (`src/project.rs:737-743`). -/
def Project.startParallel {E I : Type} (prefer : Mod → Mod → Bool) (P : Project E I)
    (targets order : List Mod) (workers : Nat) : Started E I :=
  Loader.new prefer P.files (P.table.register (P.disk.map (·.1))) targets order workers

end Acorn.Proj
