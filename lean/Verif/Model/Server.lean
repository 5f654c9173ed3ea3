/-
The language server: saving and closing files while builds run in the background.

Models `src/server.rs` (`BuildInfo`, `DocumentBuildInfo`, `AcornLanguageServer::build`, `did_save`,
`did_close`) and `src/server/project_manager.rs` (`ProjectManager`).

Every handler and every background task is a small program; the steps of all of them may be mixed in
any way.  A step is what happens between two points at which another task can come in between: a
change of the project under its write lock is one step, a change of the build information under its
lock is one step, and looking at the epoch, cancelling a token and waiting for a lock are separate
steps.

Simplifications.
* The project is a parameter (`Ops`): what an update, a close and a reload do to it is `C51` to `C53`.
  The `building` flag and the build cache are kept beside it.
* The builder is a process that sends any events and ends with any result (`Act.event`,
  `Act.endBuild`).  An event is handled when it is sent; the channel between the two only delays it.
* `RwLock` of `tokio` is fair and the save handlers are polled by one task, so that the handlers get
  the lock of the build information in the order in which they changed the project; this order is kept
  in `waiting`.  Other tasks may overtake them.
* A cancellation token is a number; what a builder does when its token is cancelled is not modelled.
* Only the lines of a diagnostic are kept, with its text.
* The live documents are `C33`; logging is left out.
-/
namespace Acorn.Serv

abbrev Url := String
abbrev Path := String

/-- `lsp_types::Diagnostic`, with the first and last line of its range. -/
structure Diagnostic where
  first : Nat
  last : Nat
  message : String
deriving DecidableEq

/-- `BuildEvent` (`src/builder.rs:1167-1187`), with the module already turned into a url. -/
structure Event where
  buildId : Nat
  progress : Option (Int × Int)
  url : Option Url
  verified : Option (Nat × Nat)
  diagnostic : Option Diagnostic

/-- `struct DocumentBuildInfo` (`src/server.rs:86-97`). -/
structure DocInfo where
  version : Option Int
  verified : List (Nat × Nat)
  diagnostics : List Diagnostic
deriving DecidableEq

/-- `DocumentBuildInfo::new` (`src/server.rs:100-106`). -/
def DocInfo.new (version : Option Int) : DocInfo := ⟨version, [], []⟩

/-- The loop `while let Some((line, _)) = self.verified.last()` (`src/server.rs:120-125`): ranges at the
end of the list that start at `first` or later are removed. -/
def popFrom (first : Nat) (ranges : List (Nat × Nat)) : List (Nat × Nat) :=
  (ranges.reverse.dropWhile fun r => first ≤ r.1).reverse

/-- Whether the last diagnostic overlaps with a range of lines (`src/server.rs:110-117`). -/
def DocInfo.blocked (d : DocInfo) (first last : Nat) : Bool :=
  match d.diagnostics.getLast? with
  | some x => x.last ≥ first && x.first ≤ last
  | none => false

/-- `DocumentBuildInfo::verify` (`src/server.rs:109-127`). -/
def DocInfo.verify (d : DocInfo) (first last : Nat) : DocInfo :=
  if d.blocked first last then d
  else { d with verified := popFrom first d.verified ++ [(first, last)] }

/-- `DocumentBuildInfo::add_diagnostic` (`src/server.rs:130-132`). -/
def DocInfo.addDiagnostic (d : DocInfo) (x : Diagnostic) : DocInfo :=
  { d with diagnostics := d.diagnostics ++ [x] }

/-- `struct BuildInfo` (`src/server.rs:136-158`). -/
structure Info where
  generation : Option Nat
  id : Option Nat
  done : Int
  total : Int
  finished : Bool
  docs : List (Url × DocInfo)

/-- `BuildInfo::none` (`src/server.rs:162-171`). -/
def Info.none : Info := ⟨.none, .none, 0, 0, false, []⟩

/-- `BuildInfo::queued` (`src/server.rs:173-178`). -/
def Info.queued (generation : Nat) : Info := { Info.none with generation := some generation }

/-- `BuildInfo::finish` (`src/server.rs:204-209`). -/
def Info.finish (b : Info) (generation : Nat) : Info :=
  if b.generation ≠ some generation then b else { b with finished := true }

/-- `BuildInfo::with_doc` (`src/server.rs:213-224`). -/
def Info.withDoc (b : Info) (url : Url) (f : DocInfo → DocInfo) : Info :=
  { b with docs := (url, f ((b.docs.lookup url).getD (.new .none))) ::
      b.docs.filter fun d => d.1 ≠ url }

/-- A call of `publish_diagnostics` (`src/server.rs:28-35`). -/
structure Publish where
  url : Url
  diagnostics : List Diagnostic
  version : Option Int

/-- `BuildInfo::reset` (`src/server.rs:228-257`): the new build information and what is published, or
nothing if the generation is another one.  Later entries of the list of open files count. -/
def Info.reset (b : Info) (generation : Nat) (opened : List (Url × Int)) :
    Option (Info × List Publish) :=
  if b.generation ≠ some generation then Option.none
  else
    let docs := opened.foldl
      (fun docs o => (o.1, DocInfo.new (some o.2)) :: docs.filter fun d => d.1 ≠ o.1) []
    some ({ Info.queued generation with docs := docs },
      (opened.map fun o => ⟨o.1, [], some o.2⟩) ++
        ((b.docs.filter fun d => (docs.lookup d.1).isNone).map fun d => ⟨d.1, [], Option.none⟩))

/-- The verified lines of an event (`src/server.rs:284-288`). -/
def Info.handleVerified (b : Info) (url : Url) : Option (Nat × Nat) → Info
  | some (first, last) => b.withDoc url fun d => d.verify first last
  | .none => b

/-- The part of `BuildInfo::handle_event` that concerns a document (`src/server.rs:283-299`). -/
def Info.handleDoc (b : Info) (ev : Event) : Info × List Publish :=
  match ev.url with
  | .none => (b, [])
  | some url =>
    let b1 := b.handleVerified url ev.verified
    match ev.diagnostic with
    | .none => (b1, [])
    | some x =>
      let b2 := b1.withDoc url fun d => d.addDiagnostic x
      (b2, ((b2.docs.lookup url).map fun d => (⟨url, d.diagnostics, d.version⟩ : Publish)).toList)

/-- `BuildInfo::handle_event` (`src/server.rs:259-300`). -/
def Info.handleEvent (b : Info) (generation : Nat) (ev : Event) : Info × List Publish :=
  if b.generation ≠ some generation then (b, [])
  else if b.id ≠ .none ∧ b.id ≠ some ev.buildId then (b, [])
  else
    let b1 := { b with id := some ev.buildId }
    let b2 := match ev.progress with
      | some (done, total) => { b1 with done := done, total := total }
      | .none => b1
    b2.handleDoc ev

/-- What the server uses of a project with state `S`, targets `T`, cache `C` and build results `R`:
`has_version`, `update_file_for_ide`, `close_file`, `reload_dependent_targets_by_path`, `open_urls` and
`update_build_cache` of `src/project.rs`. -/
structure Ops (S T C R : Type) where
  hasVersion : S → Path → Int → Bool
  update : S → Path → String → Int → S
  close : S → Path → S
  reload : S → Path → S × Option T
  openUrls : S → List (Url × Int)
  record : C → R → C

/-- How far a handler or a background task has come.  `e` is the epoch made by the save, `r` the epoch
made by the reload, `v` the state of the project that is built.  `skipped` is the end of a task that
gave way to a newer change. -/
inductive Phase (S T R : Type) where
  | saveRead (path : Path) (text : String) (version : Int)
  | saveCancel (path : Path) (text : String) (version : Int)
  | saveMutate (path : Path) (text : String) (version : Int)
  | saveQueue (path : Path) (e : Nat)
  | reloadCheck (path : Path) (e : Nat)
  | reloadCancel (path : Path) (e : Nat)
  | reloadMutate (path : Path) (e : Nat)
  | failFinish (e r : Nat)
  | failCheck (r : Nat)
  | failCancel (r : Nat)
  | failMutate (r : Nat)
  | view (e r : Nat) (targets : T)
  | reset (e r : Nat) (v : S) (targets : T) (token : Nat)
  | building (e r : Nat) (v : S) (targets : T) (token : Nat)
  | finishing (e r : Nat) (v : S) (result : Option R)
  | cacheCheck (r : Nat) (v : S) (result : Option R)
  | cacheCancel (r : Nat) (v : S) (result : Option R)
  | cacheMutate (r : Nat) (v : S) (result : Option R)
  | closeCancel (path : Path)
  | closeMutate (path : Path)
  | done
  | skipped

/-- The server: `ProjectManager` (`src/server/project_manager.rs:9-13`), the build information, what
has been published, latest first, and the tasks. -/
structure State (S T C R : Type) where
  proj : S
  isBuilding : Bool
  cache : C
  epoch : Nat
  token : Nat
  cancelled : List Nat
  info : Info
  published : List Publish
  waiting : List Nat
  tasks : List (Phase S T R)

/-- `ProjectManager::new` (`src/server/project_manager.rs:25-43`) and `AcornLanguageServer::new`
(`src/server.rs:352-384`). -/
def State.start {S T C R : Type} (proj : S) (cache : C) : State S T C R :=
  ⟨proj, false, cache, 0, 0, [], .none, [], [], []⟩

/-- Cancelling the current token (`src/server/project_manager.rs:72-75`, `120-123`). -/
def State.cancel {S T C R : Type} (s : State S T C R) : State S T C R :=
  { s with cancelled := s.token :: s.cancelled }

/-- The end of a mutation: a new epoch and a new token (`src/server/project_manager.rs:83-90`,
`136-143`). -/
def State.advance {S T C R : Type} (s : State S T C R) : State S T C R :=
  { s with epoch := s.epoch + 1, token := s.token + 1 }

/-- Task `i` goes on to another phase. -/
def State.goto {S T C R : Type} (s : State S T C R) (i : Nat) (p : Phase S T R) :
    State S T C R :=
  { s with tasks := s.tasks.set i p }

/-- Publishing a list, in order. -/
def State.publish {S T C R : Type} (s : State S T C R) (ps : List Publish) : State S T C R :=
  { s with published := ps.reverse ++ s.published }

/-- The next step of task `i`, which is in phase `p`: `did_save` (`src/server.rs:706-752`), `build`
(`src/server.rs:410-545`), `did_close` (`src/server.rs:754-780`), `mutate_with_epoch` and
`mutate_if_epoch_with_epoch` (`src/server/project_manager.rs:67-146`).  While a build runs the task
only waits for it. -/
def State.step {S T C R : Type} (ops : Ops S T C R) (s : State S T C R) (i : Nat) :
    Phase S T R → Option (State S T C R)
  | .saveRead path text version =>
    some (s.goto i (if ops.hasVersion s.proj path version then .done
      else .saveCancel path text version))
  | .saveCancel path text version => some (s.cancel.goto i (.saveMutate path text version))
  | .saveMutate path text version =>
    let s1 := { s with isBuilding := true, proj := ops.update s.proj path text version }.advance
    some ({ s1 with waiting := s1.waiting ++ [i] }.goto i (.saveQueue path s1.epoch))
  | .saveQueue path e =>
    if s.waiting.head? = some i then
      some ({ s with info := .queued e, waiting := s.waiting.tail }.goto i (.reloadCheck path e))
    else none
  | .reloadCheck path e =>
    some (s.goto i (if s.epoch ≠ e then .skipped else .reloadCancel path e))
  | .reloadCancel path e => some (s.cancel.goto i (.reloadMutate path e))
  | .reloadMutate path e =>
    if s.epoch ≠ e then some (s.goto i .skipped)
    else
      let x := ops.reload s.proj path
      let s1 := { s with proj := x.1 }.advance
      some (s1.goto i (match x.2 with
        | some targets => .view e s1.epoch targets
        | none => .failFinish e s1.epoch))
  | .failFinish e r => some ({ s with info := s.info.finish e }.goto i (.failCheck r))
  | .failCheck r => some (s.goto i (if s.epoch ≠ r then .skipped else .failCancel r))
  | .failCancel r => some (s.cancel.goto i (.failMutate r))
  | .failMutate r =>
    if s.epoch ≠ r then some (s.goto i .skipped)
    else some ({ s with isBuilding := false }.advance.goto i .done)
  | .view e r targets =>
    some (s.goto i (if s.epoch ≠ r then .skipped else .reset e r s.proj targets s.token))
  | .reset e r v targets token =>
    match s.info.reset e (ops.openUrls v) with
    | none => some (s.goto i .skipped)
    | some (info, ps) =>
      some (({ s with info := info }.publish ps).goto i (.building e r v targets token))
  | .building _ _ _ _ _ => none
  | .finishing e r v result =>
    some ({ s with info := s.info.finish e }.goto i (.cacheCheck r v result))
  | .cacheCheck r v result =>
    some (s.goto i (if s.epoch ≠ r then .skipped else .cacheCancel r v result))
  | .cacheCancel r v result => some (s.cancel.goto i (.cacheMutate r v result))
  | .cacheMutate r v result =>
    if s.epoch ≠ r then some (s.goto i .skipped)
    else
      some ({ s with
        cache := (match result with
          | some x => ops.record s.cache x
          | none => s.cache)
        isBuilding := false }.advance.goto i .done)
  | .closeCancel path => some (s.cancel.goto i (.closeMutate path))
  | .closeMutate path => some ({ s with proj := ops.close s.proj path }.advance.goto i .done)
  | .done => none
  | .skipped => none

/-- What can happen: the editor saves or closes a file, a task makes a step, the builder of a task sends
an event or ends. -/
inductive Act (R : Type) where
  | save (path : Path) (text : String) (version : Int)
  | close (path : Path)
  | run (i : Nat)
  | event (i : Nat) (ev : Event)
  | endBuild (i : Nat) (result : Option R)

/-- The effect of an action; nothing if it is not possible now.  Events are handled as in
`src/server.rs:512-518`. -/
def State.act {S T C R : Type} (ops : Ops S T C R) (s : State S T C R) :
    Act R → Option (State S T C R)
  | .save path text version => some { s with tasks := s.tasks ++ [.saveRead path text version] }
  | .close path => some { s with tasks := s.tasks ++ [.closeCancel path] }
  | .run i => s.tasks[i]?.bind (s.step ops i)
  | .event i ev =>
    match s.tasks[i]? with
    | some (.building e _ _ _ _) =>
      let x := s.info.handleEvent e ev
      some ({ s with info := x.1 }.publish x.2)
    | _ => none
  | .endBuild i result =>
    match s.tasks[i]? with
    | some (.building e r v _ _) => some (s.goto i (.finishing e r v result))
    | _ => none

end Acorn.Serv
