/-
Loading the modules of a project, one at a time.

Models `Project` in `src/project.rs` (the module table, `load_module`, the open files),
`elaborate_and_lower_module` in `src/loader/module_loader.rs`, the dependency collector in
`src/loader/parsed_module.rs` and `add_import_statement` in
`src/elaborator/environment/add_statement/imports.rs`.

Simplifications.
* A module is named by its canonical descriptor, and the module id is identified with that name
  (`module_map` is a bijection between the two); `C37` is about descriptors and paths.
* Packages are left out: no interface files, no implementation modules, no visibility check.
* Parsing is done once and for all: a file is either unparsable or a list of statements.  A
  statement keeps the modules it imports and the modules it mentions with `lib(...)`, including those
  in its nested blocks; everything else about it is opaque.
* The elaboration of a statement, of the prelude and of the end of the file is a parameter
  (`Elaborator`), which is given what the real one can ask the project for.  Imports and `lib(...)`
  mentions of one statement are resolved before the rest of the statement is elaborated; in the code
  they are resolved in source order, which only changes which of several errors is reported.
* The text of an error is not kept, only whether it is a circular import.
* The recursion of `load_module` is given a bound on its depth; running out of it is a result of its
  own (`stuck`), which is proved never to happen.
-/
namespace Acorn.Proj

/-- A module, by its canonical descriptor (`src/module.rs:152-166`). -/
abbrev Mod := String

/-- `ModuleId::PRELUDE` and the name `"prelude"` (`src/module.rs:18-22`, `src/project.rs:3718`). -/
def preludeMod : Mod := "prelude"

/-- A parsed top-level statement: the modules it imports, the modules it mentions with `lib(...)`
and the rest (`src/syntax/statement.rs`, `enum StatementInfo`). -/
structure Stmt (I : Type) where
  imports : List Mod
  libs : List Mod
  act : I

/-- The contents of a file: `ParsedModule::parse` fails or gives statements
(`src/loader/parsed_module.rs:52-72`). -/
inductive File (I : Type) where
  | unparsable
  | parsed (stmts : List (Stmt I))

/-- The files that can be read, the first entry for a name being the one that counts
(`Project::read_file`, `src/project.rs:3132-3150`). -/
abbrev Files (I : Type) := List (Mod × File I)

/-- `enum ImportError` (`src/project.rs:1330-1340`), without the message. -/
inductive ImportError where
  | notFound
  | circular
deriving DecidableEq

/-- `enum LoadState` (`src/module.rs:128-146`).  An error keeps only whether it is a circular
import (`Error::circular`, `src/elaborator/error.rs:22-25`); a loaded module keeps its export. -/
inductive LoadState (E : Type) where
  | registered
  | loading
  | error (circular : Bool)
  | ok (e : E)

/-- The module table of a project: `modules` together with `module_map`, and
`dependency_load_errors` (`src/project.rs:80-91`). -/
structure Table (E : Type) where
  states : Mod → Option (LoadState E)
  depErrors : Mod → Option ImportError

/-- `drop_modules` (`src/project.rs:1779-1783`): the empty table. -/
def Table.empty {E : Type} : Table E := ⟨fun _ => none, fun _ => none⟩

/-- Writing `modules[id].state` and `module_map` (`src/project.rs:3722-3744`, `src/module.rs:73-90`). -/
def Table.set {E : Type} (p : Table E) (m : Mod) (s : LoadState E) : Table E :=
  { p with states := fun x => if x = m then some s else p.states x }

/-- `dependency_load_errors.insert` / `.remove` (`src/project.rs:3776`, `3786`). -/
def Table.setError {E : Type} (p : Table E) (m : Mod) (e : Option ImportError) : Table E :=
  { p with depErrors := fun x => if x = m then e else p.depErrors x }

/-- `register_all_modules` (`src/project.rs:2034-2088`): when no module is known yet, every file
found on disk is registered.  The code does so when the table is empty only; here it is repeated before
every load, which changes nothing since the disk is fixed. -/
def Table.register {E : Type} (p : Table E) (disk : List Mod) : Table E :=
  { p with states := fun x =>
      match p.states x with
      | some s => some s
      | none => if x ∈ disk then some .registered else none }

/-- `get_bindings` / `get_module_export` (`src/project.rs:3871-3877`, `2426-2428`). -/
def Table.bindings {E : Type} (p : Table E) (m : Mod) : Option E :=
  match p.states m with
  | some (.ok e) => some e
  | _ => none

/-- `get_loaded_module_id_by_name` (`src/project.rs:2380-2408`, and `605-635` on a view). -/
def Table.find {E : Type} (p : Table E) (m : Mod) : Except ImportError Unit :=
  match p.states m with
  | none | some .registered =>
    match p.depErrors m with
    | some err => .error err
    | none => .error .notFound
  | some .loading => .error .circular
  | some (.error true) => .error .circular
  | some (.error false) => .ok ()
  | some (.ok _) => .ok ()

/-- `DependencyCollector::add_dependency` (`src/loader/parsed_module.rs:44-48`). -/
def addDependency (all : List Mod) (m : Mod) : List Mod :=
  if m ∈ all then all else all ++ [m]

/-- `dependency_names` of a parsed file: `collect_dependencies_from_statement` on every statement
(`src/loader/parsed_module.rs:52-72`, `508-660`). -/
def dependencyNames {I : Type} (stmts : List (Stmt I)) : List Mod :=
  stmts.foldl (fun all s => (s.imports ++ s.libs).foldl addDependency all) []

/-- `implicit_lib_dependency_names` of a parsed file (`src/loader/parsed_module.rs:37-42`). -/
def libNames {I : Type} (stmts : List (Stmt I)) : List Mod :=
  stmts.foldl (fun all s => s.libs.foldl addDependency all) []

/-- The elaborator, as far as loading is concerned: `Environment::new` with `import_prelude`,
`add_module_dependency`, the elaboration of one statement once the exports of the modules it names
are at hand, and `run_lowering_pass` with `ModuleExport::from_lowered`
(`src/loader/module_loader.rs:25-59`).  The later stages may ask the project for the bindings of any
module. -/
structure Elaborator (E I σ : Type) where
  start : Mod → Option E → σ
  addLib : σ → Mod → σ
  step : Mod → (Mod → Option E) → σ → List E → List E → I → Option σ
  finish : Mod → (Mod → Option E) → σ → E

/-- The import part of a statement: `add_import_statement`
(`src/elaborator/environment/add_statement/imports.rs:20-50`).  The error tells whether it is a
circular import. -/
def importAll {E : Type} (p : Table E) : List Mod → Except Bool (List E)
  | [] => .ok []
  | d :: ds =>
    match p.find d with
    | .error .circular => .error true
    | .error .notFound => .error false
    | .ok () =>
      match p.bindings d with
      | none => .error false
      | some e =>
        match importAll p ds with
        | .error c => .error c
        | .ok es => .ok (e :: es)

/-- The `lib(...)` mentions of a statement: `evaluate_entity` and `evaluate_dot_expression`
(`src/elaborator/evaluator.rs:2024-2050`, `1851-1860`).  `libs` are the modules recorded by
`add_module_dependency`. -/
def libAll {E : Type} (p : Table E) (libs : List Mod) : List Mod → Except Bool (List E)
  | [] => .ok []
  | d :: ds =>
    match p.states d with
    | none => .error false
    | some _ =>
      if d ∈ libs then
        match p.bindings d with
        | none => .error false
        | some e =>
          match libAll p libs ds with
          | .error c => .error c
          | .ok es => .ok (e :: es)
      else .error false

/-- `env.add_statement` on every statement, stopping at the first error
(`src/loader/module_loader.rs:39-41`). -/
def addStatements {E I σ : Type} (El : Elaborator E I σ) (p : Table E) (m : Mod)
    (libs : List Mod) : σ → List (Stmt I) → Except Bool σ
  | s, [] => .ok s
  | s, st :: rest =>
    match importAll p st.imports with
    | .error c => .error c
    | .ok es =>
      match libAll p libs st.libs with
      | .error c => .error c
      | .ok ls =>
        match El.step m p.bindings s es ls st.act with
        | none => .error false
        | some s' => addStatements El p m libs s' rest

/-- The prelude that `elaborate_and_lower_module` imports, if it is loaded
(`src/loader/module_loader.rs:26-35`). -/
def Table.preludeExport {E : Type} (p : Table E) : Option E :=
  match p.find preludeMod with
  | .ok () => p.bindings preludeMod
  | .error _ => none

/-- `elaborate_and_lower_module` (`src/loader/module_loader.rs:17-61`). -/
def elaborate {E I σ : Type} (El : Elaborator E I σ) (p : Table E) (m : Mod)
    (stmts : List (Stmt I)) (libs : List Mod) : Except Bool E :=
  let s := libs.foldl El.addLib (El.start m (if m = preludeMod then none else p.preludeExport))
  match addStatements El p m libs s stmts with
  | .error c => .error c
  | .ok s' => .ok (El.finish m p.bindings s')

/-- What `load_module` returns: an id, one of the two import errors, or the bound on the recursion
was too small. -/
inductive Loaded where
  | ok
  | notFound
  | circular
  | stuck
deriving DecidableEq

/-- One round of the loop over the dependency names, given what loading the dependency did: it
clears or records the load error and, for a `lib(...)` mention, records the dependency
(`src/project.rs:3767-3789`). -/
def noteDependency {E : Type} (libNames : List Mod) (d : Mod) :
    Table E × Loaded → List Mod → Table E × List Mod
  | (p, .ok), libs =>
    (p.setError d none, if d ∈ libNames then libs ++ [d] else libs)
  | (p, .circular), libs => (p.setError d (some .circular), libs)
  | (p, .notFound), libs => (p.setError d (some .notFound), libs)
  | (p, .stuck), libs => (p, libs)

/-- The loop over the dependency names (`src/project.rs:3760-3790`), given how to load one. -/
def loadDependencies {E : Type} (load : Table E → Mod → Table E × Loaded)
    (m : Mod) (libNames : List Mod) : Table E → List Mod → List Mod → Table E × List Mod × Bool
  | p, libs, [] => (p, libs, true)
  | p, libs, d :: ds =>
    if d = m then loadDependencies load m libNames p libs ds
    else
      let r := load p d
      if r.2 = .stuck then (r.1, libs, false)
      else
        let n := noteDependency libNames d r libs
        loadDependencies load m libNames n.1 n.2 ds

/-- `load_module` (`src/project.rs:3682-3821`). -/
def loadModule {E I σ : Type} (El : Elaborator E I σ) (files : Files I) :
    Nat → Table E → Mod → Table E × Loaded
  | 0, p, _ => (p, .stuck)
  | n + 1, p, m =>
    match p.states m with
    | some .loading => (p, .circular)
    | some (.error _) => (p, .ok)
    | some (.ok _) => (p, .ok)
    | none | some .registered =>
      match files.lookup m with
      | none => (p, .notFound)
      | some .unparsable => (p.set m (.error false), .ok)
      | some (.parsed stmts) =>
        let r := loadDependencies (loadModule El files n) m (libNames stmts)
          (p.set m .loading) [] (dependencyNames stmts)
        if r.2.2 = false then (r.1, .stuck)
        else
          let q := if m = preludeMod then (r.1, Loaded.ok) else loadModule El files n r.1 preludeMod
          if q.2 = .stuck then (q.1, .stuck)
          else
            match elaborate El q.1 m stmts r.2.1 with
            | .ok e => (q.1.set m (.ok e), .ok)
            | .error true => (q.1.set m (.error true), .circular)
            | .error false => (q.1.set m (.error false), .ok)

/-- A project: the disk, the open files with their versions, the targets and the module table
(`src/project.rs:58-110`). -/
structure Project (E I : Type) where
  disk : Files I
  opened : List (Mod × File I × Int)
  targets : List Mod
  table : Table E

/-- What `read_file` finds: an open file hides the one on disk (`src/project.rs:3132-3150`). -/
def Project.files {E I : Type} (P : Project E I) : Files I :=
  P.opened.map (fun x => (x.1, x.2.1)) ++ P.disk

/-- A bound on the depth of the recursion of `load_module`: no file is entered twice. -/
def Project.depth {E I : Type} (P : Project E I) : Nat := P.files.length + 2

/-- `load_module` on a project, after `register_all_modules` (`src/project.rs:3682-3690`). -/
def Project.load {E I σ : Type} (El : Elaborator E I σ) (P : Project E I) (m : Mod) :
    Project E I × Loaded :=
  let r := loadModule El P.files P.depth (P.table.register (P.disk.map (·.1))) m
  ({ P with table := r.1 }, r.2)

/-- `add_unloaded_target_by_descriptor` (`src/project.rs:1798-1806`). -/
def Project.addTarget {E I : Type} (P : Project E I) (m : Mod) : Project E I :=
  { P with targets := if m ∈ P.targets then P.targets else P.targets ++ [m] }

/-- `reload_targets` (`src/project.rs:2284-2289`): load every target, whatever it returns. -/
def Project.reload {E I σ : Type} (El : Elaborator E I σ) (P : Project E I) : Project E I :=
  P.targets.foldl (fun P t => (P.load El t).1) P

/-- `update_file_state` (`src/project.rs:2224-2246`).  The flag tells whether anything changed: it
does not when this version of the file is already the one held. -/
def Project.updateState {E I : Type} (P : Project E I) (m : Mod) (f : File I) (version : Int) :
    Project E I × Bool :=
  match P.opened.lookup m with
  | some (_, v) =>
    if version = v then (P, false)
    else
      (({ P with opened := (m, f, version) :: P.opened.filter (fun x => x.1 ≠ m), table := .empty }).addTarget m,
        true)
  | none =>
    (({ P with opened := (m, f, version) :: P.opened.filter (fun x => x.1 ≠ m), table := .empty }).addTarget m,
      true)

/-- `update_file` (`src/project.rs:2294-2304`). -/
def Project.update {E I σ : Type} (El : Elaborator E I σ) (P : Project E I) (m : Mod)
    (f : File I) (version : Int) : Project E I :=
  let r := P.updateState m f version
  if r.2 then r.1.reload El else r.1

/-- `update_file_for_ide` (`src/project.rs:2308-2316`). -/
def Project.updateIde {E I : Type} (P : Project E I) (m : Mod) (f : File I) (version : Int) :
    Project E I :=
  (P.updateState m f version).1

/-- `close_file` (`src/project.rs:2318-2333`). -/
def Project.close {E I σ : Type} (El : Elaborator E I σ) (P : Project E I) (m : Mod) :
    Project E I :=
  match P.opened.lookup m with
  | none => P
  | some _ =>
    ({ P with opened := P.opened.filter (fun x => x.1 ≠ m), table := .empty }).reload El

/-- `add_target_by_descriptor` (`src/project.rs:1787-1796`). -/
def Project.target {E I σ : Type} (El : Elaborator E I σ) (P : Project E I) (m : Mod) :
    Project E I × Loaded :=
  let r := P.load El m
  (r.1.addTarget m, r.2)

/-- A request to a project. -/
inductive Request (I : Type) where
  | update (m : Mod) (f : File I) (version : Int)
  | updateIde (m : Mod) (f : File I) (version : Int)
  | close (m : Mod)
  | target (m : Mod)
  | load (m : Mod)
  | reload

/-- The effect of one request. -/
def Project.handle {E I σ : Type} (El : Elaborator E I σ) (P : Project E I) :
    Request I → Project E I
  | .update m f v => P.update El m f v
  | .updateIde m f v => P.updateIde m f v
  | .close m => P.close El m
  | .target m => (P.target El m).1
  | .load m => (P.load El m).1
  | .reload => P.reload El

end Acorn.Proj
