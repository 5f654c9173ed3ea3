import Verif.Model.BuildCache
/-
Skipping the verification of unchanged modules.

Models `src/builder.rs` (`try_skip_unchanged_module`, the recording of verified modules) and
`src/project.rs` (`all_dependencies`, `update_build_cache`).

Simplifications: a loaded module is identified by its descriptor (the code gives each descriptor one
module id); whether the verification of a module succeeds, and its certificates, are given; modules
are processed one after another, which `C35` shows to be the same as in parallel; a certificate file
that is suppressed for a module, and building with a goal filter (which never changes the cache), are
left out.
-/
namespace Acorn.Build
open Paths

/-- What a build sees of the project: which files exist, which modules are loaded, the hash of each
module's content and its direct imports. -/
structure Project where
  exist : Path → Bool
  modules : List Desc
  hash : Desc → Option Hash
  imports : Desc → List Desc

/-- Models `append_dependencies` (`src/project.rs:564-581`, `3852-3869`).  The first argument bounds
the depth of the recursion; the code has no bound, and `allDependencies` gives one that is never
reached. -/
def appendDeps (imports : Desc → List Desc) :
    Nat → List Desc → List Desc → Desc → Bool × List Desc × List Desc
  | 0, seen, out, _ => (false, seen, out)
  | n + 1, seen, out, m =>
    if m ∈ seen then (false, seen, out)
    else
      let r := (imports m).foldl
        (fun (r : List Desc × List Desc) dep =>
          let q := appendDeps imports n r.1 r.2 dep
          (q.2.1, if q.1 then q.2.2 ++ [dep] else q.2.2))
        (m :: seen, out)
      (true, r.1, r.2)

/-- Models `all_dependencies` (`src/project.rs:557-562`, `3842-3847`). -/
def Project.allDependencies (p : Project) (m : Desc) : List Desc :=
  (appendDeps p.imports (p.modules.length + 1) [] [] m).2.2

/-- Models `dependency_hashes_for_module` (`src/builder.rs:3720-3735`). -/
def Project.dependencyHashes (p : Project) (m : Desc) : List (Desc × Hash) :=
  (p.allDependencies m).filterMap fun d => (p.hash d).map fun h => (d, h)

/-- Whether a module's present content is the one the cache has recorded. -/
def Project.recorded (p : Project) (src : Path) (old : Cache) (d : Desc) : Bool :=
  match p.hash d with
  | none => false
  | some h => old.manifestMatches p.exist src d h

/-- Models the decision of `try_skip_unchanged_module` (`src/builder.rs:3737-3785`).  `checkHashes`
is `self.check_hashes && !self.force_search`. -/
def trySkip (src : Path) (p : Project) (checkHashes : Bool) (old : Cache) (d : Desc) : Bool :=
  checkHashes && p.recorded src old d && (p.allDependencies d).all (p.recorded src old) &&
    old.certs.contains d

/-- One step of a build: a module is to be verified, with the result that verification would have,
or a package interface is validated. -/
inductive Work where
  | module (d : Desc) (good : Bool) (store : Store)
  | interface (d : Desc)

/-- Models `record_unchanged` as called by `try_skip_unchanged_module` (`src/builder.rs:3790-3796`) and
`record_validated_interface_module` (`src/builder.rs:1813-1828`). -/
def recordUnchanged (src : Path) (p : Project) (new : Cache) (d : Desc) : Cache :=
  match p.hash d with
  | none => new
  | some h => new.record p.exist src d h (p.dependencyHashes d)

/-- The effect of one step on the cache that the build is producing: `trySkip`, or the end of
`verify_lowered_module` (`src/builder.rs:2934-2976`). -/
def doWork (src : Path) (p : Project) (checkHashes : Bool) (old new : Cache) : Work → Cache
  | .module d good store =>
    if trySkip src p checkHashes old d then recordUnchanged src p new d
    else new.insert p.exist src d store (if good then p.hash d else none)
      (if good then p.dependencyHashes d else [])
  | .interface d => recordUnchanged src p new d

/-- One build.  `error`: it ended with an error, so that the cache is not updated.  `partialBuild`:
only some targets were asked for. -/
structure Run where
  project : Project
  checkHashes : Bool
  work : List Work
  error : Bool
  partialBuild : Bool
  writeCache : Bool

/-- The cache a build produces (`self.build_cache` when it ends). -/
def Run.produced (src : Path) (r : Run) (old : Cache) : Cache :=
  r.work.foldl (doWork src r.project r.checkHashes old) .empty

/-- Models `take_build_cache` (`src/builder.rs:3817-3823`) followed by `update_build_cache`
(`src/project.rs:1762-1776`). -/
def Run.after (src : Path) (r : Run) (old : Cache) : Cache :=
  if r.error then old
  else if r.writeCache then (r.produced src old).saved old r.partialBuild
  else (r.produced src old).mergeCertificates old

/-- The cache after a series of builds, starting with none. -/
def cacheAfter (src : Path) (runs : List Run) : Cache := runs.foldl (fun c r => r.after src c) .empty

end Acorn.Build
