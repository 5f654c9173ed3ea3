import Verif.Model.AMap
import Verif.Model.ModulePaths
/-
The build cache and its manifests.

Models `src/build_cache.rs` (`BuildCache`) and `src/manifest.rs` (`PackageManifest`), in memory and
on disk.

Simplifications: a content hash is a number and two hashes are compared as the code compares their
hexadecimal forms; a certificate is its JSON text, so a certificate store is a list of lines; the
key of an implementation file is the list of components of its relative path (the code joins them
with `/`, which no component contains).
-/
namespace Acorn.Build
open Paths

/-- A content hash (`HexHash`, `src/manifest.rs:95-109`). -/
abbrev Hash := Nat

/-- Models `CertificateStore` (`src/certificate.rs:2245-2249`), as the JSON text of its
certificates. -/
abbrev Store := List (List Char)

/-- Models `struct PackageManifest` (`src/manifest.rs:116-129`). -/
structure Manifest where
  interface : Option Hash
  implementation : AMap Path Hash
  dependencies : AMap (List Char) Hash

/-- `PackageManifest::default()`. -/
def Manifest.empty : Manifest := ⟨none, .empty, .empty⟩

/-- Models `PackageManifest::is_empty` (`src/manifest.rs:170-172`). -/
def Manifest.isEmpty (m : Manifest) : Bool :=
  m.interface.isNone && m.implementation.entries.isEmpty && m.dependencies.entries.isEmpty

/-- Inserts the entries that are missing: the loop
`for (k, v) in old { map.entry(k).or_insert_with(v) }`. -/
def fillMissing {κ ν : Type} [DecidableEq κ] (m old : AMap κ ν) : AMap κ ν :=
  old.entries.foldl (fun m e => if m.contains e.1 then m else m.insert e.1 e.2) m

/-- Inserts all entries: the loop `for (k, v) in other { map.insert(k, v) }`. -/
def insertAll {κ ν : Type} [DecidableEq κ] (m other : AMap κ ν) : AMap κ ν :=
  other.entries.foldl (fun m e => m.insert e.1 e.2) m

/-- Models `PackageManifest::merge_missing_from` (`src/manifest.rs:154-168`). -/
def Manifest.mergeMissing (m old : Manifest) : Manifest where
  interface := if m.interface.isNone then old.interface else m.interface
  implementation := fillMissing m.implementation old.implementation
  dependencies := fillMissing m.dependencies old.dependencies

/-- The body of the second loop of `merge_updates_from` (`src/build_cache.rs:348-358`). -/
def Manifest.mergeUpdates (m other : Manifest) : Manifest where
  interface := if other.interface.isSome then other.interface else m.interface
  implementation := insertAll m.implementation other.implementation
  dependencies := insertAll m.dependencies other.dependencies

/-- Models `struct BuildCache` (`src/build_cache.rs:18-27`), without the source directory, which is
a parameter of the functions that need it. -/
structure Cache where
  certs : AMap Desc Store
  manifests : AMap Path Manifest

/-- Models `BuildCache::new` (`src/build_cache.rs:44-50`). -/
def Cache.empty : Cache := ⟨.empty, .empty⟩

/-- `self.manifests.entry(root).or_default()`. -/
def Cache.manifest (c : Cache) (root : Path) : Manifest := (c.manifests.get? root).getD .empty

/-! ### Keys -/

/-- Models `package_root_for_source_path` (`src/build_cache.rs:188-196`). -/
def packageRoot (exist : Path → Bool) (src source : Path) : Option Path :=
  match stripPrefix src source with
  | none => none
  | some _ => some ((nearestRoot exist src source).getD src)

/-- Models `package_root_for_descriptor` (`src/build_cache.rs:198-201`). -/
def rootOfDesc (exist : Path → Bool) (src : Path) (d : Desc) : Option Path :=
  match sourceOfDesc exist src d with
  | none => none
  | some source => packageRoot exist src source

/-- `ModuleDescriptor`'s `Display` for names (`src/module.rs:198-206`); only names are displayed
where the model uses it. -/
def displayName : Desc → List Char
  | .name parts => joinDots parts
  | _ => []

/-- Models `package_name_for_root` (`src/build_cache.rs:218-230`). -/
def packageName (src root : Path) : Option (List Char) :=
  match stripPrefix src root with
  | none => none
  | some [] => none
  | some (p :: ps) => some (joinDots (p :: ps))

/-- Models `dependency_key_for_descriptor` (`src/build_cache.rs:232-240`). -/
def dependencyKey (exist : Path → Bool) (src : Path) (d : Desc) : Option (List Char) :=
  match rootOfDesc exist src d with
  | none => none
  | some root => if root = src then some (displayName d) else packageName src root

/-! ### Recording -/

/-- Models `record_package_state` (`src/build_cache.rs:242-279`). -/
def Cache.record (exist : Path → Bool) (src : Path) (c : Cache) (d : Desc) (h : Hash)
    (deps : List (Desc × Hash)) : Cache :=
  match sourceOfDesc exist src d with
  | none => c
  | some source =>
    match packageRoot exist src source with
    | none => c
    | some root =>
      let depEntries := deps.filterMap fun e =>
        if rootOfDesc exist src e.1 = some root then none
        else (dependencyKey exist src e.1).map fun k => (k, e.2)
      let m := c.manifest root
      let m := if isInterfacePath exist src source then { m with interface := some h }
        else match stripPrefix root source with
          | some key => { m with implementation := m.implementation.insert key h }
          | none => m
      let m := { m with
        dependencies := depEntries.foldl (fun ds e => ds.insert e.1 e.2) m.dependencies }
      { c with manifests := c.manifests.insert root m }

/-- Models `BuildCache::insert` (`src/build_cache.rs:281-292`). -/
def Cache.insert (exist : Path → Bool) (src : Path) (c : Cache) (d : Desc) (store : Store)
    (h : Option Hash) (deps : List (Desc × Hash)) : Cache :=
  let c := match h with
    | some h => c.record exist src d h deps
    | none => c
  { c with certs := c.certs.insert d store }

/-- Models `BuildCache::manifest_matches` (`src/build_cache.rs:368-388`). -/
def Cache.manifestMatches (exist : Path → Bool) (src : Path) (c : Cache) (d : Desc) (h : Hash) :
    Bool :=
  match sourceOfDesc exist src d with
  | none => false
  | some source =>
    match packageRoot exist src source with
    | none => false
    | some root =>
      match c.manifests.get? root with
      | none => false
      | some m =>
        if isInterfacePath exist src source then m.interface == some h
        else match stripPrefix root source with
          | none => false
          | some key => m.implementation.get? key == some h

/-! ### Merging -/

/-- Models `merge_missing_manifests_from` (`src/build_cache.rs:331-338`). -/
def Cache.mergeMissingManifests (c old : Cache) : Cache :=
  { c with
    manifests := old.manifests.entries.foldl
      (fun ms e => ms.insert e.1 (((ms.get? e.1).getD .empty).mergeMissing e.2)) c.manifests }

/-- Models `merge_certificates_from` (`src/build_cache.rs:321-329`). -/
def Cache.mergeCertificates (c old : Cache) : Cache :=
  Cache.mergeMissingManifests { c with certs := fillMissing c.certs old.certs } old

/-- Models `merge_updates_from` (`src/build_cache.rs:343-359`). -/
def Cache.mergeUpdates (c other : Cache) : Cache where
  certs := insertAll c.certs other.certs
  manifests := other.manifests.entries.foldl
    (fun ms e => ms.insert e.1 (((ms.get? e.1).getD .empty).mergeUpdates e.2)) c.manifests

/-- The effect of `save_merging_old` on the cache in memory (`src/build_cache.rs:452-493`). -/
def Cache.saved (c old : Cache) (preserve : Bool) : Cache :=
  let c := if preserve then c.mergeMissingManifests old else c
  { c with certs := fillMissing c.certs old.certs }

/-! ### The disk -/

/-- One elementary effect on the disk.  A write puts one byte at a time, so that a crash can leave
any part of it done. -/
inductive Op where
  | mkdir (p : Path)
  | create (p : Path)
  | put (p : Path) (b : Char)
  | sync (p : Path)
  | rename (a b : Path)
  | remove (p : Path)
deriving DecidableEq

/-- The state of a disk: which file each path names, and for each file its data and whether all of it
has been forced to stable storage.  Directories are not kept. -/
structure Disk where
  names : Path → Option Nat
  data : Nat → List Char
  stable : Nat → Bool
  next : Nat

/-- Changes one value of a function. -/
def upd {α β : Type} [DecidableEq α] (f : α → β) (a : α) (b : β) : α → β :=
  fun x => if x = a then b else f x

/-- The effect of one operation.  `File::create` truncates an existing file; `rename` replaces the
target; writing to a path that names no file does nothing (it cannot happen after `create`). -/
def Disk.step (s : Disk) : Op → Disk
  | .mkdir _ => s
  | .create p =>
    match s.names p with
    | some i => { s with data := upd s.data i [], stable := upd s.stable i false }
    | none =>
      { names := upd s.names p (some s.next), data := upd s.data s.next [],
        stable := upd s.stable s.next false, next := s.next + 1 }
  | .put p b =>
    match s.names p with
    | some i =>
      { s with data := upd s.data i (s.data i ++ [b]), stable := upd s.stable i false }
    | none => s
  | .sync p =>
    match s.names p with
    | some i => { s with stable := upd s.stable i true }
    | none => s
  | .rename a b => { s with names := upd (upd s.names b (s.names a)) a none }
  | .remove p => { s with names := upd s.names p none }

/-- Runs a list of operations. -/
def Disk.run (s : Disk) (ops : List Op) : Disk := ops.foldl Disk.step s

/-- What a running program reads at a path. -/
def Disk.read (s : Disk) (p : Path) : Option (List Char) := (s.names p).map s.data

/-- The temporary file beside a manifest (`path.with_file_name(".manifest.json.tmp")`). -/
def tmpPath (root : Path) : Path :=
  root ++ [certsDir, ['.', 'm', 'a', 'n', 'i', 'f', 'e', 's', 't', '.', 'j', 's', 'o', 'n', '.', 't',
    'm', 'p']]

/-- Models `PackageManifest::save` (`src/manifest.rs:175-189`); `json` is the text of the manifest. -/
def saveManifestOps (root : Path) (json : List Char) : List Op :=
  [.mkdir (root ++ [certsDir]), .create (tmpPath root)] ++
    (json ++ ['\n']).map (.put (tmpPath root)) ++
    [.sync (tmpPath root), .rename (tmpPath root) (manifestPath root)]

/-- The text of a certificate file. -/
def storeText (s : Store) : List Char := s.flatMap (· ++ ['\n'])

/-- Models `CertificateStore::save` (`src/certificate.rs:2270-2281`). -/
def saveStoreOps (path : Path) (s : Store) : List Op :=
  .create path :: (storeText s).map (.put path)

/-- The operations of `save_merging_old` (`src/build_cache.rs:452-493`), in order.  `render` is
`serde_json::to_string_pretty`; `present` tells which old manifest files exist when they are to be
removed. -/
def saveOps (exist : Path → Bool) (src : Path) (render : Manifest → List Char)
    (present : Path → Bool) (c old : Cache) (preserve : Bool) : List Op :=
  let c := if preserve then c.mergeMissingManifests old else c
  (c.certs.entries.flatMap fun e =>
    match certOfDesc exist src e.1 with
    | none => []
    | some path => .mkdir path.dropLast :: saveStoreOps path e.2) ++
  (c.manifests.entries.flatMap fun e =>
    if e.2.isEmpty then [] else saveManifestOps e.1 (render e.2)) ++
  (if preserve then []
    else old.manifests.entries.flatMap fun e =>
      if c.manifests.contains e.1 then []
      else if present (manifestPath e.1) then [.remove (manifestPath e.1)] else [])

end Acorn.Build
