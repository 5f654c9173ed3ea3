/-
The copy of the standard library that the language server unpacks from its own binary
(/repo/src/packaged_acornlib.rs).

Several servers may share one cache directory, and any of them may be killed at any moment.  The model
splits `get_or_extract` into the single operations on the file system; `act` is one of them, and a run is a
list of operations of processes in any order.  A process that is killed makes no further operation.

Simplified: the tar archive is the tree it unpacks to; metadata is rendered and parsed by two functions
that stand for serde; `rename` is the POSIX one (a directory may replace an empty directory only); the
kernel's buffers (power loss) and symbolic links are left out; the text of errors is left out; the name of
a temporary directory (packaged_acornlib.rs:192-203: hash, process id and time) is a number.
-/

namespace Acorn.Packaged

mutual
  /-- A file with its contents, or a directory. -/
  inductive Node where
    | file (s : String)
    | dir (es : Entries)

  /-- What a directory lists. -/
  inductive Entries where
    | nil
    | cons (name : String) (t : Node) (es : Entries)
end

/-- The entry of a directory with this name. -/
def Entries.child : Entries → String → Option Node
  | .nil, _ => none
  | .cons n t es, c => if n = c then some t else es.child c

/-- The entry of this name, replaced or added. -/
def Entries.set : Entries → String → Node → Entries
  | .nil, c, u => .cons c u .nil
  | .cons n t es, c, u => if n = c then .cons n u es else .cons n t (es.set c u)

/-- What is at a path (`Path::join`). -/
def nodeAt : List String → Node → Option Node
  | [], t => some t
  | _ :: _, .file _ => none
  | c :: p, .dir es => (es.child c).bind (nodeAt p)

/-- `fs::read_to_string`, as far as it succeeds. -/
def fileAt (p : List String) (t : Node) : Option String :=
  match nodeAt p t with
  | some (.file s) => some s
  | _ => none

/-- `Path::is_dir`. -/
def Node.isDir : Node → Bool
  | .dir _ => true
  | .file _ => false

mutual
  /-- `has_package_manifest` (packaged_acornlib.rs:120-138). -/
  def Node.hasManifest : Node → Bool
    | .file _ => false
    | .dir es => es.anyManifest

  /-- The loop over the entries (packaged_acornlib.rs:124-136). -/
  def Entries.anyManifest : Entries → Bool
    | .nil => false
    | .cons n t es =>
      (t.isDir && ((n == "certs" && (fileAt ["manifest.json"] t).isSome) || t.hasManifest)) || es.anyManifest
end

/-- `fs::write`, as far as it succeeds: the directory must be there, and no directory may be in the way. -/
def writeAt : List String → String → Node → Option Node
  | [], s, .file _ => some (.file s)
  | [], _, .dir _ => none
  | _ :: _, _, .file _ => none
  | c :: p, s, .dir es =>
    match es.child c with
    | some t => (writeAt p s t).map fun u => .dir (es.set c u)
    | none => if p = [] then some (.dir (es.set c (.file s))) else none

mutual
  /-- `fs::remove_dir_all` on its way: the paths that `keep` does not list are gone. -/
  def Node.prune (keep : List String → Bool) (pre : List String) : Node → Node
    | .file s => .file s
    | .dir es => .dir (es.prune keep pre)

  /-- The entries that are left. -/
  def Entries.prune (keep : List String → Bool) (pre : List String) : Entries → Entries
    | .nil => .nil
    | .cons n t es =>
      if keep (pre ++ [n]) then .cons n (t.prune keep (pre ++ [n])) (es.prune keep pre) else es.prune keep pre
end

/-- The packaged archive and its hash (packaged_acornlib.rs:9-10), and the way metadata is written and read
(packaged_acornlib.rs:14-18). -/
structure Archive where
  tree : Node
  hash : String
  render : Nat → String → String
  parse : String → Option (Nat × String)

/-- `CACHE_METADATA_FILE` in the library's directory (packaged_acornlib.rs:11, 27). -/
def metaPath : List String := ["acornlib", ".acornlib-cache.json"]

/-- `verify_layout` (packaged_acornlib.rs:98-118). -/
def layoutOk (t : Node) : Bool :=
  (fileAt ["acornlib", "acorn.toml"] t).isSome &&
    match nodeAt ["acornlib", "src"] t with
    | some u => u.isDir && u.hasManifest
    | none => false

/-- The second half of `cache_is_valid` (packaged_acornlib.rs:80-87). -/
def metaOk (A : Archive) (t : Node) : Bool :=
  match fileAt metaPath t with
  | some s => decide (A.parse s = some (1, A.hash))
  | none => false

/-- `cache_is_valid` (packaged_acornlib.rs:73-88), when nothing changes meanwhile; a process makes the two
halves one after the other. -/
def accepted (A : Archive) (t : Node) : Bool := layoutOk t && metaOk A t

/-- The text that `write_metadata` writes (packaged_acornlib.rs:140-152). -/
def metaText (A : Archive) : String := A.render 1 A.hash

/-- Where a process is. -/
inductive Pc where
  | start | startMeta | makeRoot | seeTemp | clearTemp | makeTemp | unpack | verify | metaOpen | metaWrite
  | seeTarget | installLayout | installMeta | dropTemp | clearTarget | rename | seeAgain | againLayout
  | againMeta | tidy | abandon | ready | failed
deriving DecidableEq

/-- How the next operation of a process goes. -/
inductive Choice where
  /-- It succeeds. -/
  | go
  /-- A change to the file system fails. -/
  | fail
  /-- Something is there, but it cannot be looked at. -/
  | unread
  /-- A removal has come this far. -/
  | removed (keep : List String → Bool)
  /-- The archive has been unpacked this far. -/
  | unpacked (t : Node)
  /-- The metadata has been written this far. -/
  | wrote (s : String)

/-- What a process sees and changes: where it is, its temporary directory, and the shared directory. -/
structure View where
  pc : Pc
  mine : Option Node
  target : Option Node

/-- Can a directory be moved here? -/
def replaceable : Option Node → Bool
  | none => true
  | some (.dir .nil) => true
  | _ => false

/-- One step of `remove_dir_all` of a directory that is there. -/
def removing (c : Choice) (t : Option Node) (onDone onFail here : Pc) : Option Node × Pc :=
  match c with
  | .go => (none, onDone)
  | .removed keep => (t.map (Node.prune keep []), here)
  | .fail => (t, onFail)
  | _ => (t, here)

/-- A look at a directory; an entry that cannot be looked at does not count. -/
def looking (c : Choice) (ok : Bool) (yes no here : Pc) : Pc :=
  match c with
  | .go => if ok then yes else no
  | .unread => no
  | _ => here

/-- A change that succeeds or fails. -/
def trying (c : Choice) (yes no here : Pc) : Pc :=
  match c with
  | .go => yes
  | .fail => no
  | _ => here

/-- `fs::create_dir(&temp_root)` (packaged_acornlib.rs:52-58). -/
def makeTempDir (c : Choice) (v : View) : View :=
  match c with
  | .go =>
    match v.mine with
    | none => { v with mine := some (.dir .nil), pc := .unpack }
    | some _ => { v with pc := .failed }
  | .fail => { v with pc := .failed }
  | _ => v

/-- `extract_to` (packaged_acornlib.rs:90-96). -/
def extract (A : Archive) (c : Choice) (v : View) : View :=
  match c with
  | .go => { v with mine := some A.tree, pc := .verify }
  | .unpacked t => { v with mine := some t }
  | .fail => { v with pc := .abandon }
  | _ => v

/-- `write_metadata` (packaged_acornlib.rs:140-152), which opens the file for writing. -/
def openMeta (c : Choice) (v : View) : View :=
  match c with
  | .go =>
    match v.mine.bind (writeAt metaPath "") with
    | some t => { v with mine := some t, pc := .metaWrite }
    | none => { v with pc := .abandon }
  | .fail => { v with pc := .abandon }
  | _ => v

/-- `write_metadata` (packaged_acornlib.rs:140-152), which writes the text. -/
def writeMeta (A : Archive) (c : Choice) (v : View) : View :=
  match c with
  | .go =>
    match v.mine.bind (writeAt metaPath (metaText A)) with
    | some t => { v with mine := some t, pc := .seeTarget }
    | none => { v with pc := .abandon }
  | .wrote s =>
    match v.mine.bind (writeAt metaPath s) with
    | some t => { v with mine := some t }
    | none => v
  | .fail => { v with pc := .abandon }
  | _ => v

/-- The directory that is not valid is removed (packaged_acornlib.rs:171-177). -/
def clearOld (c : Choice) (v : View) : View :=
  match v.target with
  | none => { v with pc := .abandon }
  | some t => { v with target := (removing c (some t) .rename .abandon .clearTarget).1, pc := (removing c (some t) .rename .abandon .clearTarget).2 }

/-- `fs::rename` (packaged_acornlib.rs:180-181). -/
def install (c : Choice) (v : View) : View :=
  match c with
  | .go =>
    match v.mine with
    | some t =>
      if replaceable v.target then { pc := .ready, mine := none, target := some t } else { v with pc := .seeAgain }
    | none => { v with pc := .seeAgain }
  | .fail => { v with pc := .seeAgain }
  | _ => v

/-- The temporary directory is removed. -/
def dropMine (c : Choice) (v : View) (onDone onFail here : Pc) : View :=
  { v with mine := (removing c v.mine onDone onFail here).1, pc := (removing c v.mine onDone onFail here).2 }

/-- One operation of `get_or_extract` (packaged_acornlib.rs:25-67) and `install_temp_cache`
(packaged_acornlib.rs:154-190). -/
def act (A : Archive) (c : Choice) (v : View) : View :=
  match v.pc with
  -- cache_is_valid (packaged_acornlib.rs:30-32)
  | .start => { v with pc := looking c (v.target.any layoutOk) .startMeta .makeRoot .start }
  | .startMeta => { v with pc := looking c (v.target.any (metaOk A)) .ready .makeRoot .startMeta }
  -- create_dir_all (packaged_acornlib.rs:34-40)
  | .makeRoot => { v with pc := trying c .seeTemp .failed .makeRoot }
  -- the temporary directory (packaged_acornlib.rs:42-58)
  | .seeTemp => { v with pc := looking c v.mine.isSome .clearTemp .makeTemp .seeTemp }
  | .clearTemp => dropMine c v .makeTemp .failed .clearTemp
  | .makeTemp => makeTempDir c v
  -- filling it (packaged_acornlib.rs:60-62)
  | .unpack => extract A c v
  | .verify => { v with pc := looking c (v.mine.any layoutOk) .metaOpen .abandon .verify }
  | .metaOpen => openMeta c v
  | .metaWrite => writeMeta A c v
  -- install_temp_cache (packaged_acornlib.rs:160-170)
  | .seeTarget => { v with pc := looking c v.target.isSome .installLayout .rename .seeTarget }
  | .installLayout => { v with pc := looking c (v.target.any layoutOk) .installMeta .clearTarget .installLayout }
  | .installMeta => { v with pc := looking c (v.target.any (metaOk A)) .dropTemp .clearTarget .installMeta }
  | .dropTemp => dropMine c v .ready .abandon .dropTemp
  | .clearTarget => clearOld c v
  | .rename => install c v
  -- another process was faster (packaged_acornlib.rs:182-189)
  | .seeAgain => { v with pc := looking c v.target.isSome .againLayout .abandon .seeAgain }
  | .againLayout => { v with pc := looking c (v.target.any layoutOk) .againMeta .abandon .againLayout }
  | .againMeta => { v with pc := looking c (v.target.any (metaOk A)) .tidy .abandon .againMeta }
  | .tidy => dropMine c v .ready .ready .tidy
  -- an error (packaged_acornlib.rs:64-66)
  | .abandon => dropMine c v .failed .failed .abandon
  | .ready => v
  | .failed => v

/-- The cache directory and the processes; process `i` uses the temporary directory `i`
(packaged_acornlib.rs:42, 192-203). -/
structure World where
  target : Option Node
  temps : Nat → Option Node
  pcs : Nat → Pc

/-- What process `i` sees. -/
def World.view (w : World) (i : Nat) : View := ⟨w.pcs i, w.temps i, w.target⟩

/-- Process `i` makes one operation. -/
def World.step (A : Archive) (w : World) (e : Nat × Choice) : World :=
  let v := act A e.2 (w.view e.1)
  { target := v.target
    temps := fun j => if j = e.1 then v.mine else w.temps j
    pcs := fun j => if j = e.1 then v.pc else w.pcs j }

/-- A history. -/
def World.run (A : Archive) (w : World) (es : List (Nat × Choice)) : World := es.foldl (World.step A) w

/-- Before any process has started; temporary directories that earlier processes left may be there. -/
def World.first (target : Option Node) (temps : Nat → Option Node) : World := ⟨target, temps, fun _ => .start⟩

end Acorn.Packaged
