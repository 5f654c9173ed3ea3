/-
Module names and file paths.

Models `src/module.rs` (`ModuleDescriptor`), the path functions of `src/project.rs` and those of
`src/build_cache.rs`.

Simplifications: a path is the list of its normal components, and a component is a list of Unicode
characters (so `to_string_lossy` loses nothing); `Path::join`/`push` of one module part appends one
component, which is what they do when the part contains no separator; the file system is a predicate
telling which paths exist, the same one for `exists` and `is_file`; the text of an import error is
not kept.
-/
namespace Acorn.Paths

/-- One component of a path, or one part of a module name. -/
abbrev Part := List Char

/-- A path, as the list of its components from the root. -/
abbrev Path := List Part

/-- Models `enum ModuleDescriptor` (`src/module.rs:152-166`). -/
inductive Desc where
  | anonymous
  | name (parts : List Part)
  | file (path : Path)
deriving DecidableEq, Repr

/-- `PACKAGE_INTERFACE_FILE` (`src/build_cache.rs:11`). -/
def interfaceFile : Part := ['i', 'n', 't', 'e', 'r', 'f', 'a', 'c', 'e', '.', 'a', 'c']

/-- The module part that names the same file as a package interface. -/
def interfacePart : Part := ['i', 'n', 't', 'e', 'r', 'f', 'a', 'c', 'e']

/-- `CERTS_DIR` (`src/build_cache.rs:10`). -/
def certsDir : Part := ['c', 'e', 'r', 't', 's']

/-- The suffix `".ac"`. -/
def ac : Part := ['.', 'a', 'c']

/-- The suffix `".jsonl"`. -/
def jsonl : Part := ['.', 'j', 's', 'o', 'n', 'l']

/-- Why a path or name was refused (`ImportError::NotFound` in all cases; the text is replaced by a
tag). -/
inductive PathErr where
  | badPart
  | notAc
  | ambiguous (file interface : Path)
  | anonymous
deriving DecidableEq, Repr

/-- `char::is_ascii_lowercase`. -/
def isLower (c : Char) : Bool := 'a' ≤ c && c ≤ 'z'

/-- `char::is_ascii_alphanumeric() || char == '_'`. -/
def isPartChar (c : Char) : Bool :=
  ('a' ≤ c && c ≤ 'z') || ('A' ≤ c && c ≤ 'Z') || ('0' ≤ c && c ≤ '9') || c == '_'

/-- Models `check_valid_module_part` (`src/project.rs:1365-1387`). -/
def validPart : Part → Bool
  | [] => false
  | c :: cs => isLower c && (c :: cs).all isPartChar

/-- `parts.join(".")`. -/
def joinDots : List Part → List Char
  | [] => []
  | [p] => p
  | p :: q :: ps => p ++ '.' :: joinDots (q :: ps)

/-- `s.split('.')`: always at least one piece. -/
def splitDots : List Char → List Part
  | [] => [[]]
  | c :: cs =>
    if c = '.' then [] :: splitDots cs
    else match splitDots cs with
      | [] => [[c]]
      | p :: ps => (c :: p) :: ps

/-- Models `ModuleDescriptor::name` (`src/module.rs:170-172`). -/
def Desc.ofName (s : List Char) : Desc := .name (splitDots s)

/-- The loop of `path_from_module_name` (`src/project.rs:454-500`, `3196-3244`), over the parts that
are left and the directory reached so far. -/
def pathLoop (exist : Path → Bool) : Path → List Part → Except PathErr Path
  | _, [] => .error .badPart -- `unreachable!`; `split` gives at least one piece
  | dir, [last] =>
    if validPart last then
      let filePath := dir ++ [last ++ ac]
      let interfacePath := dir ++ [last, interfaceFile]
      if exist interfacePath then
        if exist filePath then .error (.ambiguous filePath interfacePath) else .ok interfacePath
      else .ok filePath
    else .error .badPart
  | dir, p :: q :: ps =>
    if validPart p then pathLoop exist (dir ++ [p]) (q :: ps) else .error .badPart

/-- Models `Project::path_from_module_name` (`src/project.rs:454-500`, `3196-3244`). -/
def pathFromModuleName (exist : Path → Bool) (src : Path) (name : List Char) :
    Except PathErr Path :=
  pathLoop exist src (splitDots name)

/-- Models `Project::path_from_descriptor` (`src/project.rs:439-452`, `3613-3626`). -/
def pathFromDesc (exist : Path → Bool) (src : Path) : Desc → Except PathErr Path
  | .name parts => pathFromModuleName exist src (joinDots parts)
  | .file p => .ok p
  | .anonymous => .error .anonymous

/-- `Path::strip_prefix`. -/
def stripPrefix : Path → Path → Option Path
  | [], p => some p
  | _ :: _, [] => none
  | a :: as, b :: bs => if a = b then stripPrefix as bs else none

/-- The loop of `nearest_package_root_for_path`, over the current directory, given with its
components reversed.  Running out of parents is the `?` in `current.parent()?`. -/
def rootLoop (exist : Path → Bool) (src : Path) : List Part → Option Path
  | [] => if src = [] then none else if exist [interfaceFile] then some [] else none
  | d :: ds =>
    if (d :: ds).reverse = src then none
    else if exist ((d :: ds).reverse ++ [interfaceFile]) then some (d :: ds).reverse
    else rootLoop exist src ds

/-- Models `nearest_package_root_for_path` (`src/project.rs:3255-3265`) and
`explicit_package_root_for_source_path` (`src/build_cache.rs:177-186`). -/
def nearestRoot (exist : Path → Bool) (src path : Path) : Option Path :=
  match path.reverse with
  | [] => none
  | _ :: dir => rootLoop exist src dir

/-- The test `root.is_some_and(|root| path == root.join(PACKAGE_INTERFACE_FILE))` for the nearest
package root (`src/project.rs:3174-3176`, `src/build_cache.rs:205-208`). -/
def isRootFile (exist : Path → Bool) (src path : Path) : Bool :=
  match nearestRoot exist src path with
  | some r => decide (path = r ++ [interfaceFile])
  | none => false

/-- `str::strip_suffix`. -/
def stripSuffix (suffix s : List Char) : Option (List Char) :=
  if s.drop (s.length - suffix.length) = suffix then some (s.take (s.length - suffix.length))
  else none

/-- The loop of `descriptor_from_path` (`src/project.rs:3165-3191`) over the components that are
left.  `root` says whether the path is the interface file of its nearest package root. -/
def descLoop (root : Bool) : List Part → Except PathErr (List Part)
  | [] => .ok []
  | [last] =>
    match stripSuffix ac last with
    | none => .error .notAc
    | some stem =>
      if last = interfaceFile && root then .ok []
      else if validPart stem then .ok [stem] else .error .badPart
  | p :: q :: ps =>
    if validPart p then
      match descLoop root (q :: ps) with
      | .ok rest => .ok (p :: rest)
      | .error e => .error e
    else .error .badPart

/-- Models `Project::descriptor_from_path` (`src/project.rs:397-437`, `3154-3194`). -/
def descFromPath (exist : Path → Bool) (src path : Path) : Except PathErr Desc :=
  match stripPrefix src path with
  | none => .ok (.file path)
  | some rel =>
    match descLoop (isRootFile exist src path) rel with
    | .ok parts => .ok (.name parts)
    | .error e => .error e

/-- Models `Project::canonicalize_name_descriptor` (`src/project.rs:3596-3611`). -/
def canonicalize (exist : Path → Bool) (src : Path) (d : Desc) : Desc :=
  match d with
  | .name _ =>
    match pathFromDesc exist src d with
    | .error _ => d
    | .ok p =>
      if exist p then
        match descFromPath exist src p with
        | .ok d' => d'
        | .error _ => d
      else d
  | _ => d

/-! ### The build cache's own path functions -/

/-- The pieces before and after the last dot (`rsplit_file_at_dot` of the standard library): none if
there is no dot, or the only one is the first character. -/
def lastDot (s : List Char) : Option (List Char × List Char) :=
  let after := s.reverse.takeWhile (· ≠ '.')
  match s.reverse.dropWhile (· ≠ '.') with
  | [] => none
  | _ :: before => if before = [] then none else some (before.reverse, after.reverse)

/-- `Path::file_stem` of a single component. -/
def fileStem (s : Part) : Part :=
  match lastDot s with
  | some (b, _) => b
  | none => s

/-- `Path::extension` of a single component. -/
def extension (s : Part) : Option Part :=
  match lastDot s with
  | some (_, e) => some e
  | none => none

/-- Models `cert_path_for_source_path` (`src/build_cache.rs:108-112`). -/
def certOfSource (source : Path) : Option Path :=
  match source.reverse with
  | [] => none
  | f :: dir => some (dir.reverse ++ [certsDir, fileStem f ++ jsonl])

/-- Models `source_path_from_cert_path` (`src/build_cache.rs:114-122`). -/
def sourceOfCert (cert : Path) : Option Path :=
  match cert.reverse with
  | [] => none
  | [_] => none
  | f :: c :: dir => if c = certsDir then some (dir.reverse ++ [fileStem f ++ ac]) else none

/-- Models `descriptor_for_source_path` (`src/build_cache.rs:128-150`). -/
def descOfSource (src source : Path) : Option Desc :=
  if source.contains certsDir then none
  else match stripPrefix src source with
    | none => none
    | some rel =>
      match source.getLast? with
      | none => none
      | some f =>
        if extension f = some ['a', 'c'] then
          match rel.reverse with
          | [] => none
          | last :: dir =>
            if last = interfaceFile then
              if dir = [] then none else some (.name dir.reverse)
            else match stripSuffix ac last with
              | none => none
              | some stem => some (.name (dir.reverse ++ [stem]))
        else none

/-- Models `source_path_for_descriptor` (`src/build_cache.rs:152-175`). -/
def sourceOfDesc (exist : Path → Bool) (src : Path) : Desc → Option Path
  | .name parts =>
    match parts.reverse with
    | [] => none
    | last :: dir =>
      let directory := src ++ dir.reverse
      if exist (directory ++ [last, interfaceFile]) then some (directory ++ [last, interfaceFile])
      else some (directory ++ [last ++ ac])
  | _ => none

/-- Models `is_package_interface_path` (`src/build_cache.rs:203-209`). -/
def isInterfacePath (exist : Path → Bool) (src source : Path) : Bool :=
  source.getLast? = some interfaceFile && isRootFile exist src source

/-- `Path::with_extension("jsonl")` for a path whose extension is `ac`. -/
def withJsonl (p : Path) : Path :=
  match p.reverse with
  | [] => []
  | f :: dir => dir.reverse ++ [fileStem f ++ jsonl]

/-- Models `cert_path_for_descriptor` (`src/build_cache.rs:428-446`). -/
def certOfDesc (exist : Path → Bool) (src : Path) : Desc → Option Path
  | .name parts =>
    match sourceOfDesc exist src (.name parts) with
    | none => none
    | some source => if isInterfacePath exist src source then none else certOfSource source
  | .file p =>
    match p.getLast? with
    | none => none
    | some f => if extension f = some ['a', 'c'] then some (withJsonl p) else none
  | .anonymous => none

/-- What `BuildCache::load` does with one `.jsonl` file (`src/build_cache.rs:83-97`): the module
whose certificates it holds, if it is used at all. -/
def loadedAs (exist : Path → Bool) (src cert : Path) : Option Desc :=
  match cert.getLast? with
  | none => none
  | some f =>
    if extension f = some ['j', 's', 'o', 'n', 'l'] then
      match sourceOfCert cert with
      | none => none
      | some source => if exist source then descOfSource src source else none
    else none

/-- Models `package_manifest_path` (`src/build_cache.rs:124-126`). -/
def manifestPath (root : Path) : Path :=
  root ++ [certsDir, ['m', 'a', 'n', 'i', 'f', 'e', 's', 't', '.', 'j', 's', 'o', 'n']]

end Acorn.Paths
