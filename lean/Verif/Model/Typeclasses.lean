/-
Typeclass inheritance.  Models /repo/src/elaborator/binding_map.rs and /repo/src/kernel/type_store.rs.
-/
import Verif.Model.AMap
namespace Acorn

/-- `Typeclass` (elaborator/acorn_type.rs): the module it was defined in, and its name. -/
abbrev TC := Nat × String

/-- `BindingMap::typeclass_defs` (binding_map.rs), of which only the `extends` sets are modelled.  A
`HashSet` is a list. -/
abbrev ClassDefs := AMap TC (List TC)

/-- The binding maps of all modules. -/
abbrev ClassWorld := Nat → ClassDefs

namespace Classes

/-- The loop over the direct bases in `BindingMap::add_typeclass` (binding_map.rs:1085-1094).  `none`: the
`unwrap` of the base's definition panics.  Attribute conflicts (1095-1107), which only reject a
declaration, are not modelled. -/
def collect (w : ClassWorld) : List TC → List TC → Option (List TC)
  | acc, [] => some acc
  | acc, b :: bs =>
    match (w b.1).get? b with
    | none => none
    | some e => collect w (acc ++ b :: e) bs

/-- Replace the binding map of one module. -/
def setModule (w : ClassWorld) (m : Nat) (d : ClassDefs) : ClassWorld := fun k => if k = m then d else w k

/-- `BindingMap::add_typeclass` (binding_map.rs:1071-1123); `none`: an error or a panic. -/
def declare (w : ClassWorld) (m : Nat) (name : String) (bases : List TC) : Option ClassWorld :=
  match collect w [] bases with
  | none => none
  | some e =>
    match (w m).get? (m, name) with
    | some _ => none
    | none => some (setModule w m ((w m).insert (m, name) e))

/-- One iteration of the loop over the imported typeclasses in `import_module`
(binding_map.rs:1835-1871). -/
def importOne (d : ClassDefs) (p : TC × List TC) : ClassDefs :=
  d.insert p.1 ((d.get? p.1).getD [] ++ p.2)

/-- The typeclass part of `import_module` (binding_map.rs:1834-1876): module `m` imports `m'`. -/
def importModule (w : ClassWorld) (m m' : Nat) : ClassWorld :=
  setModule w m ((w m').entries.foldl importOne (w m))

/-- `BindingMap::typeclass_extends` (binding_map.rs:270-274). -/
def isExtension (d : ClassDefs) (c b : TC) : Bool :=
  match d.get? c with
  | none => false
  | some e => e.contains b

end Classes

/-- The typeclass part of `TypeStore` (type_store.rs:31-55): the vectors indexed by module and local id are
functions of the module. -/
structure ClassStore where
  names : Nat → List TC
  ids : AMap TC (Nat × Nat)
  ext : Nat → List (List (Nat × Nat))

namespace ClassStore

/-- `TypeStore::new` (type_store.rs:80-100). -/
def empty : ClassStore := ⟨fun _ => [], .empty, fun _ => []⟩

/-- `add_typeclass` (type_store.rs:1379-1400).  The local id is a `u16` in the code; here it is unbounded. -/
def addClass (s : ClassStore) (c : TC) : (Nat × Nat) × ClassStore :=
  match s.ids.get? c with
  | some i => (i, s)
  | none =>
    let i := (c.1, (s.names c.1).length)
    (i, { names := fun m => if m = c.1 then s.names m ++ [c] else s.names m
          ids := s.ids.insert c i
          ext := fun m => if m = c.1 then s.ext m ++ [[]] else s.ext m })

/-- The set of a typeclass, empty if there is none (type_store.rs:1444-1449). -/
def extOf (s : ClassStore) (i : Nat × Nat) : List (Nat × Nat) := ((s.ext i.1)[i.2]?).getD []

/-- `s.insert(..)` into the set of typeclass `i`, if there is one (type_store.rs:1438-1440, 1451-1453). -/
def addTo (s : ClassStore) (i b : Nat × Nat) : ClassStore :=
  { s with ext := fun m => if m = i.1 then (s.ext m).modify i.2 (b :: ·) else s.ext m }

/-- `add_typeclass_extends` (type_store.rs:1432-1455). -/
def addExtends (s : ClassStore) (i b : Nat × Nat) : ClassStore :=
  let s1 := s.addTo i b
  (s1.extOf b).foldl (fun s b' => s.addTo i b') s1

/-- `typeclass_extends` (type_store.rs:1504-1510). -/
def isExtension (s : ClassStore) (i b : Nat × Nat) : Bool := (s.extOf i).contains b

/-- The body of the loop over the bases of a `Fact::Extends` (lowering.rs:460-463). -/
def addBase (i : Nat × Nat) (s : ClassStore) (b : TC) : ClassStore :=
  let r := s.addClass b
  r.2.addExtends i r.1

/-- `lower_fact` for `Fact::Extends` (lowering.rs:458-463).  The bases come in the unspecified order of a
hash set; here any list. -/
def lowerExtends (s : ClassStore) (c : TC) (bases : List TC) : ClassStore :=
  let r := s.addClass c
  bases.foldl (addBase r.1) r.2

end ClassStore
end Acorn
