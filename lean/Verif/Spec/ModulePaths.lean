import Verif.Model.ModulePaths
/-
What a module name is and where a module lives, stated without the code's loops.
-/
namespace Acorn.Spec
open Acorn.Paths

/-- An identifier that can be one part of a module name: a lowercase ASCII letter followed by ASCII
letters, digits and underscores. -/
def IsPart (s : List Char) : Prop :=
  (∃ c cs, s = c :: cs ∧ 'a' ≤ c ∧ c ≤ 'z') ∧
  ∀ c ∈ s, ('a' ≤ c ∧ c ≤ 'z') ∨ ('A' ≤ c ∧ c ≤ 'Z') ∨ ('0' ≤ c ∧ c ≤ '9') ∨ c = '_'

/-- A module name: one or more parts, `last` being the final one. -/
structure IsName (dir : List Part) (last : Part) : Prop where
  dir : ∀ p ∈ dir, IsPart p
  last : IsPart last

/-- The module's own file, `dir/last.ac`. -/
def filePath (src : Path) (dir : List Part) (last : Part) : Path :=
  src ++ dir ++ [last ++ ".ac".toList]

/-- The module's package interface, `dir/last/interface.ac`. -/
def packagePath (src : Path) (dir : List Part) (last : Part) : Path :=
  src ++ dir ++ [last, "interface.ac".toList]

/-- The certificates of a module, `dir/certs/last.jsonl`. -/
def certPath (src : Path) (dir : List Part) (last : Part) : Path :=
  src ++ dir ++ ["certs".toList, last ++ ".jsonl".toList]

end Acorn.Spec
