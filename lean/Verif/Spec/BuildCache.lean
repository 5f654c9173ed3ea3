import Verif.Model.BuildCache
/-
What merging caches and crashing during a save mean, stated without the code's loops.
-/
namespace Acorn.Spec
open Acorn.Build Paths

/-- `merged` takes the new entry where there is one, and the old entry everywhere else. -/
def Overrides {κ ν : Type} (merged new old : κ → Option ν) : Prop :=
  ∀ k, (∀ v, new k = some v → merged k = some v) ∧ (new k = none → merged k = old k)

/-- The recorded hashes of one package, whether or not it has a manifest. -/
def interfaceOf (c : Cache) (root : Path) : Option Hash := (c.manifest root).interface

@[inherit_doc interfaceOf]
def implementationOf (c : Cache) (root key : Path) : Option Hash :=
  (c.manifest root).implementation.get? key

@[inherit_doc interfaceOf]
def dependencyOf (c : Cache) (root : Path) (key : List Char) : Option Hash :=
  (c.manifest root).dependencies.get? key

/-- What can be found at a path after power fails during a program, when the directory was last
written out in state `s₁` and the files' data are those of a later state `s₂`: the data of a file
that was forced to stable storage, and anything at all for another file. -/
def MayRead (s₁ s₂ : Disk) (p : Path) (c : Option (List Char)) : Prop :=
  match s₁.names p with
  | none => c = none
  | some i => ∃ d, c = some d ∧ (s₂.stable i = true → d = s₂.data i)

/-- A disk before a program starts: files are numbered below `next`, no two paths name one file, and
everything is on stable storage. -/
structure Disk.Settled (s : Disk) : Prop where
  fresh : ∀ p i, s.names p = some i → i < s.next
  unique : ∀ p q i, s.names p = some i → s.names q = some i → p = q
  stable : ∀ p i, s.names p = some i → s.stable i = true

/-- What can be found at a path when power fails at some point of a program: the operations done are
those before `k₂`, and the directory shows those before `k₁`. -/
def AfterCrash (s : Disk) (ops : List Op) (p : Path) (c : Option (List Char)) : Prop :=
  ∃ k₁ k₂, k₁ ≤ k₂ ∧ k₂ ≤ ops.length ∧
    MayRead (s.run (ops.take k₁)) (s.run (ops.take k₂)) p c

end Acorn.Spec
