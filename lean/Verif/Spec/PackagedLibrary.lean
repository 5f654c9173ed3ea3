import Verif.Model.PackagedLibrary

/-
What a user expects of the unpacked library: all its files, with their contents, and nothing else.
-/

namespace Acorn.Packaged

namespace Spec

/-- The directory `t` holds the packaged library: the same files as the archive, with the same contents, and
the metadata that says so. -/
def Whole (A : Archive) (t : Node) : Prop :=
  (∀ p, p ≠ metaPath → fileAt p t = fileAt p A.tree) ∧ fileAt metaPath t = some (A.render 1 A.hash)

/-- Reading what was written gives what was written. -/
def Reads (A : Archive) : Prop := A.parse (A.render 1 A.hash) = some (1, A.hash)

/-- Nothing in the history fails to be looked at. -/
def Readable (es : List (Nat × Choice)) : Prop := ∀ e ∈ es, e.2 ≠ .unread

/-- One process after another, each with its own operations; any of them may have been killed. -/
def InTurn (es : List (Nat × List Choice)) : List (Nat × Choice) :=
  es.flatMap fun b => b.2.map fun c => (b.1, c)

end Spec

end Acorn.Packaged
