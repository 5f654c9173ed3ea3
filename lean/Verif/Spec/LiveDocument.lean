import Verif.Model.LiveDocument
/-
What the editor sees: one text with positions in it.
-/
namespace Acorn.Spec

/-- The text with these lines. -/
def joinLines : List (List Char) → List Char
  | [] => []
  | [l] => l
  | l :: ls => l ++ '\n' :: joinLines ls

/-- The text of a document. -/
def docText (d : LiveDocument) : List Char := joinLines (d.lines.map LiveLine.text)

/-- The offset in the text of a position: a character beyond the end of its line counts as the end of the
line. -/
def offset : List (List Char) → Position → Nat
  | [], _ => 0
  | l :: _, ⟨0, ch⟩ => min ch l.length
  | l :: ls, ⟨n + 1, ch⟩ => l.length + 1 + offset ls ⟨n, ch⟩

/-- The offset of a position in a document. -/
def docOffset (d : LiveDocument) (p : Position) : Nat := offset (d.lines.map LiveLine.text) p

/-- Windows line endings replaced by plain ones. -/
def plainEndings : List Char → List Char
  | [] => []
  | '\r' :: '\n' :: cs => '\n' :: plainEndings cs
  | c :: cs => c :: plainEndings cs

/-- An operation on a document. -/
inductive DocOp where
  | change (range : Option DocRange) (text : List Char) (version : Int)
  | save (text : List Char)

/-- The document after an operation. -/
def DocOp.apply (d : LiveDocument) : DocOp → LiveDocument
  | .change range text version => (d.change range text version).1
  | .save text => (d.save text).1

/-- The document after a history of operations. -/
def docAfter (text : List Char) (version : Int) (ops : List DocOp) : LiveDocument :=
  ops.foldl DocOp.apply (LiveDocument.new text version)

/-- The text last opened or saved. -/
def savedText (text : List Char) : List DocOp → List Char
  | [] => text
  | .save t :: ops => savedText t ops
  | .change .. :: ops => savedText text ops

end Acorn.Spec
