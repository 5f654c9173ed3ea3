/-
Model of server/live_document.rs.
-/
namespace Acorn

/-- Adds a character to the first of the lines. -/
def consLine (c : Char) : List (List Char) → List (List Char)
  | [] => [[c]]
  | l :: ls => (c :: l) :: ls

/-- `split_lines` (live_document.rs:10-13): splits at each match of `\r\n|\n`. -/
def splitLines : List Char → List (List Char)
  | [] => [[]]
  | '\r' :: '\n' :: cs => [] :: splitLines cs
  | '\n' :: cs => [] :: splitLines cs
  | c :: cs => consLine c (splitLines cs)

/-- `LiveLine` (live_document.rs:30-38). -/
structure LiveLine where
  text : List Char
  savedIndex : Option Nat
  deriving DecidableEq, Repr

/-- `LiveDocument` (live_document.rs:18-26). -/
structure LiveDocument where
  lines : List LiveLine
  liveVersion : Int
  savedVersion : Int
  deriving DecidableEq, Repr

/-- `numbered_lines` (live_document.rs:41-49).  Simplification: the cast of an index to `u32` is exact. -/
def numberedLines (text : List Char) : List LiveLine := (splitLines text).zipIdx.map fun e => ⟨e.1, some e.2⟩

/-- `nonnumbered_lines` (live_document.rs:52-59). -/
def nonnumberedLines (text : List Char) : List LiveLine := (splitLines text).map fun l => ⟨l, none⟩

/-- `lsp_types::Position`. -/
structure Position where
  line : Nat
  character : Nat
  deriving DecidableEq, Repr

/-- `lsp_types::Range`. -/
structure DocRange where
  start : Position
  stop : Position
  deriving DecidableEq, Repr

namespace LiveDocument

/-- `LiveDocument::new` (live_document.rs:63-69). -/
def new (text : List Char) (version : Int) : LiveDocument := ⟨numberedLines text, version, version⟩

/-- The kept part of the start line (live_document.rs:110-115). -/
def keptPrefix (d : LiveDocument) (p : Position) : List Char :=
  match d.lines[p.line]? with
  | some line => line.text.take p.character
  | none => []

/-- The kept part of the end line (live_document.rs:116-121). -/
def keptSuffix (d : LiveDocument) (p : Position) : List Char :=
  match d.lines[p.line]? with
  | some line => line.text.drop p.character
  | none => []

/-- `LiveDocument::change` (live_document.rs:75-133); the last component tells success. -/
def change (d : LiveDocument) (range : Option DocRange) (text : List Char) (newLiveVersion : Int) :
    LiveDocument × Bool :=
  let d := { d with liveVersion := newLiveVersion }
  match range with
  | none => ({ d with lines := nonnumberedLines text }, true)
  | some range =>
    if range.stop.line < range.start.line then (d, false)
    else if range.stop.line ≥ d.lines.length then (d, false)
    else
      let combined := d.keptPrefix range.start ++ text ++ d.keptSuffix range.stop
      let keepRight := d.lines.drop (range.stop.line + 1)
      let keepLeft := (d.lines.take (range.stop.line + 1)).take range.start.line
      ({ d with lines := keepLeft ++ nonnumberedLines combined ++ keepRight }, true)

/-- `LiveDocument::save` (live_document.rs:137-141). -/
def save (d : LiveDocument) (text : List Char) : LiveDocument × Int :=
  ({ d with lines := numberedLines text, savedVersion := d.liveVersion }, d.liveVersion)

/-- `LiveDocument::get_prefix` (live_document.rs:162-168). -/
def getPrefix (d : LiveDocument) (line character : Nat) : List Char :=
  match d.lines[line]? with
  | some l => l.text.take character
  | none => []

/-- The loop of `get_env_line` over the lines in reverse. -/
def envLine : List LiveLine → Nat
  | [] => 0
  | l :: ls => match l.savedIndex with
    | some i => i
    | none => envLine ls

/-- `LiveDocument::get_env_line` (live_document.rs:173-181).  `Vector::take` of crate `im` splits the vector
and so panics beyond its length; `none` is this panic. -/
def getEnvLine (d : LiveDocument) (currentLine : Nat) : Option Nat :=
  if currentLine + 1 ≤ d.lines.length then some (envLine (d.lines.take (currentLine + 1)).reverse) else none

end LiveDocument
end Acorn
