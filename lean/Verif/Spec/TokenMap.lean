/-
What is at a position of a source.
-/
import Verif.Model.TokenMap
namespace Acorn.Spec

open Scan Hover

variable {ι : Type}

/-- The byte `position` of line `line` belongs to the token. -/
def CoversByte (t : Token) (line position : Nat) : Prop :=
  t.lineNo = line ∧ t.start ≤ position ∧ position < t.start + t.len

/-- In a history of tracked tokens, `v` is what was said last about `t`. -/
def LastSaid (h : List (Token × ι)) (t : Token) (v : ι) : Prop :=
  ∃ before after, h = before ++ (t, v) :: after ∧ ∀ p ∈ after, p.1 ≠ t

/-- The node of the environment on this line has a block, whose environment is `c`. -/
def BlockAt (e : Env ι) (line : Nat) (c : Env ι) : Prop :=
  ∃ m first types blocks j i, e = .mk m first types blocks ∧ line = first + j ∧ types[j]? = some (.node i) ∧
    blocks[i]? = some (some c)

/-- The environments consulted for a line: the outermost one, then the one of the block on that line, and
so on inwards. -/
inductive Consulted (line : Nat) : Env ι → List (Env ι) → Prop
  | last {e : Env ι} : (∀ c, ¬ BlockAt e line c) → Consulted line e [e]
  | inner {e c : Env ι} {es : List (Env ι)} : BlockAt e line c → Consulted line c es → Consulted line e (e :: es)

/-- A position of the protocol is within a range, whose end is exclusive. -/
def Within (p : Pos) (r : Pos × Pos) : Prop :=
  p.1 = r.1.1 ∧ p.1 = r.2.1 ∧ r.1.2 ≤ p.2 ∧ p.2 < r.2.2

/-- The range of a token in the units of the protocol: UTF-16 code units of the text before it and of its own text. -/
def ProtocolRange (t : Token) (r : Pos × Pos) : Prop :=
  ∃ before text after, t.line = before ++ (text ++ after) ∧ byteLen before = t.start ∧ byteLen text = t.len ∧
    r = ((t.lineNo, utf16Len before), (t.lineNo, utf16Len before + utf16Len text))

/-- A line of ASCII characters. -/
def Ascii (s : List Char) : Prop := ∀ c ∈ s, c.val < 128

end Acorn.Spec
