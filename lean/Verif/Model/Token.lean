/-
The tokenizer.  Models /repo/src/syntax/token.rs.
-/
import Verif.Model.Text
namespace Acorn.Scan

/-- `TokenType` (token.rs:12-86), restricted to what `scan` produces.  The types of the keywords are
`keyword w`, for the word `w`. -/
inductive Tk
  | identifier | invalid | leftParen | rightParen | leftBrace | rightBrace | leftBracket | rightBracket
  | newLine | comma | colon | dot | notEquals | equals | plus | asterisk | percent | union | intersection
  | backslash | elemOf | notElemOf | contains | notContains | subsetEq | supersetEq | subset | superset
  | questionMark | rightArrow | minus | lessThanOrEquals | lessThan | greaterThanOrEquals | greaterThan
  | docComment | slash | numeral
  | keyword (w : String)
deriving DecidableEq, Repr

/-- The words of `keyword_map` (token.rs:92-131). -/
def keywords : List String :=
  ["let", "axiom", "define", "theorem", "type", "forall", "exists", "if", "by", "function", "structure",
    "import", "true", "false", "else", "class", "attributes", "numerals", "from", "solve", "satisfy", "and",
    "or", "not", "self", "inductive", "match", "choose", "constraint", "implies", "local", "lemma",
    "typeclass", "instance", "extends", "iff", "lib", "transport"]

/-- `Token` (token.rs:490-505), without the line: positions and lengths count bytes of UTF-8. -/
structure Tok where
  ty : Tk
  start : Nat
  len : Nat
deriving DecidableEq, Repr

/-- `Token` (token.rs:490-505). -/
structure Token where
  ty : Tk
  line : List Char
  lineNo : Nat
  start : Nat
  len : Nat
deriving DecidableEq, Repr

/-- Length in bytes. -/
def byteLen (s : List Char) : Nat := (s.map Char.utf8Size).sum

/-- `char::is_ascii_digit`. -/
def isDigit (c : Char) : Bool := '0' ≤ c && c ≤ '9'

/-- `Token::identifierish` (token.rs:600-602).  `char::is_alphanumeric` depends on the Unicode tables; it
is the parameter `alnum`. -/
def identifierish (alnum : Char → Bool) (c : Char) : Bool := alnum c || c == '_'

/-- How many characters satisfy the test (the loops token.rs:805-812, 816-824). -/
def runLength (p : Char → Bool) : List Char → Nat
  | [] => 0
  | c :: cs => if p c then runLength p cs + 1 else 0

/-- `char_indices.next_if_eq(&(char_index + 1, c))`: is the next character `c`? -/
def follows (c : Char) (cs : List Char) : Bool := cs.head? == some c

/-- Two-character tokens: if the next character is `c` the token has type `t`, otherwise `u`. -/
def pair (c : Char) (cs : List Char) (t u : Tk) : Tk × Nat := if follows c cs then (t, 1) else (u, 0)

/-- The `'/'` case (token.rs:784-801): a comment extends to the end of the line. -/
def comment (first : Bool) (cs : List Char) : Tk × Nat :=
  if follows '/' cs then
    (if follows '/' (cs.drop 1) && first then .docComment else .newLine, cs.length)
  else (.slash, 0)

/-- A digit, a letter or an underscore, or something else (token.rs:803-833). -/
def wordOrOther (alnum : Char → Bool) (c : Char) (cs : List Char) : Tk × Nat :=
  if isDigit c then (.numeral, runLength isDigit cs)
  else if identifierish alnum c then
    let n := runLength (identifierish alnum) cs
    let w := String.ofList (c :: cs.take n)
    (if keywords.contains w then .keyword w else .identifier, n)
  else (.invalid, 0)

/-- The `match` of `scan_with_start_line` (token.rs:743-835), for a character that is neither a space nor a
tab: the type, and how many characters the token has beyond the first.  `first` is
`line_all_whitespace_so_far`. -/
def classify (alnum : Char → Bool) (first : Bool) (c : Char) (cs : List Char) : Tk × Nat :=
  match c with
  | '(' => (.leftParen, 0)
  | ')' => (.rightParen, 0)
  | '{' => (.leftBrace, 0)
  | '}' => (.rightBrace, 0)
  | '[' => (.leftBracket, 0)
  | ']' => (.rightBracket, 0)
  | '\n' => (.newLine, 0)
  | ',' => (.comma, 0)
  | ':' => (.colon, 0)
  | '.' => (.dot, 0)
  | '!' => pair '=' cs .notEquals .invalid
  | '=' => (.equals, 0)
  | '+' => (.plus, 0)
  | '*' => (.asterisk, 0)
  | '%' => (.percent, 0)
  | '∪' => (.union, 0)
  | '∩' => (.intersection, 0)
  | '∖' => (.backslash, 0)
  | '∈' => (.elemOf, 0)
  | '∉' => (.notElemOf, 0)
  | '∋' => (.contains, 0)
  | '∌' => (.notContains, 0)
  | '⊆' => (.subsetEq, 0)
  | '⊇' => (.supersetEq, 0)
  | '⊂' => (.subset, 0)
  | '⊃' => (.superset, 0)
  | '?' => (.questionMark, 0)
  | '-' => pair '>' cs .rightArrow .minus
  | '<' => pair '=' cs .lessThanOrEquals .lessThan
  | '>' => pair '=' cs .greaterThanOrEquals .greaterThan
  | '/' => comment first cs
  | c => wordOrOther alnum c cs

/-- The loop over the characters of a line (token.rs:742-851), at byte `pos`.  The fuel is the number of
characters left; it never runs out before they do. -/
def scanGo (alnum : Char → Bool) : Nat → Nat → Bool → List Char → List Tok
  | 0, _, _, _ => []
  | _ + 1, _, _, [] => []
  | n + 1, pos, first, c :: cs =>
    if c = ' ' ∨ c = '\t' then scanGo alnum n (pos + c.utf8Size) first cs
    else
      let r := classify alnum first c cs
      let len := byteLen (c :: cs.take r.2)
      ⟨r.1, pos, len⟩ :: scanGo alnum n (pos + len) false (cs.drop r.2)

/-- The tokens of one line, with the final newline (token.rs:739-858). -/
def scanLine (alnum : Char → Bool) (line : List Char) : List Tok :=
  scanGo alnum line.length 0 true line ++ [⟨.newLine, byteLen line, 0⟩]

/-- The loop over the lines (token.rs:737-859). -/
def scanLines (alnum : Char → Bool) : Nat → List (List Char) → List Token
  | _, [] => []
  | k, l :: ls => (scanLine alnum l).map (fun t => ⟨t.ty, l, k, t.start, t.len⟩) ++ scanLines alnum (k + 1) ls

/-- `Token::scan_with_start_line` (token.rs:735-862). -/
def scanFrom (alnum : Char → Bool) (input : List Char) (startLine : Nat) : List Token :=
  scanLines alnum startLine (Text.lines input)

/-- `Token::scan` (token.rs:731-733). -/
def scan (alnum : Char → Bool) (input : List Char) : List Token := scanFrom alnum input 0

end Acorn.Scan
