/-
The lexical grammar.
-/
import Verif.Model.Token
namespace Acorn.Spec

open Scan

/-- Single characters that are tokens. -/
def punctuation : List (Char × Tk) :=
  [('(', .leftParen), (')', .rightParen), ('{', .leftBrace), ('}', .rightBrace), ('[', .leftBracket),
    (']', .rightBracket), ('\n', .newLine), (',', .comma), (':', .colon), ('.', .dot), ('=', .equals), ('+', .plus),
    ('*', .asterisk), ('%', .percent), ('∪', .union), ('∩', .intersection), ('∖', .backslash),
    ('∈', .elemOf), ('∉', .notElemOf), ('∋', .contains), ('∌', .notContains), ('⊆', .subsetEq),
    ('⊇', .supersetEq), ('⊂', .subset), ('⊃', .superset), ('?', .questionMark), ('-', .minus),
    ('<', .lessThan), ('>', .greaterThan), ('/', .slash)]

/-- Two characters that are one token. -/
def pairs : List (List Char × Tk) :=
  [(['!', '='], .notEquals), (['-', '>'], .rightArrow), (['<', '='], .lessThanOrEquals),
    (['>', '='], .greaterThanOrEquals)]

/-- A blank is a space or a tab. -/
def Blank (c : Char) : Prop := c = ' ' ∨ c = '\t'

/-- Letters, digits and underscores; `alnum` is the Unicode property. -/
def WordChar (alnum : Char → Bool) (c : Char) : Prop := alnum c = true ∨ c = '_'

/-- ASCII digits. -/
def Digit (c : Char) : Prop := c ∈ ['0', '1', '2', '3', '4', '5', '6', '7', '8', '9']

/-- `Lexeme alnum first text ty`: the text is a token of this type; `first` says that only blanks precede it
on its line. -/
inductive Lexeme (alnum : Char → Bool) (first : Bool) : List Char → Tk → Prop
  | punctuation {c : Char} {ty : Tk} : (c, ty) ∈ Spec.punctuation → Lexeme alnum first [c] ty
  | pair {s : List Char} {ty : Tk} : (s, ty) ∈ Spec.pairs → Lexeme alnum first s ty
  | docComment {s : List Char} : first = true → Lexeme alnum first ('/' :: '/' :: '/' :: s) .docComment
  | comment {s : List Char} : (first = true → s.head? ≠ some '/') → Lexeme alnum first ('/' :: '/' :: s) .newLine
  | numeral {s : List Char} : s ≠ [] → (∀ c ∈ s, Digit c) → Lexeme alnum first s .numeral
  | keyword {c : Char} {s : List Char} : ¬ Digit c → (∀ x ∈ c :: s, WordChar alnum x) →
    (∀ ty, (c, ty) ∉ Spec.punctuation) → String.ofList (c :: s) ∈ keywords →
    Lexeme alnum first (c :: s) (.keyword (String.ofList (c :: s)))
  | identifier {c : Char} {s : List Char} : ¬ Digit c → (∀ x ∈ c :: s, WordChar alnum x) →
    (∀ ty, (c, ty) ∉ Spec.punctuation) → c ≠ '!' → String.ofList (c :: s) ∉ keywords →
    Lexeme alnum first (c :: s) .identifier
  | bang : Lexeme alnum first ['!'] .invalid
  | invalid {c : Char} : ¬ Digit c → ¬ WordChar alnum c → ¬ Blank c → (∀ ty, (c, ty) ∉ Spec.punctuation) →
    Lexeme alnum first [c] .invalid

/-- `Tiles alnum first pos s toks`: the text `s`, which starts at byte `pos` of its line, consists of blanks and
the texts of the tokens, in this order; the positions and lengths of the tokens are those of their texts,
and no token could be longer. -/
inductive Tiles (alnum : Char → Bool) : Bool → Nat → List Char → List Tok → Prop
  | done {first : Bool} {pos : Nat} {ws : List Char} : (∀ c ∈ ws, Blank c) → Tiles alnum first pos ws []
  | token {first : Bool} {pos : Nat} {ws text rest : List Char} {ty : Tk} {toks : List Tok} : (∀ c ∈ ws, Blank c) →
    Lexeme alnum first text ty → (∀ c s ty', rest = c :: s → ¬ Lexeme alnum first (text ++ [c]) ty') →
    Tiles alnum false (pos + byteLen ws + byteLen text) rest toks →
    Tiles alnum first pos (ws ++ (text ++ rest)) (⟨ty, pos + byteLen ws, byteLen text⟩ :: toks)

/-- The lines of a text: each line but perhaps the last is ended by a line feed, or by a carriage return and
a line feed, and contains no line feed. -/
inductive LinesOf : List Char → List (List Char) → Prop
  | nil : LinesOf [] []
  | last {l : List Char} : l ≠ [] → '\n' ∉ l → LinesOf l [l]
  | lf {l s : List Char} {ls : List (List Char)} : '\n' ∉ l → l.getLast? ≠ some '\r' → LinesOf s ls →
    LinesOf (l ++ '\n' :: s) (l :: ls)
  | crlf {l s : List Char} {ls : List (List Char)} : '\n' ∉ l → LinesOf s ls →
    LinesOf (l ++ '\r' :: '\n' :: s) (l :: ls)

/-- The part of a line that a token refers to: the text between two byte positions. -/
def TextAt (line : List Char) (start len : Nat) (text : List Char) : Prop :=
  ∃ before after, line = before ++ (text ++ after) ∧ byteLen before = start ∧ byteLen text = len

/-- A token of a line. -/
def onLine (l : List Char) (k : Nat) (t : Tok) : Token := ⟨t.ty, l, k, t.start, t.len⟩

/-- The tokens of lines numbered from `k` on: each line is tiled by its tokens and followed by an empty newline
token. -/
inductive Scanned (alnum : Char → Bool) : Nat → List (List Char) → List Token → Prop
  | nil {k : Nat} : Scanned alnum k [] []
  | line {k : Nat} {l : List Char} {ls : List (List Char)} {toks : List Tok} {rest : List Token} :
    Tiles alnum true 0 l toks → Scanned alnum (k + 1) ls rest →
    Scanned alnum k (l :: ls) ((toks ++ [(⟨.newLine, byteLen l, 0⟩ : Tok)]).map (onLine l k) ++ rest)

end Acorn.Spec
