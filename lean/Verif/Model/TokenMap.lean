/-
Which token is at a position: /repo/src/syntax/token_map.rs, and its use for hovering
(/repo/src/elaborator/environment/mod.rs, /repo/src/project.rs).
-/
import Verif.Model.Token
namespace Acorn.Hover

open Scan

/-- `TokenKey` (token_map.rs:8-13).  Numbers are unbounded instead of `u32`. -/
structure Key where
  line : Nat
  start : Nat
  len : Nat
deriving DecidableEq, Repr

/-- The derived order of `TokenKey` (token_map.rs:8): by line, then by start, then by length. -/
def Key.lt (a b : Key) : Bool :=
  a.line < b.line || a.line == b.line && (a.start < b.start || a.start == b.start && a.len < b.len)

/-- `TokenKey::contains` (token_map.rs:24-28). -/
def Key.contains (k : Key) (line position : Nat) : Bool :=
  k.line == line && k.start ≤ position && position < k.start + k.len

/-- An LSP position: a line and a character (counted in UTF-16 code units by the protocol). -/
abbrev Pos := Nat × Nat

/-- `TokenKey::range` (token_map.rs:30-41). -/
def Key.range (k : Key) : Pos × Pos := ((k.line, k.start), (k.line, k.start + k.len))

/-- The key of a token (token_map.rs:71). -/
def keyOf (t : Token) : Key := ⟨t.lineNo, t.start, t.len⟩

variable {ι : Type}

/-- `TokenMap` (token_map.rs:59-62): a `BTreeMap`, here the list of its entries in order. -/
abbrev Map (ι : Type) := List (Key × ι)

/-- `BTreeMap::insert`: an entry with the same key is replaced. -/
def insertKey (k : Key) (v : ι) : Map ι → Map ι
  | [] => [(k, v)]
  | (k', v') :: m =>
    if k.lt k' then (k, v) :: (k', v') :: m
    else if k = k' then (k, v) :: m
    else (k', v') :: insertKey k v m

/-- `TokenMap::insert` and `track_token` (token_map.rs:70-103).  The information stored about a token is
arbitrary; the panic on duplicates exists only in unit tests. -/
def track (m : Map ι) (t : Token) (v : ι) : Map ι := insertKey (keyOf t) v m

/-- The map after a series of calls to `track_token`, from `TokenMap::new` on. -/
def trackAll (h : List (Token × ι)) : Map ι := h.foldl (fun m p => track m p.1 p.2) []

/-- `TokenMap::get` (token_map.rs:109-125).  The position is unbounded; `position + 1` overflows in the code when
it is the last `u32`. -/
def lookup (m : Map ι) (line position : Nat) : Option (Key × ι) :=
  match (m.filter fun e => e.1.lt ⟨line, position + 1, 0⟩).getLast? with
  | some e => if e.1.contains line position then some e else none
  | none => none

/-- `LineType` (environment/mod.rs:1161-1184); only `Node` matters here. -/
inductive LineType
  | node (i : Nat)
  | other
deriving DecidableEq, Repr

/-- `Environment`: its token map, first line, line types (environment/mod.rs:84-95), and for each node the
environment of its block if it has one. -/
inductive Env (ι : Type)
  | mk (map : Map ι) (firstLine : Nat) (lineTypes : List LineType) (blocks : List (Option (Env ι)))

/-- `token_map`. -/
def Env.map : Env ι → Map ι
  | .mk m _ _ _ => m

/-- `get_line_type` (environment/mod.rs:237-247). -/
def lineType (first : Nat) (types : List LineType) (line : Nat) : Option LineType :=
  if line < first then none else types[line - first]?

/-- `env_for_line_step` (environment/mod.rs:767-774).  A node index out of range panics in the code; here it
gives nothing. -/
def Env.step : Env ι → Nat → Option (Env ι)
  | .mk _ first types blocks, line =>
    match lineType first types line with
    | some (.node i) => (blocks[i]?).bind id
    | _ => none

theorem Env.step_lt {e c : Env ι} {line : Nat} (h : e.step line = some c) : sizeOf c < sizeOf e := by
  obtain ⟨m, first, types, blocks⟩ := e
  simp only [Env.step] at h
  split at h
  · rename_i i _
    cases hb : blocks[i]? with
    | none => simp [hb] at h
    | some o =>
      simp only [hb, Option.bind_some, id] at h
      subst h
      have := List.sizeOf_lt_of_mem (List.mem_of_getElem? hb)
      simp only [Option.some.sizeOf_spec, Env.mk.sizeOf_spec] at this ⊢
      omega
  · cases h

/-- `find_token` (environment/mod.rs:410-424), without the environment it returns. -/
def findToken (e : Env ι) (line position : Nat) : Option (Key × ι) :=
  match lookup e.map line position with
  | some r => some r
  | none =>
    match _h : e.step line with
    | some c => findToken c line position
    | none => none
termination_by sizeOf e
decreasing_by exact Env.step_lt _h

/-- `hover` (project.rs:3052-3071, called at server.rs:845 with the position the editor sent): the range to
highlight and the information about the token; the text that is made of the information is not modelled. -/
def hover (e : Env ι) (p : Pos) : Option ((Pos × Pos) × ι) :=
  (findToken e p.1 p.2).map fun r => (r.1.range, r.2)

/-- `char::len_utf16`. -/
def utf16Size (c : Char) : Nat := if c.val < 0x10000 then 1 else 2

/-- `encode_utf16().count()`. -/
def utf16Len (s : List Char) : Nat := (s.map utf16Size).sum

/-- `&line[..n]`; a position inside a character or beyond the end panics. -/
def upTo : Nat → List Char → Option (List Char)
  | 0, _ => some []
  | _ + 1, [] => none
  | n + 1, c :: cs => if n + 1 < c.utf8Size then none else (upTo (n + 1 - c.utf8Size) cs).map (c :: ·)
termination_by _ s => s.length

/-- `Token::range` with `start_pos` and `end_pos` (token.rs:561-586). -/
def tokenRange (t : Token) : Option (Pos × Pos) := do
  let a ← upTo t.start t.line
  let b ← upTo (t.start + t.len) t.line
  return ((t.lineNo, utf16Len a), (t.lineNo, utf16Len b))

end Acorn.Hover
