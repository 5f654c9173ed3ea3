/-
The flat component vectors in which terms are stored.
Models /repo/src/kernel/term.rs:20-60 (`TermComponent`), the constructors and `decompose`.
-/
import Verif.Model.Term
namespace Acorn

/-- Which kind of compound marker a component is. -/
inductive Mark where
  | app
  | bind (b : Binder)
  deriving DecidableEq, Repr, Inhabited

/-- `TermComponent` (/repo/src/kernel/term.rs:23-60); the right offset is 16 bits wide, as in Rust. -/
inductive Comp where
  | mark (k : Mark) (rightOffset : UInt16)
  | atom (a : Atom)
  deriving DecidableEq, Repr, Inhabited

/-- The result of `decompose` (term.rs:65-88); the pieces are sub-slices. -/
inductive Decomp where
  | atom (a : Atom)
  | node (k : Mark) (left right : List Comp)
  deriving DecidableEq, Repr, Inhabited

namespace Flat

/-- `Term::atom` (term.rs:1757-1761). -/
def mkAtom (a : Atom) : List Comp := [.atom a]

/-- The common shape of `Term::pi`, `lambda`, `forall`, `exists` (term.rs:1766-1820):
the offset is `(1 + left.len()) as u16`, a truncating cast. -/
def mkNode (k : Mark) (left right : List Comp) : List Comp :=
  .mark k (UInt16.ofNat (1 + left.length)) :: (left ++ right)

/-- One round of `Term::apply` (term.rs:2516-2533): same layout, but `from_components`
(term.rs:1627-1700) panics (`none`) unless `2 ≤ right_offset < len`. -/
def mkApply (f a : List Comp) : Option (List Comp) :=
  let cs := mkNode .app f a
  let off := (UInt16.ofNat (1 + f.length)).toNat
  if off < 2 ∨ cs.length ≤ off then none else some cs

/-- `TermRef::decompose` (term.rs:337-399).  `none` models the panics: an atomic slice that is not
an atom, a longer slice that starts with an atom, an empty slice, and the slice-index panics of
`components[1..off]` and `components[off..]`. -/
def decompose : List Comp → Option Decomp
  | [] => none
  | [.atom a] => some (.atom a)
  | [.mark _ _] => none
  | .mark k off :: rest =>
    if 1 ≤ off.toNat ∧ off.toNat ≤ (Comp.mark k off :: rest).length then
      some (.node k (((Comp.mark k off :: rest).take off.toNat).drop 1)
        ((Comp.mark k off :: rest).drop off.toNat))
    else none
  | .atom _ :: _ => none

/-- The stored form of a term tree: what the constructors produce bottom-up. -/
def encode : Term → List Comp
  | .atom a => mkAtom a
  | .app f a => mkNode .app (encode f) (encode a)
  | .bind b ty body => mkNode (.bind b) (encode ty) (encode body)

/-- `check_subterm` inside `validate_structure_impl` (term.rs:1952-1978): the position just after
the sub-term starting at `start`.  The Rust code recurses on `right_start` only after having checked
that it equals the end of the left child, hence is larger than `start`; the extra test
`start < rightStart` makes that explicit for termination. -/
def checkSub (cs : List Comp) (start : Nat) : Option Nat :=
  if h : start < cs.length then
    match cs[start] with
    | .atom _ => some (start + 1)
    | .mark _ off =>
      let rightStart := start + off.toNat
      if rightStart ≥ cs.length then none
      else
        match checkSub cs (start + 1) with
        | none => none
        | some leftEnd =>
          if leftEnd ≠ rightStart then none
          else if start < rightStart then checkSub cs rightStart else none
  else none
termination_by cs.length - start

/-- `validate_structure_impl` (term.rs:1950-2002). -/
def validate (cs : List Comp) : Bool :=
  let headOk : Bool :=
    if cs.length > 1 then
      match cs with
      | .mark _ off :: _ => decide (¬ (off.toNat < 2 ∨ off.toNat ≥ cs.length))
      | _ => false
    else true
  headOk && (match checkSub cs 0 with
    | some e => e == cs.length
    | none => false)

/-- `find_subterm_end_at` (term.rs:1552-1565): follow the right offsets.  Out-of-bounds indexing
panics (`none`); a zero offset would loop forever in Rust, here it runs out of `fuel`. -/
def findEnd : Nat → List Comp → Nat → Option Nat
  | 0, _, _ => none
  | fuel + 1, cs, start =>
    match cs[start]? with
    | none => none
    | some (.atom _) => some (start + 1)
    | some (.mark _ off) => findEnd fuel cs (start + off.toNat)

/-- Read a vector back as a tree by repeated `decompose`; `fuel` bounds the depth. -/
def readTree : Nat → List Comp → Option Term
  | 0, _ => none
  | fuel + 1, cs =>
    match decompose cs with
    | some (.atom a) => some (.atom a)
    | some (.node k l r) => do
      let l' ← readTree fuel l
      let r' ← readTree fuel r
      return match k with
        | .app => .app l' r'
        | .bind b => .bind b l' r'
    | none => none

end Flat
end Acorn
