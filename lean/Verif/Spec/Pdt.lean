/-
What the discrimination tree should achieve.
-/
import Verif.Model.Pdt
import Verif.Spec.SimplyTyped
namespace Acorn
namespace Spec

/-- The ids in a symbol are 16-bit numbers, as they are in the program. -/
def SymbolFits : Symbol → Prop
  | .type m l | .typeclass m l | .global m l => m < 65536 ∧ l < 65536
  | .scoped l => l < 65536
  | _ => True

/-- The ids in an atom are 16-bit numbers. -/
def AtomFits : Atom → Prop
  | .fvar i | .bvar i => i < 65536
  | .sym s => SymbolFits s

/-- All ids in a term are 16-bit numbers. -/
def Fits (t : Term) : Prop := ∀ a ∈ t.atoms, AtomFits a

/-- No typeclass occurs in a term. -/
def NoClass (t : Term) : Prop := ∀ m l, .sym (.typeclass m l) ∉ t.atoms

/-- Replace variable `i` by the `i`-th term of a list; the terms have no dangling bound variables, so that
binders need no care. -/
def instantiate (rs : List Term) : Term → Term
  | .atom (.fvar i) => rs.getD i (.fvar i)
  | .atom a => .atom a
  | .app f a => .app (instantiate rs f) (instantiate rs a)
  | .bind b A B => .bind b (instantiate rs A) (instantiate rs B)

/-- The variables in a sequence are numbered in the order of their first occurrence: when `n` variables have
been seen, each variable is an old one or number `n`.  The result is the number of variables. -/
def numbered : Nat → List Nat → Option Nat
  | n, [] => some n
  | n, i :: is => if i < n then numbered n is else if i = n then numbered (n + 1) is else none

/-- The free variables of some terms, from left to right, are `0, 1, …, n-1` in the order of their first
occurrence. -/
def NumberedBy (n : Nat) (ps : List Term) : Prop := numbered 0 (ps.flatMap Term.fvars) = some n

/-- A type without variables and sorts, such as a variable has when nothing is polymorphic. -/
def PlainType (T : Term) : Prop :=
  T.escapes = false ∧ ∀ a ∈ T.atoms, (∀ i, a ≠ .fvar i) ∧ a ≠ .sym .type0 ∧ ∀ m l, a ≠ .sym (.typeclass m l)

/-- The trees that a program can hold, with the pairs inserted so far, in order: the two terms, the value and
the types of the variables. -/
inductive PairTree {α : Type} : Pdt.Tree α → List (Term × Term × α × LCtx) → Prop
  | empty : PairTree .empty []
  | insert {p p' : Pdt.Tree α} {h : List (Term × Term × α × LCtx)} {s t : Term} {v : α} {P : LCtx} :
      PairTree p h → p.insertPair s t v P = some p' → PairTree p' (h ++ [(s, t, v, P)])

/-- The same for trees of clauses. -/
inductive ClauseTree {α : Type} : Pdt.Tree α → List (Clause × α) → Prop
  | empty : ClauseTree .empty []
  | insert {p p' : Pdt.Tree α} {h : List (Clause × α)} {c : Clause} {v : α} :
      ClauseTree p h → p.insertClause c v = some p' → ClauseTree p' (h ++ [(c, v)])

/-- The same for trees of terms that collect all values inserted for a term. -/
inductive TermTree {α : Type} : Pdt.Tree (List α) → List (Term × α × LCtx) → Prop
  | empty : TermTree .empty []
  | insert {p p' : Pdt.Tree (List α)} {h : List (Term × α × LCtx)} {t : Term} {v : α} {P : LCtx} :
      TermTree p h → p.insertOrAppend t v P = some p' → TermTree p' (h ++ [(t, v, P)])

/-- The same for sets of literals: the literal, its id and the types of its variables. -/
inductive LiteralTree : Pdt.Tree Pdt.Entry → List (Literal × Nat × LCtx) → Prop
  | empty : LiteralTree .empty []
  | insert {p p' : Pdt.Tree Pdt.Entry} {h : List (Literal × Nat × LCtx)} {l : Literal} {id : Nat} {P : LCtx} :
      LiteralTree p h → Pdt.insertLiteral p l id P = some p' → LiteralTree p' (h ++ [(l, id, P)])

/-- A term may replace a pattern variable of type `T`: it is a value of that type; or a type, where the
pattern has a type variable; or a value, where the type of the pattern variable is a type variable. -/
def Suits (K : KCtx) (Γ P : LCtx) (r T : Term) : Prop :=
  (SHasType K Γ r T ∧ isKind T = false) ∨
  (T = .type0 ∧ SHasType K Γ r .type0 ∧ Pdt.typeHead r = true) ∨
  (∃ j S, T = .fvar j ∧ P.get j = some .type0 ∧ SHasType K Γ r S ∧ isKind S = false)

end Spec
end Acorn
