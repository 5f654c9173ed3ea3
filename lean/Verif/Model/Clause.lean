/-
Clauses and their normalization.
Models parts of /repo/src/kernel/clause.rs, and the variable renumbering of term.rs and
local_context.rs.
-/
import Verif.Model.Context
import Verif.Model.Literal
import Verif.Model.Normalize
namespace Acorn

/-- The free variables of a term in component order. -/
def Term.fvars (t : Term) : List Nat :=
  t.atoms.filterMap fun a => match a with | .fvar i => some i | _ => none

/-- `add_var` inside `normalize_var_ids_with_context` (/repo/src/kernel/term.rs:2431-2462): put a
variable, after the variables its type depends on, at the end of `ids`.  `busy` is `in_progress`;
`none` is the panic on a cycle.  The number bounds the recursion depth, which is at most the number of
variables of the context plus one because `busy` never repeats a variable. -/
def addVar (Γ : LCtx) : Nat → List Nat → List Nat → Nat → Option (List Nat)
  | 0, _, _, _ => none
  | n + 1, busy, ids, v =>
    if ids.contains v then some ids
    else if busy.contains v then none
    else
      match ((Γ.get v).elim [] Term.fvars).foldlM (addVar Γ n (v :: busy)) ids with
      | some ids' => some (ids' ++ [v])
      | none => none

/-- `Term::normalize_var_ids_with_context` (term.rs:2424-2476): renumber the variables by their
position in `ids`, adding those not yet there. -/
def Term.normVars (Γ : LCtx) : List Nat → Term → Option (Term × List Nat)
  | ids, .atom (.fvar i) => do
    let ids' ← addVar Γ (Γ.length + 1) [] ids i
    return (.fvar (ids'.idxOf i), ids')
  | ids, .atom a => some (.atom a, ids)
  | ids, .app f a => do
    let (f', ids1) ← Term.normVars Γ ids f
    let (a', ids2) ← Term.normVars Γ ids1 a
    return (.app f' a', ids2)
  | ids, .bind b A B => do
    let (A', ids1) ← Term.normVars Γ ids A
    let (B', ids2) ← Term.normVars Γ ids1 B
    return (.bind b A' B', ids2)

/-- `Literal::normalize_var_ids_with_context` (/repo/src/kernel/literal.rs:160-174). -/
def Literal.normVars (Γ : LCtx) (ids : List Nat) (l : Literal) : Option (Literal × List Nat) := do
  let (a, ids1) ← l.left.normVars Γ ids
  let (b, ids2) ← l.right.normVars Γ ids1
  return (Literal.new l.positive a b, ids2)

/-- The loop `for literal in &mut literals { literal.normalize_var_ids_with_context(..) }`
(clause.rs:178-180, 330-332). -/
def litsNormVars (Γ : LCtx) : List Nat → List Literal → Option (List Literal × List Nat)
  | ids, [] => some ([], ids)
  | ids, l :: ls => do
    let (l', ids1) ← l.normVars Γ ids
    let (ls', ids2) ← litsNormVars Γ ids1 ls
    return (l' :: ls', ids2)

/-- `Term::renumber_variables` (term.rs:2403-2419); `none` is the panic on a missing variable. -/
def Term.renumber (ids : List Nat) : Term → Option Term
  | .atom (.fvar i) => if ids.contains i then some (.fvar (ids.idxOf i)) else none
  | .atom a => some (.atom a)
  | .app f a => do
    let f' ← f.renumber ids
    let a' ← a.renumber ids
    return .app f' a'
  | .bind b A B => do
    let A' ← A.renumber ids
    let B' ← B.renumber ids
    return .bind b A' B'

/-- `LocalContext::remap` (local_context.rs:45-64). -/
def LCtx.remap (Γ : LCtx) (ids : List Nat) : Option LCtx :=
  ids.mapM fun id => do
    let T ← Γ.get id
    let T' ← T.renumber ids
    return some T'

/-- `Clause` (/repo/src/kernel/clause.rs:17-21). -/
structure Clause where
  lits : List Literal
  ctx : LCtx
  deriving DecidableEq, Repr, Inhabited

/-- `is_droppable_impossible_literal` (clause.rs:140-145). -/
def Literal.droppable (l : Literal) : Bool := l.isImpossible && !l.hasAnyVar

/-- `normalize_literals_for_clause` (clause.rs:336-351); it always returns one literal. -/
def Literal.normalize (l : Literal) : Literal :=
  let right := l.right.normClauseTerm
  if right.isTrue then
    let (left, p) := l.left.normSigned l.positive
    match left.splitSym .eq_ 3 with
    | some [_, a, b] => Literal.new p a b
    | _ => Literal.fromSigned left p
  else Literal.new l.positive l.left.normClauseTerm right

/-- `Vec::dedup`: remove consecutive repetitions. -/
def dedupAdj {α : Type} [DecidableEq α] : List α → List α
  | [] => []
  | [a] => [a]
  | a :: b :: l => if a = b then dedupAdj (b :: l) else a :: dedupAdj (b :: l)

/-- One step of insertion sort: the sorted elements are in reverse order. -/
def insertRev {α : Type} (le : α → α → Bool) (x : α) : List α → List α
  | [] => [x]
  | p :: ps => if le p x then x :: p :: ps else p :: insertRev le x ps

/-- Insertion sort. -/
def insertSort {α : Type} (le : α → α → Bool) (l : List α) : List α :=
  (l.foldl (fun acc x => insertRev le x acc) []).reverse

/-- `sort` of literals.  Where the literal order is total this is the unique sorted arrangement; the
order is not transitive in the presence of binders (see C06), where Rust may return a different
arrangement or panic if there are more than 20 literals; up to 20 it uses this algorithm.  The theorems
only use that it is a permutation. -/
def sortLits (ls : List Literal) : List Literal := insertSort Literal.le ls

/-- The first steps of both normalizations: normalize, drop impossible literals, sort, remove
duplicates (clause.rs:153-176, 302-310). -/
def litsPass (ls : List Literal) : List Literal :=
  dedupAdj (sortLits ((ls.map Literal.normalize).filter fun l => !l.droppable))

/-- `normalize_with_var_ids_prefilled` (clause.rs:147-190). -/
def normalizePrefilled (ls : List Literal) (Γ : LCtx) (ids : List Nat) :
    Option (Clause × List Nat) := do
  let (ls', ids') ← litsNormVars Γ ids (litsPass ls)
  let Γ' ← Γ.remap ids'
  return (⟨dedupAdj (sortLits ls'), Γ'⟩, ids')

/-- `normalize_var_ids_with_pinned` (clause.rs:325-334). -/
def Clause.normVarsPinned (c : Clause) (pinned : Nat) : Option (Clause × List Nat) := do
  let (ls, ids) ← litsNormVars c.ctx (List.range pinned) c.lits
  let Γ' ← c.ctx.remap ids
  return (⟨ls, Γ'⟩, ids)

/-- `normalize_with_pinned` (clause.rs:299-321). -/
def Clause.normalizePinned (c : Clause) (pinned : Nat) : Option Clause := do
  let (c1, _) ← Clause.normVarsPinned ⟨litsPass c.lits, c.ctx⟩ pinned
  let (c2, _) ← Clause.normVarsPinned ⟨litsPass c1.lits, c1.ctx⟩ pinned
  return ⟨dedupAdj (sortLits c2.lits), c2.ctx⟩

/-- `Clause::new` (clause.rs:199-206). -/
def Clause.new (ls : List Literal) (Γ : LCtx) : Option Clause := Clause.normalizePinned ⟨ls, Γ⟩ 0

/-- `Clause::is_tautology` (clause.rs:369-385): the pairs tested are a literal before the first
positive one and a literal from there on. -/
def Clause.isTautology (c : Clause) : Bool :=
  let i := c.lits.findIdx (·.positive)
  ((c.lits.take i).any fun n => (c.lits.drop i).any fun p =>
    decide (n.left = p.left) && decide (n.right = p.right)) || c.lits.any Literal.isTautology

/-- `Clause::is_impossible` (clause.rs:364-366). -/
def Clause.isImpossible (c : Clause) : Bool := c.lits.isEmpty

end Acorn
