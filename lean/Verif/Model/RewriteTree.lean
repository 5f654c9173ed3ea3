/-
The index of rewrite rules.  Models /repo/src/prover/rewrite_tree.rs and the substitution functions of
/repo/src/kernel/pdt.rs that it uses.
-/
import Verif.Model.Pdt
namespace Acorn
namespace Rewrites

/-- `RewriteValue` (rewrite_tree.rs:16-31). -/
structure Value where
  id : Nat
  forwards : Bool
  output : Term
  ctx : LCtx
  deriving DecidableEq

/-- `Rewrite` (rewrite_tree.rs:33-48). -/
structure Rewrite where
  id : Nat
  forwards : Bool
  term : Term
  ctx : LCtx
  deriving DecidableEq

/-- `RewriteTree` (rewrite_tree.rs:436-439). -/
abbrev Tree := Pdt.Tree (List Value)

/-- `insert_terms` (rewrite_tree.rs:448-466); `none` is a panic. -/
def insertTerms (p : Tree) (id : Nat) (input output : Term) (forwards : Bool) (Γ : LCtx) : Option Tree :=
  if input.isTrue then none else p.insertOrAppend input ⟨id, forwards, output, Γ⟩ Γ

/-- `collect_structural_var_ids` (/repo/src/kernel/term.rs:2487-2496), also the inner loop over the atoms of a
type (rewrite_tree.rs:501-507). -/
def collectIds (ids : List Nat) (t : Term) : List Nat :=
  t.fvars.foldl (fun ids i => if ids.contains i then ids else ids ++ [i]) ids

/-- The loop that adds the variables in the types of the variables (rewrite_tree.rs:495-511), from position `i`
on.  The number bounds the number of rounds: the list has no repetitions, so it cannot become longer than
`closeFuel`. -/
def closeIds (Γ : LCtx) : Nat → Nat → List Nat → List Nat
  | 0, _, ids => ids
  | n + 1, i, ids =>
    match ids[i]? with
    | none => ids
    | some v => closeIds Γ n (i + 1) ((Γ.get v).elim ids (collectIds ids))

/-- Enough rounds for `closeIds`: the variables at the beginning and all those in the types. -/
def closeFuel (Γ : LCtx) (ids : List Nat) : Nat :=
  ids.length + (Γ.map fun o => o.elim 0 fun T => T.fvars.length).sum + 1

/-- `apply_var_renumbering` with no type variables (/repo/src/kernel/term.rs:2500-2512): variables that are not
in the list stay. -/
def renumberKeep (ids : List Nat) : Term → Term
  | .atom (.fvar i) => if ids.contains i then .fvar (ids.idxOf i) else .fvar i
  | .atom a => .atom a
  | .app f a => .app (renumberKeep ids f) (renumberKeep ids a)
  | .bind b A B => .bind b (renumberKeep ids A) (renumberKeep ids B)

/-- The rule from right to left, as it is stored (rewrite_tree.rs:485-520): right side, left side and context;
`none` is a panic. -/
def reversed (l : Literal) (Γ : LCtx) : Option (Term × Term × LCtx) := do
  let (r, a, Γ', _) ← Pdt.normalizedReversed l Γ
  let ids0 := collectIds (collectIds [] r) a
  let ids := closeIds Γ' (closeFuel Γ' ids0) 0 ids0
  let Γ'' ← Γ'.remap ids
  return (renumberKeep ids r, renumberKeep ids a, Γ'')

/-- `insert_literal` (rewrite_tree.rs:468-523). -/
def insertLiteral (p : Tree) (id : Nat) (l : Literal) (Γ : LCtx) : Option Tree := do
  let p1 ← insertTerms p id l.left l.right true Γ
  if l.right.isTrue then some p1
  else
    let (r, a, Γ') ← reversed l Γ
    insertTerms p1 id r a false Γ'

/-- The values of pattern variables. -/
abbrev Bindings := AMap Nat Term

/-- `extract_type_bindings` (rewrite_tree.rs:73-196); `none` is the answer `false`. -/
def extractTypes : Term → Term → Bindings → Option Bindings
  | .atom (.fvar i), c, m =>
    match m.get? i with
    | some x => if x = c then some m else none
    | none => some (m.insert i c)
  | .bind b A B, .bind b' A' B', m =>
    if b = b' then
      match extractTypes A A' m with
      | some m1 => extractTypes B B' m1
      | none => none
    else none
  | .app f a, .app f' a', m =>
    match extractTypes f f' m with
    | some m1 => extractTypes a a' m1
    | none => none
  | .atom a, .atom a', m =>
    if a = a' then some m
    else
      match a, a' with
      | .sym (.typeclass _ _), .sym .type0 => some m
      | _, _ => none
  | _, _, _ => none

/-- `TypeConstraintKind` (rewrite_tree.rs:49-54). -/
inductive Kind where
  | type0 | typeclass (c : Id2) | other
  deriving DecidableEq

/-- `resolve_type_constraint_kind` (rewrite_tree.rs:56-71).  As for `Term.resolveConstraint`, the number is the
length of the context plus one. -/
def kindOf (Γ : LCtx) : Nat → Term → Kind
  | 0, _ => .other
  | n + 1, t =>
    match t with
    | .sym .type0 => .type0
    | .sym (.typeclass m l) => .typeclass (m, l)
    | .fvar i =>
      match Γ.get i with
      | some T => kindOf Γ n T
      | none => .other
    | _ => .other

/-- `is_proper_type_expr` (rewrite_tree.rs:272-321).  The number bounds the depth; the size of the term
suffices.  The arity is the number of recorded kinds (type_store.rs:478-494; it is cut to 8 bits there, here
not). -/
def isProperType (K : KCtx) (Γ : LCtx) : Nat → Term → Bool
  | 0, _ => false
  | n + 1, t =>
    match t with
    | .sym .bool => true
    | .sym (.type m l) => (K.paramKinds (m, l)).length == 0
    | .fvar i =>
      match Γ.get i with
      | some T =>
        match kindOf Γ (Γ.length + 1) T with
        | .other => false
        | _ => true
      | none => false
    | .app f a =>
      match (Term.app f a).spineHead.asTypeAtom with
      | none => false
      | some g =>
        (K.paramKinds g).length == (Term.app f a).args.length &&
          ((Term.app f a).args.zip (K.paramKinds g)).all fun x =>
            if x.2.isTypeParamKind then isProperType K Γ n x.1 else !x.1.isType0
    | .pi A _ => !A.isTypeParamKind
    | _ => false

/-- `term_satisfies_typeclass_constraint` (rewrite_tree.rs:323-346), with `type_term_satisfies_typeclass_constraint`
(rewrite_tree.rs:245-270), which is the same function as in pdt.rs; `none` is a panic. -/
def termFits (K : KCtx) (Γ : LCtx) (c : Id2) (t : Term) : Option Bool := do
  let T ← t.getType K Γ
  return if T.isType0 || T.asTypeclass.isSome then Pdt.classFits K Γ c t else Pdt.classFits K Γ c T

/-- The first loop of `build_bindings` (rewrite_tree.rs:357-364), from variable `i` on; `none` is the answer
`None`. -/
def bindReplacements : Nat → List Term → Bindings → Option Bindings
  | _, [], m => some m
  | i, t :: ts, m => if t.escapes then none else bindReplacements (i + 1) ts (m.insert i t)

/-- The second loop of `build_bindings` (rewrite_tree.rs:366-394), from variable `i` on.  The outer `none` is a
panic, the inner the answer `None`. -/
def inferTypes (K : KCtx) (P Γ : LCtx) : Nat → List Term → Bindings → Option (Option Bindings)
  | _, [], m => some (some m)
  | i, t :: ts, m =>
    match P.get i with
    | none => inferTypes K P Γ (i + 1) ts m
    | some T =>
      match (match Term.resolveConstraint P (P.length + 1) T with
        | some c => termFits K Γ c t
        | none => some true) with
      | none => none
      | some false => some none
      | some true =>
        match t.getType K Γ with
        | none => none
        | some S =>
          match extractTypes T S m with
          | none => some none
          | some m' => inferTypes K P Γ (i + 1) ts m'

/-- The check of one inferred binding in the last loop of `build_bindings` (rewrite_tree.rs:399-431). -/
def inferredOk (K : KCtx) (P Γ : LCtx) (n i : Nat) (t : Term) : Bool :=
  if i < n then true
  else
    match P.get i with
    | none => true
    | some T =>
      if kindOf P (P.length + 1) T = .type0 && !isProperType K Γ t.size t then false
      else
        match Term.resolveConstraint P (P.length + 1) T with
        | none => true
        | some c =>
          match t with
          | .atom (.fvar _) => true
          | _ => K.isInst Γ t c

/-- `build_bindings` (rewrite_tree.rs:348-434); the order in which the last loop goes through the hash map does
not matter. -/
def buildBindings (K : KCtx) (rs : List Term) (P Γ : LCtx) : Option (Option Bindings) :=
  match bindReplacements 0 rs .empty with
  | none => some none
  | some m =>
    match inferTypes K P Γ 0 rs m with
    | none => none
    | some none => some none
    | some (some m') => some (if m'.entries.all fun e => inferredOk K P Γ rs.length e.1 e.2 then some m' else none)

/-- The variables of the output that have no value (/repo/src/kernel/pdt.rs:1378-1386). -/
def unbound (m : Bindings) (t : Term) : List Nat :=
  t.fvars.foldl (fun vs i => if !m.contains i && !vs.contains i then vs ++ [i] else vs) []

/-- They in the order of their new numbers: type variables first (pdt.rs:1392-1433). -/
def ordered (P : LCtx) (vs : List Nat) : List Nat :=
  (vs.filter fun v => (P.get v).any Term.isType0) ++ vs.filter fun v => !(P.get v).any Term.isType0

/-- `substitute_term` (pdt.rs:1300-1355); the remap sends the `k`-th of the listed variables to `next + k`.
`none` is the panic on a variable without a value. -/
def substitute (m : Bindings) (vs : List Nat) (next : Nat) : Term → Option Term
  | .atom (.fvar i) =>
    match m.get? i with
    | some t => some t
    | none => if vs.contains i then some (.fvar (next + vs.idxOf i)) else none
  | .atom a => some (.atom a)
  | .app f a => do
    let f' ← substitute m vs next f
    let a' ← substitute m vs next a
    return .app f' a'
  | .bind b A B => do
    let A' ← substitute m vs next A
    let B' ← substitute m vs next B
    return .bind b A' B'

/-- `LocalContext::set_type` (/repo/src/kernel/local_context.rs:101-106). -/
def setType (Γ : LCtx) (i : Nat) (T : Term) : LCtx :=
  (Γ ++ List.replicate (i + 1 - Γ.length) none).set i (some T)

/-- The context of the new term (pdt.rs:1435-1451), for the variables from position `k` on. -/
def newCtx (P : LCtx) (m : Bindings) (vs : List Nat) (next : Nat) : Nat → List Nat → LCtx → Option LCtx
  | _, [], Γ => some Γ
  | k, v :: rest, Γ =>
    match P.get v with
    | none => newCtx P m vs next (k + 1) rest Γ
    | some T =>
      match substitute m vs next T with
      | none => none
      | some T' => newCtx P m vs next (k + 1) rest (setType Γ (next + k) T')

/-- What the callback of `find_rewrites` does with one value (rewrite_tree.rs:547-574); the outer `none` is a
panic, the inner a skipped rule. -/
def applyValue (K : KCtx) (Γ : LCtx) (next : Nat) (rs : List Term) (v : Value) : Option (Option Rewrite) :=
  match buildBindings K rs v.ctx Γ with
  | none => none
  | some none => some none
  | some (some m) =>
    let vs := ordered v.ctx (unbound m v.output)
    match newCtx v.ctx m vs next 0 vs Γ with
    | none => none
    | some Γ' =>
      match substitute m vs next v.output with
      | none => none
      | some t => some (some ⟨v.id, v.forwards, t, Γ'⟩)

/-- The loop over the values of a match (rewrite_tree.rs:546-575). -/
def applyValues (K : KCtx) (Γ : LCtx) (next : Nat) (rs : List Term) : List Value → Option (List Rewrite)
  | [] => some []
  | v :: vs =>
    match applyValue K Γ next rs v with
    | none => none
    | some o => (applyValues K Γ next rs vs).map (o.toList ++ ·)

/-- The callback of `find_rewrites` (rewrite_tree.rs:546-576): the rewrites found so far, `none` after a panic.
(The program stops at the panic; here the search goes on, but the result stays `none`.) -/
def collect (K : KCtx) (p : Tree) (Γ : LCtx) (next : Nat) (acc : Option (List Rewrite)) (id : Nat)
    (rs : List Term) : Option (List Rewrite) × Bool :=
  (do
    let found ← acc
    let vs ← p.values[id]?
    let new ← applyValues K Γ next rs vs
    return found ++ new, true)

/-- `get_rewrites` (rewrite_tree.rs:579-606) with `find_rewrites` (rewrite_tree.rs:525-577). -/
def getRewrites (K : KCtx) (fuel : Nat) (p : Tree) (t : Term) (next : Nat) (Γ : LCtx) : Option (List Rewrite) :=
  match p.findTerm K fuel (collect K p Γ next) t Γ (some []) with
  | none => none
  | some (acc, _) => acc

end Rewrites
end Acorn
