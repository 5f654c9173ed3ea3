/-
Boolean reductions of clauses.
Models /repo/src/kernel/clause.rs:965-1960 and the grouping in checker.rs:302-397.

In this file `none` stands for "does not apply", for a panic of `get_type_with_context`, and for running
out of the fuel given to `simplify_ite_term`, whose Rust recursion need not terminate.
-/
import Verif.Model.Clause
import Verif.Model.Typing
namespace Acorn

/-- `BooleanReductionKind` (clause.rs:41-99), in the order of the Rust enum. -/
inductive BoolKind
  | falseLit | iteSimplifyLeft | iteSimplifyRight
  | iteLeftThen | iteLeftElse | iteRightThen | iteRightElse
  | fnNeqToExists | signedNot | boolEqToEquality
  | posForallOpen | posExistsWitness | posExistsOpen | negForallToExists | negExistsOpen
  | posAndLeft | posAndRight | negAnd | posOr | negOrLeft | negOrRight
  | boolEqFirst | boolEqSecond | boolNeqFirst | boolNeqSecond
  deriving DecidableEq, Repr

/-- `NormalizedClauseTrace` (clause.rs:23-28). -/
structure Trace where
  clause : Clause
  varIds : List Nat
  preCtx : LCtx
  deriving DecidableEq, Repr

namespace Term

/-- `TermRef::is_exists` (term.rs:429-431). -/
def isExists : Term → Bool
  | ex _ _ => true
  | _ => false

/-- `Clause::split_symbol_application` (clause.rs:970-979): like `splitSym`, but the head must be the
symbol itself. -/
def splitSymExact (t : Term) (s : Symbol) (arity : Nat) : Option (List Term) :=
  match t with
  | app f a =>
    if (app f a).args.length = arity ∧ (app f a).spineHead = .sym s then some (app f a).args else none
  | _ => none

/-- The last part of `recurse` in `simplify_ite_term` (clause.rs:1086-1097). -/
def iteStep (t : Term) : Term :=
  match splitSymExact t .ite_ 4 with
  | some [_, c, x, y] => if c.isTrue then x else if c = .ff then y else if x = y then x else t
  | _ => t

/-- `simplify_ite_term` (clause.rs:1042-1102). -/
def simplifyIte : Nat → Term → Option Term
  | 0, _ => none
  | n + 1, t => do
    let t' ← mapChildren (simplifyIte n) t
    match betaHead t' with
    | some r => simplifyIte n (← r)
    | none => some (iteStep t')

/-- `reduce_exists_with_obvious_witness` (clause.rs:986-1004), second component. -/
def obviousWitness : Term → Option Term
  | ex _ body =>
    match splitSymExact body .eq_ 3 with
    | some [_, x, y] =>
      if x = bvar 0 then (if y.hasBound then none else openBound body y)
      else if y = bvar 0 then (if x.hasBound then none else openBound body x)
      else none
    | _ => none
  | _ => none

/-- `reduce_negated_forall` (clause.rs:1034-1040). -/
def negForall : Term → Option Term
  | all A body => some (ex A (not body))
  | _ => none

end Term

/-- `reduce_function_inequality_to_exists` (clause.rs:1011-1032). -/
def fnNeqExists (K : KCtx) (Γ : LCtx) (l : Literal) : Option Term :=
  if l.positive then none
  else
    match Term.getType K Γ l.left, Term.getType K Γ l.right with
    | some S, some T =>
      if S ≠ T then none
      else
        match S with
        | .bind .pi A B =>
          some (.ex A (.not (.eq B (.app l.left (.bvar 0)) (.app l.right (.bvar 0)))))
        | _ => none
    | _, _ => none

/-- `reduce_positive_forall` (clause.rs:1155-1162). -/
def openForall (t : Term) (Γ : LCtx) : Option (Term × LCtx) :=
  match t with
  | .bind .all A body => do
    let r ← Term.openBound body (.fvar Γ.length)
    return (r, Γ.pushTy A)
  | _ => none

/-- `reduce_negated_exists` (clause.rs:1146-1153). -/
def openExists (t : Term) (Γ : LCtx) : Option (Term × LCtx) :=
  match t with
  | .bind .ex A body => do
    let r ← Term.openBound body (.fvar Γ.length)
    return (r, Γ.pushTy A)
  | _ => none

/-- Is the left side boolean and the right side `true`?  The test that opens most of the cases of
`boolean_reduction_at_with_options`. -/
def signedBool (K : KCtx) (Γ : LCtx) (l : Literal) : Bool :=
  decide (Term.getType K Γ l.left = some .boolTy) && l.right.isTrue

/-- `normalize_boolean_reduction` (clause.rs:1118-1135). -/
def normalizeBoolReduction (ls : List Literal) (Γ : LCtx) (pinned : Nat) : Option Trace := do
  let (_, ids) ← normalizePrefilled ls Γ []
  let (c, ids') ← normalizePrefilled ls Γ (ids.filter (· < pinned))
  return ⟨c, ids', Γ⟩

/-- `with_replaced_literal` (clause.rs:1104-1116). -/
def replaceLit (ls : List Literal) (i : Nat) (rs : List Literal) : List Literal :=
  ls.take i ++ rs ++ ls.drop (i + 1)

/-- The literal test of `FalseLiteralElimination` (clause.rs:1265-1277): the literal is a boolean
constant, and it is false. -/
def falseLiteral (l : Literal) : Bool :=
  l.isSigned && ((l.left.isTrue && !l.positive) ||
    (!l.left.isTrue && decide (l.left = .ff) && l.positive))

/-- What `boolean_reduction_at_with_options` (clause.rs:1248-1562) replaces the literal `l` by, and the
context of the result.  `n` is the number of literals of the clause, `Γ` its context. -/
def boolReplace (fuel : Nat) (K : KCtx) (Γ : LCtx) (n : Nat) (l : Literal) :
    BoolKind → Option (List Literal × LCtx)
  | .falseLit => if falseLiteral l then some ([], Γ) else none
  | .iteSimplifyLeft => do
    let r ← l.left.simplifyIte fuel
    if r = l.left then none else some ([Literal.new l.positive r l.right], Γ)
  | .iteSimplifyRight => do
    let r ← l.right.simplifyIte fuel
    if r = l.right then none else some ([Literal.new l.positive l.left r], Γ)
  | .iteLeftThen =>
    match l.left.splitSymExact .ite_ 4 with
    | some [_, c, x, _] => some ([Literal.neg c, Literal.new l.positive x l.right], Γ)
    | _ => none
  | .iteLeftElse =>
    match l.left.splitSymExact .ite_ 4 with
    | some [_, c, _, y] => some ([Literal.pos c, Literal.new l.positive y l.right], Γ)
    | _ => none
  | .iteRightThen =>
    match l.right.splitSymExact .ite_ 4 with
    | some [_, c, x, _] => some ([Literal.neg c, Literal.new l.positive l.left x], Γ)
    | _ => none
  | .iteRightElse =>
    match l.right.splitSymExact .ite_ 4 with
    | some [_, c, _, y] => some ([Literal.pos c, Literal.new l.positive l.left y], Γ)
    | _ => none
  | .fnNeqToExists => do
    let t ← fnNeqExists K Γ l
    return ([Literal.pos t], Γ)
  | .signedNot =>
    if !signedBool K Γ l then none
    else
      match l.left.splitSymExact .not_ 1 with
      | some [x] => some ([Literal.fromSigned x (!l.positive)], Γ)
      | _ => none
  | .boolEqToEquality =>
    if !signedBool K Γ l then none
    else
      match l.left.splitSymExact .eq_ 3 with
      | some [_, x, y] =>
        some ([if l.positive then Literal.equals x y else Literal.notEquals x y], Γ)
      | _ => none
  | .posForallOpen =>
    if !signedBool K Γ l || !l.positive then none
    else do
      let (t, Γ') ← openForall l.left Γ
      return ([Literal.pos t], Γ')
  | .posExistsWitness =>
    if !signedBool K Γ l || !l.positive || (decide (n > 1) && l.left.isExists) then none
    else do
      let t ← l.left.obviousWitness
      return ([Literal.pos t], Γ)
  | .posExistsOpen => none
  | .negForallToExists =>
    if !signedBool K Γ l || l.positive then none
    else do
      let t ← l.left.negForall
      return ([Literal.pos t], Γ)
  | .negExistsOpen =>
    if !signedBool K Γ l || l.positive then none
    else do
      let (t, Γ') ← openExists l.left Γ
      return ([Literal.neg t], Γ')
  | .posAndLeft =>
    if !signedBool K Γ l || !l.positive then none
    else
      match l.left.splitSymExact .and_ 2 with
      | some [x, _] => some ([Literal.pos x], Γ)
      | _ => none
  | .posAndRight =>
    if !signedBool K Γ l || !l.positive then none
    else
      match l.left.splitSymExact .and_ 2 with
      | some [_, y] => some ([Literal.pos y], Γ)
      | _ => none
  | .negAnd =>
    if !signedBool K Γ l || l.positive then none
    else
      match l.left.splitSymExact .and_ 2 with
      | some [x, y] => some ([Literal.neg x, Literal.neg y], Γ)
      | _ => none
  | .posOr =>
    if !signedBool K Γ l || !l.positive then none
    else
      match l.left.splitSymExact .or_ 2 with
      | some [x, y] => some ([Literal.pos x, Literal.pos y], Γ)
      | _ => none
  | .negOrLeft =>
    if !signedBool K Γ l || l.positive then none
    else
      match l.left.splitSymExact .or_ 2 with
      | some [x, _] => some ([Literal.neg x], Γ)
      | _ => none
  | .negOrRight =>
    if !signedBool K Γ l || l.positive then none
    else
      match l.left.splitSymExact .or_ 2 with
      | some [_, y] => some ([Literal.neg y], Γ)
      | _ => none
  | .boolEqFirst =>
    if Term.getType K Γ l.left ≠ some .boolTy ∨ l.right.isTrue ∨ !l.positive then none
    else some ([Literal.pos l.left, Literal.neg l.right], Γ)
  | .boolEqSecond =>
    if Term.getType K Γ l.left ≠ some .boolTy ∨ l.right.isTrue ∨ !l.positive then none
    else some ([Literal.neg l.left, Literal.pos l.right], Γ)
  | .boolNeqFirst =>
    if Term.getType K Γ l.left ≠ some .boolTy ∨ l.right.isTrue ∨ l.positive then none
    else some ([Literal.neg l.left, Literal.neg l.right], Γ)
  | .boolNeqSecond =>
    if Term.getType K Γ l.left ≠ some .boolTy ∨ l.right.isTrue ∨ l.positive then none
    else some ([Literal.pos l.left, Literal.pos l.right], Γ)

/-- `boolean_reduction_at_with_options` (clause.rs:1248-1562). -/
def Clause.boolReductionAt (fuel : Nat) (K : KCtx) (c : Clause) (kind : BoolKind) (i : Nat) :
    Option Trace := do
  let l ← c.lits[i]?
  let (rs, Γ') ← boolReplace fuel K c.ctx c.lits.length l kind
  normalizeBoolReduction (replaceLit c.lits i rs) Γ' c.ctx.length

/-- The part of the loop body of `find_boolean_reductions_with_locations_with_options` for a boolean
literal with right side `true` (clause.rs:1690-1836). -/
def findSigned (Γ : LCtx) (n : Nat) (l : Literal) : List (BoolKind × List Literal × LCtx) :=
  match l.left.splitSymExact .not_ 1 with
  | some [x] => [(.signedNot, [Literal.fromSigned x (!l.positive)], Γ)]
  | _ =>
    match l.left.splitSymExact .eq_ 3 with
    | some [_, x, y] =>
      [(.boolEqToEquality, [if l.positive then Literal.equals x y else Literal.notEquals x y], Γ)]
    | _ =>
      if decide (n > 1) && l.positive && l.left.isExists then []
      else
        let quant : Option (List (BoolKind × List Literal × LCtx)) :=
          if l.positive then
            match openForall l.left Γ with
            | some (t, Γ') => some [(.posForallOpen, [Literal.pos t], Γ')]
            | none =>
              match l.left.obviousWitness with
              | some t => some [(.posExistsWitness, [Literal.pos t], Γ)]
              | none => none
          else
            match l.left.negForall with
            | some t => some [(.negForallToExists, [Literal.pos t], Γ)]
            | none =>
              match openExists l.left Γ with
              | some (t, Γ') => some [(.negExistsOpen, [Literal.neg t], Γ')]
              | none => none
        match quant with
        | some r => r
        | none =>
          match l.left.splitSymExact .and_ 2 with
          | some [x, y] =>
            if l.positive then
              [(.posAndLeft, [Literal.pos x], Γ), (.posAndRight, [Literal.pos y], Γ)]
            else [(.negAnd, [Literal.neg x, Literal.neg y], Γ)]
          | _ =>
            match l.left.splitSymExact .or_ 2 with
            | some [x, y] =>
              if l.positive then [(.posOr, [Literal.pos x, Literal.pos y], Γ)]
              else [(.negOrLeft, [Literal.neg x], Γ), (.negOrRight, [Literal.neg y], Γ)]
            | _ => []

/-- The end of the loop body, for a boolean literal whose right side is not `true`
(clause.rs:1837-1878). -/
def findBoolEq (Γ : LCtx) (l : Literal) : List (BoolKind × List Literal × LCtx) :=
  if l.positive then
    [(.boolEqFirst, [Literal.pos l.left, Literal.neg l.right], Γ),
     (.boolEqSecond, [Literal.neg l.left, Literal.pos l.right], Γ)]
  else
    [(.boolNeqFirst, [Literal.neg l.left, Literal.neg l.right], Γ),
     (.boolNeqSecond, [Literal.pos l.left, Literal.pos l.right], Γ)]

/-- The branch splitting of if-then-else terms (clause.rs:1631-1676). -/
def findIteSplit (Γ : LCtx) (l : Literal) : List (BoolKind × List Literal × LCtx) :=
  (match l.left.splitSymExact .ite_ 4 with
    | some [_, c, x, y] =>
      [(.iteLeftThen, [Literal.neg c, Literal.new l.positive x l.right], Γ),
       (.iteLeftElse, [Literal.pos c, Literal.new l.positive y l.right], Γ)]
    | _ => []) ++
  (match l.right.splitSymExact .ite_ 4 with
    | some [_, c, x, y] =>
      [(.iteRightThen, [Literal.neg c, Literal.new l.positive l.left x], Γ),
       (.iteRightElse, [Literal.pos c, Literal.new l.positive l.left y], Γ)]
    | _ => [])

/-- The loop body of `find_boolean_reductions_with_locations_with_options` (clause.rs:1573-1879): the
kinds that apply to a literal, with the replacement literals and the context. -/
def findReplacements (fuel : Nat) (K : KCtx) (Γ : LCtx) (n : Nat) (l : Literal) :
    Option (List (BoolKind × List Literal × LCtx)) :=
  if l.isSigned && (l.left.isTrue || decide (l.left = .ff)) then
    let isTrueLit := if l.left.isTrue then l.positive else !l.positive
    some (if !isTrueLit then [(.falseLit, [], Γ)] else [])
  else do
    let a ← l.left.simplifyIte fuel
    let b ← l.right.simplifyIte fuel
    let ty ← Term.getType K Γ l.left
    return (if a ≠ l.left then [(.iteSimplifyLeft, [Literal.new l.positive a l.right], Γ)] else []) ++
      (if b ≠ l.right then [(.iteSimplifyRight, [Literal.new l.positive l.left b], Γ)] else []) ++
      findIteSplit Γ l ++
      (match fnNeqExists K Γ l with
        | some t => [(.fnNeqToExists, [Literal.pos t], Γ)]
        | none => []) ++
      (if ty ≠ .boolTy then []
        else if l.right.isTrue then findSigned Γ n l
        else findBoolEq Γ l)

/-- `find_boolean_reductions_with_locations_with_options` (clause.rs:1564-1881).  Only the entries
matter to the callers, so a panic in one normalization is a panic of the whole. -/
def Clause.findBoolReductions (fuel : Nat) (K : KCtx) (c : Clause) :
    Option (List (BoolKind × Nat × Trace)) := do
  let found ← (List.range c.lits.length).mapM fun i => do
    let l ← c.lits[i]?
    let rs ← findReplacements fuel K c.ctx c.lits.length l
    rs.mapM fun (kind, r, Γ') => do
      let t ← normalizeBoolReduction (replaceLit c.lits i r) Γ' c.ctx.length
      return (kind, i, t)
  return found.flatten

/-- `normalize_clause_subterms` (term_normalization.rs:171-182). -/
def Clause.normalizeSubterms (fuel : Nat) (c : Clause) : Option Clause := do
  let ls ← c.lits.mapM fun l => do
    let a ← l.left.normalizeTerm fuel
    let b ← l.right.normalizeTerm fuel
    return (⟨l.positive, a, b⟩ : Literal)
  return ⟨ls, c.ctx⟩

/-- `Clause::normalize_with_trace` (clause.rs:255-266). -/
def Clause.normalizeWithTrace (c : Clause) : Option Trace := do
  let (c', ids) ← normalizePrefilled c.lits c.ctx []
  return ⟨c', ids, c.ctx⟩

/-- `normalize_checker_trace` (checker.rs:302-323).  `inhabited` is `eliminated_vars_inhabited`. -/
def Trace.checkerClause (fuel : Nat) (inhabited : Trace → Bool) (t : Trace) : Option Clause := do
  if !inhabited t then none
  else
    let c ← t.clause.normalizeSubterms fuel
    let t1 ← c.normalizeWithTrace
    if !inhabited t1 then none
    else
      let t2 ← t1.clause.normalizeWithTrace
      if !inhabited t2 then none
      else some t2.clause

/-- The test `paired` (checker.rs:357-367). -/
def BoolKind.paired : BoolKind → BoolKind → Bool
  | .iteLeftThen, .iteLeftElse => true
  | .iteRightThen, .iteRightElse => true
  | .posAndLeft, .posAndRight => true
  | .negOrLeft, .negOrRight => true
  | .boolEqFirst, .boolEqSecond => true
  | .boolNeqFirst, .boolNeqSecond => true
  | _, _ => false

/-- The test `is_second_half` (checker.rs:380-388). -/
def BoolKind.isSecondHalf : BoolKind → Bool
  | .iteLeftElse | .iteRightElse | .posAndRight | .negOrRight | .boolEqSecond | .boolNeqSecond => true
  | _ => false

/-- The loop of `checker_boolean_reduction_sets` (checker.rs:351-394); `norm` is
`normalize_checker_trace`. -/
def boolReductionSets (norm : Trace → Option Clause) : List (BoolKind × Trace) → List (List Clause)
  | [] => []
  | [(k, t)] =>
    if !k.isSecondHalf then
      match norm t with
      | some c => [[c]]
      | none => []
    else []
  | (k, t) :: (k', t') :: rest =>
    if k.paired k' then
      (match norm t, norm t' with
        | some c, some c' => [[c, c']]
        | _, _ => []) ++ boolReductionSets norm rest
    else
      (if !k.isSecondHalf then
        match norm t with
        | some c => [[c]]
        | none => []
      else []) ++ boolReductionSets norm ((k', t') :: rest)

/-- `checker_boolean_reduction_sets` (checker.rs:343-397). -/
def Clause.checkerReductionSets (fuel : Nat) (K : KCtx) (inhabited : Trace → Bool) (c : Clause) :
    Option (List (List Clause)) := do
  let rs ← c.findBoolReductions fuel K
  return boolReductionSets (Trace.checkerClause fuel inhabited) (rs.map fun (k, _, t) => (k, t))

end Acorn
