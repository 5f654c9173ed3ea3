/-
Turning statements into clauses.
Models /repo/src/kernel/clausifier.rs and /repo/src/kernel/extended_term.rs.

Errors and panics of the Rust code are values of `Err`.  The stack of `TermBinding`s that the Rust
functions pass around is only pushed to and popped from, never read, so it is left out.
-/
import Verif.Model.Clause
import Verif.Model.Typing
namespace Acorn
namespace Clausify

open Term

/-- Why clausification stops: a panic, or one of the error messages. -/
inductive Err where
  /-- A panic (missing type, out of range). -/
  | panic
  /-- The recursion bound of the model was too small. -/
  | fuel
  /-- "unhandled case: multiple ite args" (clausifier.rs:1396). -/
  | multipleIte
  /-- "term 'ite' condition is too complicated" (clausifier.rs:824). -/
  | complicated
  /-- "unhandled case: non-term application" (clausifier.rs:1098). -/
  | nonTerm
  /-- The two errors of `eq_to_clause_set` (extended_term.rs:134-137, 150-155). -/
  | comparison
  /-- The three errors of `instantiate_match_case` (clausifier.rs:591-593, 596-598, 607-609). -/
  | constructor_
  deriving DecidableEq, Repr

/-- `None` where the Rust code panics. -/
def orPanic {α : Type} : Option α → Except Err α
  | some a => .ok a
  | none => .error .panic

/-- What clausification reads from the kernel context: the types of symbols, and the constructors of
each match eliminator in order (`get_match_eliminator_info`, symbol_table.rs:410-412). -/
structure Kernel where
  toKCtx : KCtx
  matchInfo : Symbol → Option (List Symbol)

/-- The context and the next variable id that the Rust functions update. -/
structure St where
  ctx : LCtx
  next : Nat
  deriving DecidableEq, Repr

/-- `let var_id = *next_var_id; *next_var_id += 1; context.push_type(ty)`. -/
def St.fresh (s : St) (ty : Term) : Nat × St := (s.next, ⟨s.ctx.pushTy ty, s.next + 1⟩)

/-- The loop that introduces one variable for each type (clausifier.rs:957-963, 1209-1215,
1268-1274). -/
def St.freshAll (s : St) : List Term → List Term × St
  | [] => ([], s)
  | ty :: tys =>
    let (x, s1) := s.fresh ty
    let (xs, s2) := s1.freshAll tys
    (fvar x :: xs, s2)

/-- `ExtendedTerm` (extended_term.rs:38-48). -/
inductive Ext where
  | term (t : Term)
  | ite (cond : Literal) (a b : Term)
  | lam (args : List (Nat × Term)) (body : Term)
  deriving DecidableEq, Repr

/-- `ExtendedTerm::apply` (extended_term.rs:86-119). -/
def Ext.apply : Ext → List Term → Ext
  | .term t, as => .term (t.apply as)
  | .ite c a b, as => .ite c (a.apply as) (b.apply as)
  | .lam args body, as =>
    if as.length < args.length then
      .lam (args.drop as.length) (body.replaceVars (((args.take as.length).map (·.1)).zip as))
    else if as.length = args.length then .term (body.replaceVars ((args.map (·.1)).zip as))
    else .term ((body.replaceVars ((args.map (·.1)).zip (as.take args.length))).apply
      (as.drop args.length))

/-! ### Sets of lists of literals -/

/-- `ClauseLiterals` (clausifier.rs:19): a conjunction of disjunctions. -/
abbrev CSet := List (List Literal)

/-- `Literal::is_true_value` (literal.rs:102-104). -/
def isTrueValue (l : Literal) : Bool := l.positive && l.left.isTrue && l.right.isTrue
/-- `Literal::is_false_value` (literal.rs:107-109). -/
def isFalseValue (l : Literal) : Bool := !l.positive && l.left.isTrue && l.right.isTrue

/-- `clauses_from_literal` (clausifier.rs:29-37, extended_term.rs:15-23). -/
def fromLit (l : Literal) : CSet :=
  if isTrueValue l then [] else if isFalseValue l then [[]] else [[l]]

/-- `clauses_and` (clausifier.rs:39-42). -/
def cand (a b : CSet) : CSet := a ++ b

/-- `clauses_or` (clausifier.rs:52-62). -/
def cor (a b : CSet) : CSet := a.flatMap fun x => b.map fun y => x ++ y

/-- `negate_clauses` (clausifier.rs:72-78) with `clauses_and_all` and `clauses_or_all`
(clausifier.rs:44-50, 64-70). -/
def negateSet (cs : CSet) : CSet :=
  (cs.map fun c => (c.map fun l => fromLit l.negate).foldl cand []).foldl cor [[]]

/-- `clauses_to_literal` (clausifier.rs:80-98). -/
def toLit : CSet → Option Literal
  | [] => some Literal.trueValue
  | [[]] => some Literal.falseValue
  | [[l]] => some l
  | _ => none

/-- `clauses_as_signed_term` (clausifier.rs:100-110). -/
def asSigned : CSet → Option (Term × Bool)
  | [[l]] => if l.isSigned then some (l.left, l.positive) else none
  | _ => none

/-- `clauses_match_negated` (clausifier.rs:112-123). -/
def matchNegated (a b : CSet) : Option (Term × Bool) :=
  match asSigned a, asSigned b with
  | some (t, p), some (t', p') => if t = t' ∧ p ≠ p' then some (t, p) else none
  | _, _ => none

/-- `clause_set_if` (clausifier.rs:137-147). -/
def setIf (c : Literal) (a b : CSet) : CSet :=
  cand (cor (fromLit c.negate) a) (cor (fromLit c) b)

/-- `literal_if_clauses` (extended_term.rs:25-34). -/
def litIf (c a b : Literal) : CSet := [[c.negate, a], [c, b]]

/-- `ExtendedTerm::eq_term_to_clause_set` (extended_term.rs:123-139). -/
def Ext.eqTermSet (e : Ext) (t : Term) (negate : Bool) : Except Err CSet :=
  match e with
  | .term l => .ok (fromLit (Literal.new (!negate) l t))
  | .ite c a b => .ok (litIf c (Literal.new (!negate) a t) (Literal.new (!negate) b t))
  | .lam _ _ => .error .comparison

/-- `ExtendedTerm::eq_to_clause_set` (extended_term.rs:142-157). -/
def Ext.eqSet (e e' : Ext) (negate : Bool) : Except Err CSet :=
  match e, e' with
  | l, .term r => l.eqTermSet r negate
  | .term l, r => r.eqTermSet l negate
  | _, _ => .error .comparison

/-- `clauses_into_clauses_with_pinned` (clausifier.rs:125-135). -/
def intoClauses (cs : CSet) (Γ : LCtx) (pinned : Nat) : Except Err (List Clause) :=
  (cs.filter fun ls => !ls.any Literal.isTautology).mapM fun ls =>
    orPanic (Clause.normalizePinned ⟨ls, Γ⟩ pinned)

/-! ### Opening binders -/

/-- `open_leading_foralls_as_free_vars` (clausifier.rs:238-252).  The first argument bounds the number
of binders; the size of the term is enough. -/
def openForalls : Nat → St → Term → Option (Term × St)
  | n + 1, s, .bind .all A b => do
    let b' ← openBound b (fvar s.next)
    openForalls n (s.fresh A).2 b'
  | _, s, t => some (t, s)

/-- The loop of `term_to_extended_term` over leading lambdas (clausifier.rs:1471-1480).  The first
argument bounds the number of binders. -/
def openLams : Nat → St → Term → Option (List (Nat × Term) × Term × St)
  | n + 1, s, .bind .lam A b => do
    let b' ← openBound b (fvar s.next)
    let (args, body, s') ← openLams n (s.fresh A).2 b'
    return ((s.next, A) :: args, body, s')
  | _, s, t => some ([], t, s)

/-- `instantiate_binder_prefix` (clausifier.rs:554-572): arguments are put in for leading binders, of
whatever kind, and the others applied. -/
def instPrefix : Term → List Term → Option Term
  | t, [] => some t
  | .bind .lam _ b, a :: as => do instPrefix (← openBound b a) as
  | .bind .all _ b, a :: as => do instPrefix (← openBound b a) as
  | .bind .ex _ b, a :: as => do instPrefix (← openBound b a) as
  | t, as => some (t.apply as)

/-- `count_type_params` (term.rs:564-575). -/
def countTypeParams : Term → Nat
  | .bind .pi A B => if A.isTypeParamKind then 1 + countTypeParams B else 0
  | _ => 0

/-- `split_match_eliminator_application` (clausifier.rs:511-540).  `get_type` panics for a symbol
without a type; such a symbol has no match information, so this is `none` here. -/
def splitMatch (K : Kernel) (t : Term) : Option (List Term × Term × List (Symbol × Term)) :=
  match t with
  | app f a =>
    match (app f a).spineHead.headAtom with
    | .sym s =>
      match K.matchInfo s, K.toKCtx.symbolType s with
      | some ctors, some T =>
        let n := countTypeParams T
        let as := (app f a).args
        if as.length = n + 1 + ctors.length then
          (as[n]?).map fun x => (as.take n, x, ctors.zip (as.drop (n + 1)))
        else none
      | _, _ => none
    | _ => none
  | _ => none

/-- `fn_arg_types` and `result_type` (clausifier.rs:946-951, 1190-1195): the inputs of a function
type, not opened, and what is left. -/
def fnTypes : Term → List Term × Term
  | .bind .pi A B => let (as, r) := fnTypes B; (A :: as, r)
  | t => ([], t)

/-! ### Terms kept inline -/

/-- `try_inline_term_to_signed_term` (clausifier.rs:1008-1061), which never returns an error, with
`try_inline_term_to_term` (clausifier.rs:910-916).  The first argument bounds the recursion; the size
of the term is enough. -/
def tryInlineAux : Nat → Term → Option (Term × Bool)
  | 0, _ => none
  | n + 1, t =>
    match splitSym t .not_ 1 with
    | some [x] => (tryInlineAux n x).map fun (u, p) => (u, !p)
    | _ =>
      match t with
      | .bind .all _ _ => none
      | .bind .ex _ _ => none
      | .bind .lam _ _ => none
      | _ =>
        if t = tt then some (tt, true)
        else if t = ff then some (tt, false)
        else if (splitSym t .and_ 2).isSome || (splitSym t .or_ 2).isSome ||
            (splitSym t .eq_ 3).isSome || (splitSym t .ite_ 4).isSome then none
        else
          match t with
          | app f a => do
            let inl := fun x => match tryInlineAux n x with
              | some (u, true) => some u
              | _ => none
            let fn ← inl (app f a).spineHead
            let as ← (app f a).args.mapM inl
            return ((atom fn.headAtom).apply (fn.args ++ as), true)
          | _ => some (t, true)

/-- `try_inline_term_to_signed_term` with enough steps for the term. -/
def tryInline (t : Term) : Option (Term × Bool) := tryInlineAux t.size t

/-- `try_inline_term_to_term` (clausifier.rs:910-916). -/
def tryInlineTerm (t : Term) : Option Term :=
  match tryInline t with
  | some (u, true) => some u
  | _ => none

/-! ### Extended terms -/

/-- `term_type_for_normalization` (clausifier.rs:687-701): `get_type_with_context` computes the type of
a lambda in the same way. -/
def typeOf (K : Kernel) (Γ : LCtx) (t : Term) : Except Err Term := orPanic (getType K.toKCtx Γ t)

/-- `literal_to_bool_term` (clausifier.rs:1661-1677). -/
def litTerm (K : Kernel) (Γ : LCtx) (l : Literal) : Except Err Term :=
  if l.isSigned then .ok (if l.positive then l.left else .not l.left)
  else do
    let T ← typeOf K Γ l.left
    return if l.positive then .eq T l.left l.right else .not (.eq T l.left l.right)

/-- The first loop of the lambda case of `extended_term_to_term` (clausifier.rs:1648-1650): the last
argument becomes the innermost binder. -/
def abstractArgs : Nat → List (Nat × Term) → Term → Term
  | _, [], t => t
  | d, (x, _) :: args, t => abstractArgs (d + 1) args (abstractVar x d t)

/-- `extended_term_to_term` (clausifier.rs:1623-1659). -/
def Ext.toTerm (K : Kernel) (Γ : LCtx) : Ext → Except Err Term
  | .term t => .ok t
  | .ite c a b =>
    if a = b then .ok a
    else do
      let T ← typeOf K Γ a
      let c' ← litTerm K Γ c
      return .ite T c' a b
  | .lam args body => do
    let out := args.reverse.foldl (fun t xA => Term.bind .lam xA.2 t) (abstractArgs 0 args.reverse body)
    let _ ← typeOf K Γ out
    return out

/-- The state of the loop in `apply_term_to_extended_term`: the condition and the two spines. -/
structure Spines where
  cond : Option Literal
  one : List Term
  two : List Term

/-- One round of that loop (clausifier.rs:1386-1411). -/
def addArg (K : Kernel) (Γ : LCtx) (p : Spines) (e : Ext) : Except Err Spines :=
  match e with
  | .term t => .ok ⟨p.cond, p.one ++ [t], if p.two.isEmpty then [] else p.two ++ [t]⟩
  | .ite c a b =>
    if p.two.isEmpty then .ok ⟨some c, p.one ++ [a], p.one ++ [b]⟩ else .error .multipleIte
  | .lam args body => do
    let t ← (Ext.lam args body).toTerm K Γ
    return ⟨p.cond, p.one ++ [t], if p.two.isEmpty then [] else p.two ++ [t]⟩

/-- `Term::from_spine` (term.rs:2536-2547). -/
def fromSpine : List Term → Except Err Term
  | [] => .error .panic
  | f :: as => .ok (f.apply as)

/-- `apply_term_to_extended_term` (clausifier.rs:1350-1425); the first argument is
`term_to_extended_term`. -/
def applyExt (rec : St → Term → Except Err (Ext × St)) (K : Kernel) (s : St) (f : Term)
    (args : List Ext) : Except Err (Ext × St) := do
  match f with
  | .bind .lam _ _ =>
    let (fe, s1) ← rec s f
    let ts ← args.mapM (Ext.toTerm K s1.ctx)
    return (fe.apply ts, s1)
  | _ =>
    let (fe, s1) ← rec s f
    let p ← match fe with
      | .term t => .ok (⟨none, [t], []⟩ : Spines)
      | .ite c a b => .ok ⟨some c, [a], [b]⟩
      | .lam as body => do
        let t ← (Ext.lam as body).toTerm K s1.ctx
        pure ⟨none, [t], []⟩
    let q ← args.foldlM (addArg K s1.ctx) p
    match q.cond with
    | some c =>
      let a ← fromSpine q.one
      let b ← fromSpine q.two
      return (.ite c a b, s1)
    | none =>
      let a ← fromSpine q.one
      return (.term a, s1)

/-- `arg_term_to_extended` (clausifier.rs:1325-1344). -/
def argExt (rec : St → Term → Except Err (Ext × St)) (K : Kernel) (s : St) (t : Term) :
    Except Err (Ext × St) := do
  match t with
  | .bind .lam _ _ => rec s t
  | _ =>
    let T ← typeOf K s.ctx t
    if T = .boolTy ∧ (tryInlineTerm t).isNone = true then return (.term t, s) else rec s t

/-- The loop over the arguments of an application (clausifier.rs:1454-1457). -/
def argsExt (rec : St → Term → Except Err (Ext × St)) (K : Kernel) : St → List Term →
    Except Err (List Ext × St)
  | s, [] => .ok ([], s)
  | s, t :: ts => do
    let (e, s1) ← argExt rec K s t
    let (es, s2) ← argsExt rec K s1 ts
    return (e :: es, s2)

/-- `term_to_extended_term` (clausifier.rs:1431-1517).  The first argument bounds the recursion. -/
def toExt (K : Kernel) : Nat → St → Term → Except Err (Ext × St)
  | 0, _, _ => .error .fuel
  | n + 1, s, t =>
    match splitSym t .ite_ 4 with
    | some [_, c, a, b] => do
      let (ae, s1) ← toExt K n s a
      let a' ← ae.toTerm K s1.ctx
      let (be, s2) ← toExt K n s1 b
      let b' ← be.toTerm K s2.ctx
      let T ← typeOf K s2.ctx a'
      return (.term (.ite T c a' b'), s2)
    | _ =>
      match t with
      | app f a => do
        let (es, s1) ← argsExt (toExt K n) K s (app f a).args
        applyExt (toExt K n) K s1 (app f a).spineHead es
      | .bind .lam A b => do
        let (args, body, s1) ← orPanic (openLams (Term.bind .lam A b).size s (Term.bind .lam A b))
        let (be, s2) ← toExt K n s1 body
        let b' ← be.toTerm K s2.ctx
        return (.lam args b', s2)
      | .bind .all _ _ => .ok (.term t, s)
      | .bind .ex _ _ => .ok (.term t, s)
      | _ =>
        if t = tt then .ok (.term tt, s)
        else if t = ff then .ok (.term ff, s)
        else do
          let T ← typeOf K s.ctx t
          if T = .boolTy then return (.term ((tryInlineTerm t).getD t), s)
          else return (.term t, s)

/-- `term_to_inline_term` (clausifier.rs:1519-1531). -/
def toInline (K : Kernel) (n : Nat) (s : St) (t : Term) : Except Err (Term × St) :=
  match tryInlineTerm t with
  | some u => .ok (u, s)
  | none => do
    let (e, s1) ← toExt K n s t
    let u ← e.toTerm K s1.ctx
    return (u, s1)

/-! ### One clause -/

/-- `bool_equality_to_single_literal` (clausifier.rs:992-1006). -/
def boolEqLit (l r : Term) (positive : Bool) : Option Literal :=
  match tryInline l, tryInline r with
  | some (l', p), some (r', q) => some (Literal.new (decide (p = q) == positive) l' r')
  | _, _ => none

/-- `try_term_to_single_literal` (clausifier.rs:923-990). -/
def singleLit (K : Kernel) (n : Nat) (s : St) (t : Term) (positive : Bool) :
    Except Err (Option Literal × St) :=
  match splitSym t .eq_ 3 with
  | some [_, l, r] =>
    if (splitMatch K l).isSome || (splitMatch K r).isSome then .ok (none, s)
    else do
      let T ← typeOf K s.ctx l
      let (tys, res) := fnTypes T
      if tys ≠ [] then
        if positive then
          let (le, s1) ← toExt K n s l
          let (re, s2) ← toExt K n s1 r
          let (xs, s3) := s2.freshAll tys
          let l' ← (le.apply xs).toTerm K s3.ctx
          let r' ← (re.apply xs).toTerm K s3.ctx
          if res = .boolTy then
            match boolEqLit l' r' true with
            | some lit => return (some lit, s3)
            | none => return (some (Literal.equals l' r'), s3)
          else return (some (Literal.equals l' r'), s3)
        else
          let (le, s1) ← toExt K n s l
          let (re, s2) ← toExt K n s1 r
          let l' ← le.toTerm K s2.ctx
          let r' ← re.toTerm K s2.ctx
          return (some (Literal.notEquals l' r'), s2)
      else if T = .boolTy then
        match boolEqLit l r positive with
        | some lit => return (some lit, s)
        | none => return (some (Literal.new positive l r), s)
      else return (some (Literal.new positive l r), s)
  | _ => .ok (none, s)

/-- `literal_from_shallow_term` (clausifier.rs:271-287). -/
def shallowLit (K : Kernel) (n : Nat) (s : St) (t : Term) (positive : Bool) :
    Except Err (Literal × St) := do
  let (o, s1) ← singleLit K n s t positive
  match o with
  | some l => return (l, s1)
  | none =>
    let (u, s2) ← toInline K n s1 t
    return (Literal.fromSigned u positive, s2)

/-- `shallow_term_to_disjunctive_literals` (clausifier.rs:289-350).  `k` bounds the recursion; the size
of the term is enough. -/
def disjLits (K : Kernel) (n : Nat) : Nat → St → Term → Bool → Except Err (List Literal × St)
  | 0, _, _, _ => .error .fuel
  | k + 1, s, t, positive =>
    match splitSym t .not_ 1 with
    | some [x] => disjLits K n k s x (!positive)
    | _ =>
      match splitSym t (if positive then .or_ else .and_) 2 with
      | some [x, y] => do
        let (xs, s1) ← disjLits K n k s x positive
        let (ys, s2) ← disjLits K n k s1 y positive
        return (xs ++ ys, s2)
      | _ => do
        let (l, s1) ← shallowLit K n s t positive
        return ([l], s1)

/-- `Clause::new_with_pinned_vars` and the test for tautologies (clausifier.rs:482-487). -/
def oneClause (ls : List Literal) (Γ : LCtx) (pinned : Nat) : Except Err (List Clause) := do
  let c ← orPanic (Clause.normalizePinned ⟨ls, Γ⟩ pinned)
  return if c.isTautology then [] else [c]

/-! ### Several clauses: equations with a match -/

/-- The first loop of `instantiate_match_case` (clausifier.rs:588-601). -/
def instCtorTypes : Term → List Term → Except Err Term
  | T, [] => .ok T
  | .bind .pi A B, a :: as =>
    if A.isTypeParamKind then do
      let T ← orPanic (openBound B a)
      instCtorTypes T as
    else .error .constructor_
  | _, _ => .error .constructor_

/-- The second loop (clausifier.rs:603-620): a variable for each field.  The first argument bounds the
number of fields; the size of the type is enough when it is instantiated with variables. -/
def fieldVars : Nat → St → Term → Except Err (List Term × St)
  | n + 1, s, .bind .pi A B =>
    if A.isTypeParamKind then .error .constructor_
    else do
      let B' ← orPanic (openBound B (fvar s.next))
      let (xs, s') ← fieldVars n (s.fresh A).2 B'
      return (fvar s.next :: xs, s')
  | _, s, _ => .ok ([], s)

/-- `instantiate_match_case` (clausifier.rs:579-625): the pattern and the value of the case. -/
def instCase (K : Kernel) (s : St) (ctor : Symbol) (targs : List Term) (case : Term) :
    Except Err (Term × Term × St) := do
  let T ← orPanic (K.toKCtx.symbolType ctor)
  let T' ← instCtorTypes T targs
  let (xs, s1) ← fieldVars T'.size s T'
  let v ← orPanic (instPrefix case xs)
  return ((sym ctor).apply (targs ++ xs), v, s1)

/-- The loop over the cases of a match (clausifier.rs:1118-1150, 1154-1186); the first argument is
`term_eq_to_clause_set`. -/
def matchSet (rec : St → Term → Term → Bool → Except Err (CSet × St)) (K : Kernel)
    (targs : List Term) (scrutinee other : Term) (negate : Bool) :
    CSet → St → List (Symbol × Term) → Except Err (CSet × St)
  | acc, s, [] => .ok (acc, s)
  | acc, s, (ctor, case) :: cases => do
    let (pattern, value, s1) ← instCase K s ctor (targs.take (targs.length - 1)) case
    let (cond, s2) ← rec s1 scrutinee pattern false
    let (conc, s3) ← rec s2 other value negate
    matchSet rec K targs scrutinee other negate (cand acc (cor (negateSet cond) conc)) s3 cases

/-- The last part of `term_to_clause_set` (clausifier.rs:857-875). -/
def toSetAtom (K : Kernel) (n : Nat) (s : St) (t : Term) (negate : Bool) :
    Except Err (CSet × St) :=
    if t = tt then .ok (if negate then [[]] else [], s)
    else if t = ff then .ok (if negate then [] else [[]], s)
    else do
      let (u, s1) ← toInline K n s t
      return (fromLit (Literal.fromSigned u (!negate)), s1)

/-- The last part of `apply_term_to_clause_set` (clausifier.rs:1091-1099). -/
def applySetAtom (K : Kernel) (n : Nat) (s : St) (f : Term) (args : List Term) (negate : Bool) :
    Except Err (CSet × St) := do
    let (e, s1) ← applyExt (toExt K n) K s f (args.map Ext.term)
    match e with
    | .term u => return (fromLit (Literal.fromSigned u (!negate)), s1)
    | _ => .error .nonTerm

mutual

/-- `term_to_clause_set` (clausifier.rs:710-878) with `term_and_to_clause_set` and
`term_or_to_clause_set` (clausifier.rs:880-908).  The first argument bounds the recursion. -/
def toSet (K : Kernel) : Nat → St → Term → Bool → Except Err (CSet × St)
  | 0, _, _, _ => .error .fuel
  | n + 1, s, t, negate =>
    match t with
    | .bind .all _ _ => .ok (fromLit (Literal.fromSigned t (!negate)), s)
    | .bind .ex _ _ => .ok (fromLit (Literal.fromSigned t (!negate)), s)
    | _ =>
      match splitSym t .not_ 1 with
      | some [x] => toSet K n s x (!negate)
      | _ =>
        match splitSym t .and_ 2 with
        | some [x, y] => do
          let (a, s1) ← toSet K n s x negate
          let (b, s2) ← toSet K n s1 y negate
          return (if negate then cor a b else cand a b, s2)
        | _ =>
          match splitSym t .or_ 2 with
          | some [x, y] => do
            if (splitSym x .and_ 2).isSome || (splitSym y .and_ 2).isSome then
              let (u, s1) ← toInline K n s t
              return (fromLit (Literal.fromSigned u (!negate)), s1)
            else
              let (a, s1) ← toSet K n s x negate
              let (b, s2) ← toSet K n s1 y negate
              return (if negate then cand a b else cor a b, s2)
          | _ =>
            match splitSym t .eq_ 3 with
            | some [_, l, r] => eqSet K n s l r negate
            | _ =>
              match splitSym t .ite_ 4 with
              | some [_, c, a, b] => do
                let (cs, s1) ← toSet K n s c false
                match toLit cs with
                | none => .error .complicated
                | some lit =>
                  let (as, s2) ← toSet K n s1 a negate
                  let (bs, s3) ← toSet K n s2 b negate
                  return (setIf lit as bs, s3)
              | _ =>
                match t with
                | app f a =>
                  match (app f a).spineHead with
                  | .bind .pi _ _ => toSetAtom K n s t negate
                  | .bind _ _ _ => do
                    let u ← orPanic (instPrefix (app f a).spineHead (app f a).args)
                    toSet K n s u negate
                  | _ => toSetAtom K n s t negate
                | _ => toSetAtom K n s t negate

/-- `apply_term_to_clause_set` (clausifier.rs:1063-1100) on variables. -/
def applySet (K : Kernel) : Nat → St → Term → List Term → Bool → Except Err (CSet × St)
  | 0, _, _, _, _ => .error .fuel
  | n + 1, s, f, args, negate =>
    match f with
    | .bind .pi _ _ => applySetAtom K n s f args negate
    | .bind _ _ _ => do
      let u ← orPanic (instPrefix f args)
      toSet K n s u negate
    | _ => applySetAtom K n s f args negate

/-- `term_eq_to_clause_set` (clausifier.rs:1107-1323). -/
def eqSet (K : Kernel) : Nat → St → Term → Term → Bool → Except Err (CSet × St)
  | 0, _, _, _, _ => .error .fuel
  | n + 1, s, l, r, negate =>
    match splitMatch K r with
    | some (targs, x, cases) => matchSet (eqSet K n) K targs x l negate [] s cases
    | none =>
      match splitMatch K l with
      | some (targs, x, cases) => matchSet (eqSet K n) K targs x r negate [] s cases
      | none => do
        let T ← typeOf K s.ctx l
        let (tys, res) := fnTypes T
        if tys ≠ [] then
          if negate then
            let (le, s1) ← toExt K n s l
            let (re, s2) ← toExt K n s1 r
            let l' ← le.toTerm K s2.ctx
            let r' ← re.toTerm K s2.ctx
            return (fromLit (Literal.new false l' r'), s2)
          else if res = .boolTy then
            let (xs, s1) := s.freshAll tys
            let (lp, s2) ← applySet K n s1 l xs false
            let (ln, s3) ← applySet K n s2 l xs true
            let (rp, s4) ← applySet K n s3 r xs false
            let (rn, s5) ← applySet K n s4 r xs true
            match matchNegated lp ln, matchNegated rp rn with
            | some (l', p), some (r', q) => return (fromLit (Literal.new (decide (p = q)) l' r'), s5)
            | _, _ => return (cand (cor ln rp) (cor lp rn), s5)
          else
            let (le, s1) ← toExt K n s l
            let (re, s2) ← toExt K n s1 r
            let (xs, s3) := s2.freshAll tys
            let cs ← (le.apply xs).eqSet (re.apply xs) false
            return (cs, s3)
        else if T = .boolTy then
          match tryInline l, tryInline r with
          | some (l', p), some (r', q) =>
            return (fromLit (Literal.new (xor (decide (p = q)) negate) l' r'), s)
          | _, _ =>
            if negate then
              let (a, s1) ← toSet K n s l true
              let (b, s2) ← toSet K n s1 r true
              let (c, s3) ← toSet K n s2 l false
              let (d, s4) ← toSet K n s3 r false
              return (cand (cor a b) (cor c d), s4)
            else
              let (a, s1) ← toSet K n s l true
              let (b, s2) ← toSet K n s1 r false
              let (c, s3) ← toSet K n s2 l false
              let (d, s4) ← toSet K n s3 r true
              return (cand (cor a b) (cor c d), s4)
        else
          let (le, s1) ← toExt K n s l
          let (re, s2) ← toExt K n s1 r
          let cs ← le.eqSet re negate
          return (cs, s2)

end

/-- `shallow_term_to_clauses` (clausifier.rs:352-441).  `k` bounds the recursion. -/
def shallowClauses (K : Kernel) (n : Nat) (pinned : Nat) :
    Nat → St → Term → Bool → Except Err (List Clause × St)
  | 0, _, _, _ => .error .fuel
  | k + 1, s, t, positive =>
    match splitSym t .not_ 1 with
    | some [x] => shallowClauses K n pinned k s x (!positive)
    | _ =>
      match splitSym t (if positive then .and_ else .or_) 2 with
      | some [x, y] => do
        let (xs, s1) ← shallowClauses K n pinned k s x positive
        let (ys, s2) ← shallowClauses K n pinned k s1 y positive
        return (xs ++ ys, s2)
      | _ =>
        if (splitSym t (if positive then .or_ else .and_) 2).isSome then do
          let (ls, s1) ← disjLits K n (k + 1) s t positive
          let cs ← oneClause ls s1.ctx pinned
          return (cs, s1)
        else do
          let (cs, s1) ← toSet K n s t (!positive)
          let cs' ← intoClauses cs s1.ctx pinned
          return (cs', s1)

/-- `initial_clause_context` (clausifier.rs:192-205): the kinds of the type variables, in the order of
their ids. -/
def initial (tyvars : List Term) : St := ⟨tyvars.map some, tyvars.length⟩

/-- `shallow_clausify_term` (clausifier.rs:443-455). -/
def shallowClausify (K : Kernel) (n : Nat) (tyvars : List Term) (t : Term) :
    Except Err (List Clause) := do
  let (opened, s) ← orPanic (openForalls t.size (initial tyvars) t)
  let (cs, _) ← shallowClauses K n tyvars.length (opened.size + 1) s opened true
  return cs

/-- `clausify_term_to_single_clause` (clausifier.rs:462-488), which is
`lower_normalized_term_to_clauses` (clausifier.rs:173-175, 1681-1689): the clauses a fact or a negated
goal is turned into.  `n` bounds the recursions whose depth is not obvious. -/
def clausify (K : Kernel) (n : Nat) (tyvars : List Term) (t : Term) : Except Err (List Clause) := do
  let (opened, s) ← orPanic (openForalls t.size (initial tyvars) t)
  let isMatch := match splitSym opened .eq_ 3 with
    | some [_, l, r] => (splitMatch K l).isSome || (splitMatch K r).isSome
    | _ => false
  if isMatch then shallowClausify K n tyvars t
  else
    let (ls, s1) ← disjLits K n (opened.size + 1) s opened true
    oneClause ls s1.ctx tyvars.length

/-! ### Quoted clauses -/

/-- `allocate_next_open_local_slot` (clausifier.rs:223-236): the first unused slot from `next` on.
The first argument bounds the search; the length of the context is enough. -/
def nextSlot (Γ : LCtx) : Nat → Nat → Nat
  | 0, i => i
  | n + 1, i => if (Γ.get i).isSome then nextSlot Γ n (i + 1) else i

/-- `LocalContext::set_type` (local_context.rs:101-106). -/
def setType (Γ : LCtx) (i : Nat) (T : Term) : LCtx :=
  (Γ ++ List.replicate (i + 1 - Γ.length) none).set i (some T)

/-- `open_leading_foralls_preserving_local_slots` (clausifier.rs:256-269). -/
def openForallsSlots : Nat → St → Term → Option (Term × St)
  | n + 1, s, .bind .all A b => do
    let i := nextSlot s.ctx (s.ctx.length) s.next
    let b' ← openBound b (fvar i)
    openForallsSlots n ⟨setType s.ctx i A, i + 1⟩ b'
  | _, s, t => some (t, s)

/-- `exact_clause_literal_from_term` (clausifier.rs:1570-1581). -/
def exactLit (t : Term) : Literal :=
  match splitSym t .not_ 1 with
  | some [x] =>
    match splitSym x .eq_ 3 with
    | some [_, l, r] => Literal.notEquals l r
    | _ => Literal.neg x
  | _ =>
    match splitSym t .eq_ 3 with
    | some [_, l, r] => Literal.equals l r
    | _ => Literal.pos t

/-- `exact_clause_literals_from_term` (clausifier.rs:1560-1567); the first argument bounds the
recursion, the size of the term is enough. -/
def exactLits : Nat → Term → List Literal
  | 0, t => [exactLit t]
  | n + 1, t =>
    match splitSym t .or_ 2 with
    | some [x, y] => exactLits n x ++ exactLits n y
    | _ => [exactLit t]

/-- `initial_exact_clause_context` (clausifier.rs:209-219): the type variables keep their ids. -/
def initialExact (tyvars : List (Nat × Term)) : St :=
  ⟨tyvars.foldl (fun Γ iT => setType Γ iT.1 iT.2) [], 0⟩

/-- `lower_normalized_term_to_clause_with_opening_policy` (clausifier.rs:1534-1553);
`normalized_preserving_locals` (clause.rs:229-234) pins all variables of the context. -/
def exactClause (tyvars : List (Nat × Term)) (opening : Bool) (t : Term) : Except Err Clause := do
  let (opened, s) ← if opening then orPanic (openForallsSlots t.size (initialExact tyvars) t)
    else .ok (t, initialExact tyvars)
  if opened = ff then return ⟨[], s.ctx⟩
  else orPanic (Clause.normalizePinned ⟨exactLits opened.size opened, s.ctx⟩ s.ctx.length)

/-- `term_to_inline_literal_body` (clausifier.rs:1586-1607).  `none` is the error. -/
def inlineBody (K : Kernel) (t : Term) : Except Err (Option Term) :=
  let rest : Except Err (Option Term) :=
    if t.hasAnyVar then .ok none
    else do
      let T ← typeOf K [] t
      return if T = .boolTy then some t else none
  match tryInline t with
  | some (u, true) => .ok (some u)
  | some (u, false) => if u = tt then .ok (some ff) else rest
  | none => rest

/-- `term_to_claim_arg_shape` (clausifier.rs:1614-1619). -/
def claimArg (K : Kernel) (t : Term) : Except Err Term := do
  return (← inlineBody K t).getD t

end Clausify
end Acorn
