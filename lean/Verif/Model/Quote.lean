/-
From kernel terms and clauses back to the elaborator's values (/repo/src/elaborator/term_bridge.rs).

Simplifications, for the whole file: families indexed by values are left out, as in `AcornValue.lean`, so
constants have no value parameters and the binding of such parameters (term_bridge.rs:724-798, 1312-1353)
and the public form of instance attributes (term_bridge.rs:694-722) never apply.  Type variables are kept,
the case `instantiate_type_vars` is left out, and so are the names for arbitrary elements.  Types of
variables carry the name of their type variable, not its typeclass.  A panic is `none`.
-/
import Verif.Model.Lowering
import Verif.Model.Typing
import Verif.Model.Normalize
import Verif.Model.Clause
namespace Acorn
namespace Elab

/-- The tables that quoting reads: `TypeStore::ground_id_to_type` and `id_to_typeclass` (type_store.rs:806,
950), `try_name_for_global_id` and `try_name_for_local_id` with the made-up names for symbols without one
(term_bridge.rs:303-310, 336-343), `get_polymorphic_info` (the names of the type parameters and the generic
type) and `get_match_eliminator_info` (the constructors; by the name of the eliminator, since names are
looked up again, term_bridge.rs:612-619). -/
structure Names where
  ground : Nat × Nat → Option Ty
  typeclass : Nat × Nat → Option String
  const : Symbol → String
  poly : String → Option (List String × Ty)
  eliminator : String → Option (List Symbol)

/-- The name of a type variable: the given one, or `T` and its number (term_bridge.rs:1535-1547,
type_store.rs:1134-1143). -/
def varName (tn : Nat → Option String) (i : Nat) : String := (tn i).getD ("T" ++ toString i)

/-! ### Types -/

mutual

/-- `quote_type_with_context_remapped` (term_bridge.rs:1525-1634) with
`quote_dependent_type_application_with_remapping` (term_bridge.rs:60-122) and, for the rest,
`type_term_to_acorn_type_with_context` (type_store.rs:975-1168).  Simplified: a datatype with the wrong
number of arguments is an error.  Of the context only its length counts, for the fresh variables. -/
def quoteType (K : KCtx) (N : Names) (tn : Nat → Option String) : Nat → Nat → Term → Option Ty
  | 0, _, _ => none
  | k + 1, n, T =>
    match T with
    | .fvar i => some (.tvar (varName tn i))
    | .sym .bool => some .bool
    | .sym .type0 => some .type0
    | .sym (.type m l) => N.ground (m, l)
    | .sym (.typeclass m l) => (N.typeclass (m, l)).map .constraint
    | .bind .pi A B => do
      let (as, r) ← quotePi K N tn k n (.bind .pi A B)
      pure (if as.isEmpty then r else .fn as r)
    | .app f a =>
      match (Term.app f a).spineHead with
      | .sym (.type m l) =>
        if (K.paramKinds (m, l)).length = (Term.app f a).args.length then do
          let base ← N.ground (m, l)
          let as ← quoteTypes K N tn k n (Term.app f a).args
          match base with
          | .data d [] => pure (.data d as)
          | _ => none
        else none
      | _ => none
    | _ => none

/-- The loop over a function type (term_bridge.rs:1574-1597): the arguments, without type parameters, and
the result. -/
def quotePi (K : KCtx) (N : Names) (tn : Nat → Option String) : Nat → Nat → Term → Option (List Ty × Ty)
  | 0, _, _ => none
  | k + 1, n, T =>
    match T with
    | .bind .pi A B => do
      let a ← if A.isTypeParamKind then pure [] else do pure [← quoteType K N tn k n A]
      let B ← B.openBound (.fvar n)
      let (as, r) ← quotePi K N tn k (n + 1) B
      pure (a ++ as, r)
    | T => do
      let r ← quoteType K N tn k n T
      pure ([], r)

/-- Several types. -/
def quoteTypes (K : KCtx) (N : Names) (tn : Nat → Option String) : Nat → Nat → List Term → Option (List Ty)
  | 0, _, _ => none
  | _ + 1, _, [] => some []
  | k + 1, n, T :: Ts => do
    let t ← quoteType K N tn k n T
    let ts ← quoteTypes K N tn k n Ts
    pure (t :: ts)

end

/-! ### Variables -/

/-- `var_remapping`: for each variable of the context its position on the stack, `none` if it is left
out.  Without a remapping every variable has its own position. -/
abbrev Remap := Option (List (Option Nat))

/-- One more than the largest position. -/
def nextIndex (m : List (Option Nat)) : Nat := m.foldr (fun o n => max (o.elim 0 (· + 1)) n) 0

/-- `visible_stack_size` (term_bridge.rs:451-463). -/
def visibleSize (n : Nat) : Remap → Nat
  | some m => nextIndex m
  | none => n

/-- The remapping under a binder with the fresh variable `n` (term_bridge.rs:853-865). -/
def Remap.extend (n : Nat) : Remap → Remap
  | some m => some ((m ++ List.replicate (n + 1 - m.length) none).set n (some (nextIndex m)))
  | none => none

/-- The position of a variable (term_bridge.rs:379-389); `none` is the panic on a variable that is left
out. -/
def Remap.index (i : Nat) : Remap → Option Nat
  | none => some i
  | some m =>
    match m[i]? with
    | some o => o
    | none => some i

/-! ### Terms -/

/-- `is_syntactic_kind_term` (term_bridge.rs:465-481). -/
def isKindTerm : Term → Bool
  | .sym .type0 => true
  | .sym (.typeclass _ _) => true
  | .bind .pi A B => isKindTerm A && isKindTerm B
  | _ => false

/-- `is_syntactic_type_term` (term_bridge.rs:483-530).  Without families all parameters of a datatype are
types, so a datatype with all its arguments is treated like any application. -/
def isTypeTerm (Γ : LCtx) : Term → Bool
  | .sym (.type _ _) => true
  | .sym .bool => true
  | .sym .type0 => true
  | .sym (.typeclass _ _) => true
  | .fvar i => (Γ.get i).any Term.isTypeParamKind
  | .bvar _ => true
  | .app f a => isTypeTerm Γ f && isTypeTerm Γ a
  | .bind .pi _ _ => true
  | _ => false

/-- `reduce_head_lambda_application` (term_bridge.rs:810-823). -/
def reduceHead : Term → Option Term
  | .app (.bind .lam _ b) a => b.openBound a
  | .app f a => (reduceHead f).map fun f' => .app f' a
  | _ => none

/-- Variables of the given types at the stack positions from `n` on (term_bridge.rs:640-646, 1063-1071). -/
def stackVars : Nat → List Ty → List Value
  | _, [] => []
  | n, t :: ts => .var n t :: stackVars (n + 1) ts

/-- The variables for the missing arguments of an operation, and the arguments it has moved past them
(`shift_for_inserted_lambda`, term_bridge.rs:1063-1071). -/
def padArgs (n : Nat) (missing : List Ty) (vals : List Value) : List Value :=
  Value.insertStackAll n missing.length vals ++ stackVars n missing

/-- The quoted form of a logical operation (term_bridge.rs:1143-1293) from its type arguments and values;
`n` is the size of the stack.  A missing argument becomes that of a lambda. -/
def quoteLogical (n : Nat) : Symbol → List Ty → List Value → Option Value
  | .not_, [], [a] => some (.not a)
  | .not_, [], [] => some (.mkLam [.bool] (.not (.var n .bool)))
  | .and_, [], vs =>
    match padArgs n (List.replicate (2 - vs.length) .bool) vs with
    | [a, b] => some (.mkLam (List.replicate (2 - vs.length) .bool) (.bin .and a b))
    | _ => none
  | .or_, [], vs =>
    match padArgs n (List.replicate (2 - vs.length) .bool) vs with
    | [a, b] => some (.mkLam (List.replicate (2 - vs.length) .bool) (.bin .or a b))
    | _ => none
  | .eq_, [t], vs =>
    match padArgs n (List.replicate (2 - vs.length) t) vs with
    | [a, b] => some (.mkLam (List.replicate (2 - vs.length) t) (.bin .equals a b))
    | _ => none
  | .ite_, [t], vs =>
    match padArgs n ([.bool, t, t].drop vs.length) vs with
    | [c, a, b] => some (.mkLam ([.bool, t, t].drop vs.length) (.ite c a b))
    | _ => none
  | _, _, _ => none

/-- `is_logical`: the heads handled apart (term_bridge.rs:1009-1016). -/
def isLogical : Symbol → Bool
  | .not_ | .and_ | .or_ | .eq_ | .ite_ => true
  | _ => false

/-- A symbol as a constant (term_bridge.rs:302-366) with type arguments (`apply_type_args_to_constant`,
term_bridge.rs:415-449).  The type of a constant without type parameters is that of its symbol
(`quote_standalone_symbol_type`, term_bridge.rs:124-201). -/
def quoteConst (K : KCtx) (N : Names) (fuel : Nat) (s : Symbol) (tys : List Ty) : Option Value :=
  match N.poly (N.const s) with
  | some (names, g) =>
    if tys.isEmpty then some (.const (N.const s) [] g)
    else some (.const (N.const s) (tys.take names.length) (g.instantiate (names.zip tys)))
  | none => do
    let T ← K.symbolType s
    let t ← quoteType K N (fun _ => none) fuel 0 T
    pure (.const (N.const s) [] t)

/-- The cases of `maybe_reconstruct_match` (term_bridge.rs:601-665) with `instantiate_symbol_for_match`
(term_bridge.rs:532-599). -/
def quoteCases (K : KCtx) (N : Names) (fuel n : Nat) (tys : List Ty) (total : Nat) :
    Nat → List Symbol → List Value → Option (List Case)
  | _, [], [] => some []
  | i, s :: ss, b :: bs => do
    let c ← match N.poly (N.const s) with
      | some (names, g) => some (.const (N.const s) (tys.take names.length) (g.instantiate (names.zip tys)))
      | none => quoteConst K N fuel s []
    let vars := match c.getType with
      | some (.fn as _) => as
      | _ => []
    let r ← if vars.isEmpty then some b else (b.apply (stackVars n vars)).expandLambdas fuel n
    let rest ← quoteCases K N fuel n tys total (i + 1) ss bs
    pure (.mk vars (c.apply (stackVars n vars)) r i total :: rest)
  | _, _, _ => none

/-- The end of `quote_term` for a constant (term_bridge.rs:1296-1356). -/
def finishConst (K : KCtx) (N : Names) (fuel n : Nat) (s : Symbol) (tys : List Ty) (vals : List Value) :
    Option Value :=
  match N.eliminator (N.const s), vals with
  | some ss, scrutinee :: branches =>
    if branches.length = ss.length then do
      let cs ← quoteCases K N fuel n tys ss.length 0 ss branches
      pure (.match_ scrutinee cs)
    else do
      let c ← quoteConst K N fuel s tys
      pure (c.apply vals)
  | _, _ => do
    let c ← quoteConst K N fuel s tys
    pure (c.apply vals)

/-- A lambda over a lambda becomes one lambda (term_bridge.rs:878-884). -/
def mergeLam (a : Ty) : Value → Value
  | .lam ts w => .lam (a :: ts) w
  | w => .lam [a] w

/-- A `forall` over a `forall` becomes one `forall` (term_bridge.rs:923-929). -/
def mergeAll (a : Ty) : Value → Value
  | .all ts w => .all (a :: ts) w
  | w => .all [a] w

/-- An `exists` over an `exists` becomes one `exists` (term_bridge.rs:968-974). -/
def mergeEx (a : Ty) : Value → Value
  | .ex ts w => .ex (a :: ts) w
  | w => .ex [a] w

mutual

/-- `quote_term` (term_bridge.rs:799-1357).  `fuel` bounds the depth; with `reduce` a lambda applied to
arguments is reduced first. -/
def quoteTerm (K : KCtx) (N : Names) (tn : Nat → Option String) (reduce : Bool) :
    Nat → LCtx → Remap → Term → Option Value
  | 0, _, _, _ => none
  | k + 1, Γ, rm, t =>
    match (if reduce then reduceHead t else none) with
    | some t' => quoteTerm K N tn reduce k Γ rm t'
    | none =>
      match t with
      | .bind q A b => do
        let a ← quoteType K N tn k Γ.length A
        let b ← b.openBound (.fvar Γ.length)
        let v ← quoteTerm K N tn reduce k (Γ.pushTy A) (rm.extend Γ.length) b
        match q with
        | .lam => pure (mergeLam a v)
        | .all => pure (mergeAll a v)
        | .ex => pure (mergeEx a v)
        | .pi => none
      | t => quoteSpine K N tn reduce k Γ rm t.spineHead t.args

/-- The part of `quote_term` after the binders (term_bridge.rs:983-1357): an application of a lambda that is not
reduced, or an atom with arguments. -/
def quoteSpine (K : KCtx) (N : Names) (tn : Nat → Option String) (reduce : Bool) :
    Nat → LCtx → Remap → Term → List Term → Option Value
  | 0, _, _, _, _ => none
  | k + 1, Γ, rm, head, args =>
    match head with
    | .bind q A b => do
      let f ← quoteTerm K N tn reduce k Γ rm (.bind q A b)
      let vs ← quoteAll K N tn reduce k Γ rm args
      pure (f.apply vs)
    | .fvar i => do
      let T ← Γ.get i
      if T.isTypeParamKind then some (.bool true)
      else do
        let ty ← quoteType K N tn k Γ.length T
        let j ← rm.index i
        let (_, vs) ← quoteArgs K N tn reduce k Γ rm T args
        pure ((Value.var j ty).apply vs)
    | .sym s => do
      let T ← K.symbolType s
      if T.isTypeParamKind then some (.bool true)
      else do
        let (tys, vs) ← quoteArgs K N tn reduce k Γ rm T args
        match s with
        | .not_ | .and_ | .or_ | .eq_ | .ite_ => quoteLogical (visibleSize Γ.length rm) s tys vs
        | .true_ => pure ((Value.bool true).apply vs)
        | .false_ => pure ((Value.bool false).apply vs)
        | .global _ _ => finishConst K N k (visibleSize Γ.length rm) s tys vs
        | .scoped _ => finishConst K N k (visibleSize Γ.length rm) s tys vs
        | _ => none
    | _ => none

/-- The arguments of a lambda that is not reduced (term_bridge.rs:983-1006). -/
def quoteAll (K : KCtx) (N : Names) (tn : Nat → Option String) (reduce : Bool) :
    Nat → LCtx → Remap → List Term → Option (List Value)
  | 0, _, _, _ => none
  | _ + 1, _, _, [] => some []
  | k + 1, Γ, rm, a :: as => do
    let v ← quoteTerm K N tn reduce k Γ rm a
    let vs ← quoteAll K N tn reduce k Γ rm as
    pure (v :: vs)

/-- The loop over the arguments (term_bridge.rs:1073-1141): `R` is the type of what is applied.  An argument
is a type if a type is expected and it looks like one. -/
def quoteArgs (K : KCtx) (N : Names) (tn : Nat → Option String) (reduce : Bool) :
    Nat → LCtx → Remap → Term → List Term → Option (List Ty × List Value)
  | 0, _, _, _, _ => none
  | _ + 1, _, _, _, [] => some ([], [])
  | k + 1, Γ, rm, R, a :: as =>
    let R' := (R.typeApply a).getD R
    if R.splitPi.any (fun p => isKindTerm p.1) && isTypeTerm Γ a then do
      let t ← quoteType K N tn k Γ.length a
      let (ts, vs) ← quoteArgs K N tn reduce k Γ rm R' as
      pure (t :: ts, vs)
    else do
      let v ← quoteTerm K N tn reduce k Γ rm a
      let (ts, vs) ← quoteArgs K N tn reduce k Γ rm R' as
      pure (ts, v :: vs)

end

/-! ### Clauses -/

/-- `quote_literal` (term_bridge.rs:1359-1410). -/
def quoteLiteral (K : KCtx) (N : Names) (tn : Nat → Option String) (fuel : Nat) (Γ : LCtx) (rm : Remap)
    (l : Literal) : Option Value := do
  let a ← quoteTerm K N tn false fuel Γ rm l.left
  if l.right.isTrue then
    if l.positive then
      match l.left with
      | .bind .all _ _ => pure (.bin .equals a (.bool true))
      | .sym .false_ => pure (.bin .equals (.bool false) (.bool true))
      | _ => pure a
    else pure (.not a)
  else do
    let b ← quoteTerm K N tn false fuel Γ rm l.right
    pure (.bin (if l.positive then .equals else .notEquals) a b)

/-- The literals of a clause. -/
def quoteLiterals (K : KCtx) (N : Names) (tn : Nat → Option String) (fuel : Nat) (Γ : LCtx) (rm : Remap) :
    List Literal → Option (List Value)
  | [] => some []
  | l :: ls => do
    let v ← quoteLiteral K N tn fuel Γ rm l
    let vs ← quoteLiterals K N tn fuel Γ rm ls
    pure (v :: vs)

/-- The positions of the variables of a clause: values are numbered in order, type variables are left out
(term_bridge.rs:1425-1445). -/
def clauseRemap : Nat → LCtx → List (Option Nat)
  | _, [] => []
  | k, none :: Γ => none :: clauseRemap k Γ
  | k, some T :: Γ =>
    if T.isTypeParamKind then none :: clauseRemap k Γ else some k :: clauseRemap (k + 1) Γ

/-- The ids of the type variables of a clause (term_bridge.rs:1451-1460). -/
def typeVarIds : Nat → LCtx → List Nat
  | _, [] => []
  | i, none :: Γ => typeVarIds (i + 1) Γ
  | i, some T :: Γ => if T.isTypeParamKind then i :: typeVarIds (i + 1) Γ else typeVarIds (i + 1) Γ

/-- The types of the variables that are not left out (term_bridge.rs:1480-1505). -/
def quoteVarTypes (K : KCtx) (N : Names) (tn : Nat → Option String) (fuel n : Nat) : LCtx → Option (List Ty)
  | [] => some []
  | none :: Γ => quoteVarTypes K N tn fuel n Γ
  | some T :: Γ =>
    if T.isTypeParamKind then quoteVarTypes K N tn fuel n Γ
    else do
      let t ← quoteType K N tn fuel n T
      let ts ← quoteVarTypes K N tn fuel n Γ
      pure (t :: ts)

/-- The names given to the type variables of a clause, in order (term_bridge.rs:1447-1463). -/
def clauseNames (names : Option (List String)) (Γ : LCtx) (i : Nat) : Option String :=
  match names with
  | some ns => ((typeVarIds 0 Γ).zip ns).lookup i
  | none => none

/-- `quote_clause` (term_bridge.rs:1412-1508), with names for the type variables or without. -/
def quoteClause (K : KCtx) (N : Names) (names : Option (List String)) (fuel : Nat) (c : Clause) : Option Value :=
  if c.lits.isEmpty then some (.bool false)
  else do
    let tn := clauseNames names c.ctx
    let vs ← quoteLiterals K N tn fuel c.ctx (some (clauseRemap 0 c.ctx)) c.lits
    let d ← Value.reduce .or vs
    let ts ← quoteVarTypes K N tn fuel c.ctx.length c.ctx
    pure (Value.mkAll ts d)

end Elab
end Acorn
