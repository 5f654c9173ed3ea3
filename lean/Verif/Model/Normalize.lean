/-
Term normalization.
Models /repo/src/kernel/term_normalization.rs.
-/
import Verif.Model.Bound
import Verif.Model.Order
namespace Acorn
namespace Term

/-- The non-application at the head of the spine, first component of `split_application_multi`
(/repo/src/kernel/term.rs:484-502); the second component is `args`. -/
def spineHead : Term → Term
  | app f _ => f.spineHead
  | t => t

/-- The components of the flat representation as number lists, so that comparing them
lexicographically is the derived `Ord` of `TermComponent` (term.rs:22-59).  The right offset is an
unbounded number here; by `C01_*` this is the stored 16-bit value for terms that fit. -/
def flatCode : Term → List (List Nat)
  | atom a => [5 :: a.code]
  | app f a => [0, 1 + f.size] :: (f.flatCode ++ a.flatCode)
  | bind .pi a b => [1, 1 + a.size] :: (a.flatCode ++ b.flatCode)
  | bind .lam a b => [2, 1 + a.size] :: (a.flatCode ++ b.flatCode)
  | bind .all a b => [3, 1 + a.size] :: (a.flatCode ++ b.flatCode)
  | bind .ex a b => [4, 1 + a.size] :: (a.flatCode ++ b.flatCode)

/-- The derived `left <= right` of `Term` (term.rs:1609-1612). -/
def flatLe (s t : Term) : Bool := (compare s.flatCode t.flatCode).isLE

/-- `split_symbol_application` (term_normalization.rs:22-31). -/
def splitSym (t : Term) (s : Symbol) (arity : Nat) : Option (List Term) :=
  match t with
  | app f a =>
    if (app f a).args.length = arity ∧ (app f a).spineHead.headAtom = .sym s then
      some (app f a).args
    else none
  | _ => none

/-- `beta_reduce_head_lambda_application` (term_normalization.rs:95-104): outer `none` is "does not
apply", the inner option is the possible panic of `open_bound`. -/
def betaHead : Term → Option (Option Term)
  | app (lam _ body) a => some (openBound body a)
  | _ => none

/-- `eta_reduce_single_lambda` (term_normalization.rs:106-121); options as in `betaHead`. -/
def etaHead : Term → Option (Option Term)
  | lam _ (app f a) =>
    match (app f a).args.getLast? with
    | none => none
    | some last =>
      let pre := (app f a).args.dropLast
      let fn := (app f a).spineHead
      if last ≠ bvar 0 then none
      else if fn.refsBound 0 then none
      else if pre.any (fun x => x.refsBound 0) then none
      else some (shift 1 (-1) (fn.apply pre))
  | _ => none

/-- `cancel_double_negation` (term_normalization.rs:123-127). -/
def cancelNotNot (t : Term) : Option Term :=
  match splitSym t .not_ 1 with
  | some [x] =>
    match splitSym x .not_ 1 with
    | some [y] => some y
    | _ => none
  | _ => none

/-- The test `already_ordered` of `normalize_fully_applied_eq` (term_normalization.rs:134-137). -/
def eqOrdered (l r : Term) : Bool :=
  match l.atomicVariable, r.atomicVariable with
  | some i, some j => decide (i ≤ j)
  | _, _ => flatLe l r

/-- `normalize_fully_applied_eq` (term_normalization.rs:129-142). -/
def orientEq (t : Term) : Option Term :=
  match splitSym t .eq_ 3 with
  | some [ty, l, r] => if eqOrdered l r then none else some (eq ty r l)
  | _ => none

/-- `normalize_term_children` and `beta_reduce_term_children` (term_normalization.rs:33-62, 64-93):
apply the recursive call to the two children, if any. -/
def mapChildren (g : Term → Option Term) : Term → Option Term
  | atom a => some (atom a)
  | app f a => do
    let f' ← g f
    let a' ← g a
    return app f' a'
  | bind b ty body => do
    let ty' ← g ty
    let body' ← g body
    return bind b ty' body'

/-- `beta_reduce_subterms` (term_normalization.rs:64-93, 145-151).  The Rust recursion need not
terminate, so there is fuel; `none` is "out of fuel" or a panic. -/
def betaReduce : Nat → Term → Option Term
  | 0, _ => none
  | n + 1, t => do
    let t' ← mapChildren (betaReduce n) t
    match betaHead t' with
    | some r => betaReduce n (← r)
    | none => some t'

/-- `normalize_term` (term_normalization.rs:33-62, 197-207), with fuel as in `betaReduce`. -/
def normalizeTerm : Nat → Term → Option Term
  | 0, _ => none
  | n + 1, t => do
    let t' ← mapChildren (normalizeTerm n) t
    match betaHead t' with
    | some r => normalizeTerm n (← r)
    | none =>
      match etaHead t' with
      | some r => normalizeTerm n (← r)
      | none =>
        let t'' := (cancelNotNot t').getD t'
        some ((orientEq t'').getD t'')

theorem size_args_lt {t : Term} {s : Symbol} {n : Nat} {as : List Term}
    (h : splitSym t s n = some as) : ∀ a ∈ as, a.size < t.size := by
  intro a ha
  cases t with
  | atom _ => simp [splitSym] at h
  | bind _ _ _ => simp [splitSym] at h
  | app f x =>
    simp only [splitSym] at h
    split at h
    · cases h; exact size_args _ a ha
    · cases h

/-- `normalize_clause_term_with_polarity` (term_normalization.rs:214-297).  All recursive calls are
on strictly smaller terms; the first argument bounds the size, so its `0` case is never reached by
`normPol` below. -/
def normPolAux : Nat → Term → Bool → Term
  | 0, t, _ => t
  | n + 1, t, positive =>
    match splitSym t .not_ 1 with
    | some [x] => normPolAux n x (!positive)
    | _ =>
      match splitSym t .and_ 2 with
      | some [x, y] =>
        if positive then and (normPolAux n x positive) (normPolAux n y positive)
        else or (normPolAux n x positive) (normPolAux n y positive)
      | _ =>
        match splitSym t .or_ 2 with
        | some [x, y] =>
          if positive then or (normPolAux n x positive) (normPolAux n y positive)
          else and (normPolAux n x positive) (normPolAux n y positive)
        | _ =>
          match t with
          | bind .all ty body =>
            let ty' := normPolAux n ty true
            let body' := normPolAux n body positive
            if positive then all ty' body' else ex ty' body'
          | bind .ex ty body =>
            let ty' := normPolAux n ty true
            let body' := normPolAux n body positive
            if positive then ex ty' body' else all ty' body'
          | atom a => if positive then atom a else not (atom a)
          | app f a =>
            let r := app (normPolAux n f true) (normPolAux n a true)
            let r := (orientEq r).getD r
            if positive then r else not r
          | bind b ty body =>
            let r := bind b (normPolAux n ty true) (normPolAux n body true)
            if positive then r else not r

/-- `normalize_clause_term_with_polarity` with enough steps for the term. -/
def normPol (t : Term) (positive : Bool) : Term := normPolAux t.size t positive

/-- `normalize_clause_term` (term_normalization.rs:300-302). -/
def normClauseTerm (t : Term) : Term := normPol t true

/-- `normalize_signed_clause_term` (term_normalization.rs:306-318); first argument as in
`normPolAux`. -/
def normSignedAux : Nat → Term → Bool → Term × Bool
  | 0, t, positive => (t, positive)
  | n + 1, t, positive =>
    match splitSym t .not_ 1 with
    | some [x] => normSignedAux n x (!positive)
    | _ =>
      match splitSym t .or_ 2 with
      | some [x, y] => (and (normPol x false) (normPol y false), !positive)
      | _ => (normClauseTerm t, positive)

/-- `normalize_signed_clause_term` with enough steps for the term. -/
def normSigned (t : Term) (positive : Bool) : Term × Bool := normSignedAux t.size t positive

end Term
end Acorn
