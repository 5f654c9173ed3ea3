/-
Bound-variable manipulation: shift, substitute, open, escaping checks.
Panics of the Rust code are `none`.
-/
import Verif.Model.Term
namespace Acorn
namespace Term

/-- `Term::shift_bound` / `shift_bound_impl` (/repo/src/kernel/term.rs:2853-2935).  The Rust code
panics when an index would leave the `u16` range; indices are unbounded here, so only the underflow
panic remains, modelled as `none`.  (`shift_bound` returns the term unchanged for amount 0, which
agrees with running the helper with amount 0.) -/
def shift (cutoff : Nat) (amount : Int) : Term → Option Term
  | bvar i =>
    if cutoff ≤ i then
      let n : Int := (i : Int) + amount
      if 0 ≤ n then some (bvar n.toNat) else none
    else some (bvar i)
  | atom a => some (atom a)
  | app f a => do
    let f' ← shift cutoff amount f
    let a' ← shift cutoff amount a
    return app f' a'
  | bind b ty body => do
    let ty' ← shift cutoff amount ty
    let body' ← shift (cutoff + 1) amount body
    return bind b ty' body'

/-- `Term::substitute_bound_impl` (term.rs:2741-2834). -/
def substBoundAt (index : Nat) (r : Term) (depth : Nat) : Term → Option Term
  | bvar i => if i = index + depth then shift 0 depth r else some (bvar i)
  | atom a => some (atom a)
  | app f a => do
    let f' ← substBoundAt index r depth f
    let a' ← substBoundAt index r depth a
    return app f' a'
  | bind b ty body => do
    let ty' ← substBoundAt index r depth ty
    let body' ← substBoundAt index r (depth + 1) body
    return bind b ty' body'

/-- `Term::substitute_bound` (term.rs:2736-2738). -/
def substBound (index : Nat) (r t : Term) : Option Term := substBoundAt index r 0 t

/-- `Term::open_bound` (term.rs:2841-2845). -/
def openBound (body r : Term) : Option Term := do
  let lifted ← shift 0 1 r
  let s ← substBound 0 lifted body
  shift 0 (-1) s

/-- `Term::has_escaping_bound_variable_at_depth` (term.rs:2693-2729). -/
def escapesAt (depth : Nat) : Term → Bool
  | bvar i => decide (depth ≤ i)
  | atom _ => false
  | app f a => escapesAt depth f || escapesAt depth a
  | bind _ ty body => escapesAt depth ty || escapesAt (depth + 1) body

/-- `Term::has_escaping_bound_variable` (term.rs:2689-2691). -/
def escapes (t : Term) : Bool := escapesAt 0 t

/-- `TermRef::references_bound_at_depth` (term.rs:582-635). -/
def refsBoundAt (index depth : Nat) : Term → Bool
  | bvar i => i == index + depth
  | atom _ => false
  | app f a => refsBoundAt index depth f || refsBoundAt index depth a
  | bind _ ty body => refsBoundAt index depth ty || refsBoundAt index (depth + 1) body

/-- `TermRef::references_bound` (term.rs:578-580). -/
def refsBound (index : Nat) (t : Term) : Bool := refsBoundAt index 0 t

/-- `Term::replace_variable` / `replace_variable_impl` (term.rs:2292-2371): note that the
replacement is *not* shifted when going under binders. -/
def replaceVar (id : Nat) (value : Term) : Term → Term
  | fvar i => if i = id then value else fvar i
  | atom a => atom a
  | app f a => app (replaceVar id value f) (replaceVar id value a)
  | bind b ty body => bind b (replaceVar id value ty) (replaceVar id value body)

/-- `Term::replace_variables` (term.rs:2374-2387): one replacement after the other. -/
def replaceVars (t : Term) : List (Nat × Term) → Term
  | [] => t
  | (id, v) :: rest => replaceVars (replaceVar id v t) rest

/-- `abstract_free_var_as_bound_at_depth`, the local helper of `get_type_with_context` and
`checked_type_with_context` (term.rs:693-771 and 843-921). -/
def abstractVar (x depth : Nat) : Term → Term
  | fvar i => if i = x then bvar depth else fvar i
  | bvar i => if depth ≤ i then bvar (i + 1) else bvar i
  | atom a => atom a
  | app f a => app (abstractVar x depth f) (abstractVar x depth a)
  | bind b ty body => bind b (abstractVar x depth ty) (abstractVar x (depth + 1) body)

/-- `Term::convert_free_to_bound_at_depth` (term.rs:3026-3096). -/
def convertFreeToBoundAt (n depth : Nat) : Term → Term
  | fvar i => if i < n then bvar (depth + n - 1 - i) else fvar i
  | bvar i => if depth ≤ i then bvar (i + n) else bvar i
  | atom a => atom a
  | app f a => app (convertFreeToBoundAt n depth f) (convertFreeToBoundAt n depth a)
  | bind b ty body =>
    bind b (convertFreeToBoundAt n depth ty) (convertFreeToBoundAt n (depth + 1) body)

/-- `Term::convert_free_to_bound` (term.rs:3008-3010); `convert_free_to_bound_with_depth` with
`num_type_params == 0` returns the term unchanged (term.rs:3019-3021). -/
def convertFreeToBound (n : Nat) (t : Term) : Term :=
  if n = 0 then t else convertFreeToBoundAt n 0 t

end Term
end Acorn
