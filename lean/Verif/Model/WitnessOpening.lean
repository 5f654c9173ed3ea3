/-
Naming the witness of an existential: /repo/src/prover/synthetic.rs and the parts of
/repo/src/kernel/clause.rs it uses.
-/
import Verif.Model.BoolReduce
namespace Acorn.Opening

/-- `positive_exists_reduction_impl` (clause.rs:1171-1208): the binder type and the body; the literal index is
always 0.  Outer `none`: the type computation panics. -/
def existsReduction (K : KCtx) (c : Clause) (allowObvious : Bool) : Option (Option (Term × Term)) :=
  match c.lits with
  | [l] =>
    match Term.getType K c.ctx l.left with
    | none => none
    | some T =>
      if T ≠ .boolTy then some none
      else if !l.right.isTrue || !l.positive then some none
      else if !allowObvious && l.left.obviousWitness.isSome then some none
      else
        match l.left with
        | .bind .ex A body => some (some (A, body))
        | _ => some none
  | _ => some none

/-- The order of the arguments of a witness (synthetic.rs:172-186): type parameters first. -/
def hoistOrder (Γ : LCtx) : List Nat :=
  let params := (List.range Γ.length).filter fun i => (Γ.get i).any Term.isTypeParamKind
  params ++ (List.range Γ.length).filter fun i => !params.contains i

/-- The loop of `witness_symbol_type` (synthetic.rs:279-285), for the variables below `i`. -/
def wrapPis (H : LCtx) : Nat → Term → Option Term
  | 0, r => some r
  | i + 1, r => do
    let T ← H.get i
    wrapPis H i (.pi (T.convertFreeToBound i) r)

/-- `witness_symbol_type` (synthetic.rs:276-287). -/
def witnessType (H : LCtx) (R : Term) : Option Term :=
  wrapPis H H.length (R.convertFreeToBound H.length)

/-- What opening gives: the type of the new constant, the witness, the literal that replaces the existential,
and the normalized clause. -/
structure Opened where
  type : Term
  witness : Term
  literal : Literal
  trace : Trace

/-- `open_positive_exists` (synthetic.rs:157-249) for a new constant `s`.  The registration of source-level names and
types (synthetic.rs:197-211, 236-243) is not modelled. -/
def openPositiveExists (c : Clause) (A body : Term) (s : Symbol) : Option Opened := do
  let order := hoistOrder c.ctx
  let H ← c.ctx.remap order
  let R ← A.renumber order
  let _ ← body.renumber order
  let T ← witnessType H R
  let w := (Term.sym s).apply (order.map Term.fvar)
  if w.escapes then none
  else do
    let b ← Term.openBound body w
    let t ← normalizeBoolReduction (replaceLit c.lits 0 [Literal.pos b]) c.ctx c.ctx.length
    return ⟨T, w, Literal.pos b, t⟩

/-- The scoped constants of the symbol table (`scoped_constant_types`, symbol_table.rs:577-583), after adding one
more: `add_constant` gives it the next number. -/
def declare (K : KCtx) (n : Nat) (T : Term) : KCtx :=
  { K with scopedType := fun i => if i = n then some T else K.scopedType i }

end Acorn.Opening
