/-
What naming a witness means.
-/
import Verif.Model.WitnessOpening
import Verif.Spec.Witness
import Verif.Spec.Clausifier
namespace Acorn.Spec

open Opening

universe u

/-- The scoped constant `n` is new: it is not declared, and the declarations do not mention it. -/
structure Undeclared (K : KCtx) (n : Nat) : Prop where
  none : K.scopedType n = none
  types : ∀ s T, isKindSym s = false → K.symbolType s = some T → .sym (.scoped n) ∉ T.atoms
  schemes : ∀ c sctx target, (sctx, target) ∈ K.schemes c →
    .sym (.scoped n) ∉ target.atoms ∧ ∀ i T, sctx.get i = some T → .sym (.scoped n) ∉ T.atoms

/-- The declarations mention no undeclared scoped constants. -/
def WellDeclared (K : KCtx) : Prop := ∀ n, K.scopedType n = none → Undeclared K n

/-- The two interpretations differ at most in the scoped constants that are not declared. -/
structure Expands (K : KCtx) (M M' : Interp.{u}) : Prop where
  same : ∃ f : Symbol → M.D, M' = { M with sym := f } ∧ ∀ s, (∀ n, s = .scoped n → K.scopedType n ≠ none) → f s = M.sym s

/-- The signature and the clauses that a search has after some steps.  It starts with the clauses `cs`; an inference adds a
clause about the declared constants that is true in every interpretation that satisfies the clauses so far; opening
an existential clause declares a new constant. -/
inductive Derives (K : KCtx) (cs : List Clause) : KCtx → List Clause → Prop
  | start : Derives K cs K cs
  | infer {K' : KCtx} {ds : List Clause} {d : Clause} : Derives K cs K' ds → PlainClause K' d →
    (∀ M : Interp.{u}, Lawful K' M → NoEmptyTypes M → (∀ c ∈ ds, ClauseTrue M c) → ClauseTrue M d) →
    Derives K cs K' (d :: ds)
  | openExists {K' : KCtx} {ds : List Clause} {c : Clause} {A body : Term} {n : Nat} {o : Opened} : Derives K cs K' ds →
    c ∈ ds → existsReduction K' c false = some (some (A, body)) → K'.scopedType n = none →
    openPositiveExists c A body (.scoped n) = some o → Derives K cs (declare K' n o.type) (o.trace.clause :: ds)

end Acorn.Spec
