/-
Declaring witnesses.
-/
import Verif.Spec.TraceChecker
namespace Acorn

universe u

/-- The same interpretation, except that the symbol `k` means `v`. -/
def Interp.set (M : Interp.{u}) (k : Symbol) (v : M.D) : Interp.{u} :=
  { M with sym := fun s => if s = k then v else M.sym s }

namespace Spec
open Term

/-- The clause does not mention the symbol. -/
def Avoids (k : Symbol) (c : Clause) : Prop :=
  (∀ l ∈ c.lits, .sym k ∉ l.left.atoms ∧ .sym k ∉ l.right.atoms) ∧
    ∀ i T, c.ctx.get i = some T → .sym k ∉ T.atoms

/-- The type of functions of several arguments. -/
def arrows (As : List Term) (B : Term) : Term := As.foldr Term.pi B

/-- The first variables. -/
def firstVars (n : Nat) : List Term := (List.range n).map Term.fvar

/-- The declaration `let f(x1: A1, ..., xn: An) -> y: B satisfy { body(x1, ..., xn, y) }`.  It needs the
claim `forall(x1: A1, ..., xn: An) { exists(y: B) { body } }`, and makes known consequences of
`forall(x1: A1, ..., xn: An) { body(x1, ..., xn, f(x1, ..., xn)) }`. -/
structure DeclaresWitness (K : KCtx) (w : Satisfy) (As : List Term) (B body : Term) : Prop where
  const : (∃ m l, w.name = .global m l) ∨ ∃ l, w.name = .scoped l
  args : ∀ A ∈ As, SHasType K [] A .type0
  result : SHasType K [] B .type0
  type : K.symbolType w.name = some (arrows As B)
  typed : STyped K (As.map some) (BCtx.cons B BCtx.nil) body (.ty .boolTy)
  fresh : .sym w.name ∉ body.atoms
  claim : ∀ M : Interp.{u}, Lawful K M → NoEmpty K M → ClauseTrue M w.justification.clause →
    ClauseTrue M ⟨[⟨true, .ex B body, .tt⟩], As.map some⟩
  makes : ∀ M : Interp.{u}, Lawful K M → NoEmpty K M →
    ClauseTrue M ⟨[⟨true, inst 0 ((Term.sym w.name).apply (firstVars As.length)) body, .tt⟩], As.map some⟩ →
    ∀ c ∈ w.specialized.toList ++ w.witnesses, ClauseTrue M c

/-- The instance attributes have nothing to do with the symbol. -/
def AliasesAvoid (k : Symbol) (A : Aliases) : Prop :=
  ∀ m l n targs s, A.params m l = some n → A.lookup m l targs = some s →
    .global m l ≠ k ∧ s ≠ k ∧ ∀ t ∈ targs, .sym k ∉ t.atoms

/-- The clauses of a witness declaration. -/
def declared (step : CertStep) : List Clause :=
  match step.code with
  | .claim _ _ => []
  | .satisfy w => w.justification.clause :: (w.specialized.toList ++ w.witnesses)

/-- Each witness declaration introduces a new symbol: one that is not in the asserted clauses, nor in the
earlier declarations, nor used by instances. -/
structure FreshWitnesses (K : KCtx) (cs : List Clause) (steps : List (TraceEnv × CertStep)) : Prop where
  declares : ∀ p ∈ steps, ∀ w, p.2.code = .satisfy w → ∃ As B body, DeclaresWitness.{u} K w As B body
  schemes : ∀ p ∈ steps, ∀ w, p.2.code = .satisfy w → ∀ c sctx target, (sctx, target) ∈ K.schemes c →
    .sym w.name ∉ target.atoms ∧ ∀ i T, sctx.get i = some T → .sym w.name ∉ T.atoms
  asserted : ∀ p ∈ steps, ∀ w, p.2.code = .satisfy w → ∀ c ∈ cs, Avoids w.name c
  own : ∀ p ∈ steps, ∀ w, p.2.code = .satisfy w → Avoids w.name w.justification.clause
  aliases : ∀ p ∈ steps, ∀ w, p.2.code = .satisfy w → ∀ q ∈ steps, AliasesAvoid w.name q.1.aliases
  earlier : steps.Pairwise fun p q => ∀ w, q.2.code = .satisfy w → ∀ c ∈ declared p.2, Avoids w.name c

end Spec
end Acorn
