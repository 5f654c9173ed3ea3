/-
What it means that a certificate is accepted.
-/
import Verif.Model.TraceChecker
import Verif.Spec.CheckerUse
import Verif.Spec.Matching
import Verif.Spec.BetaFree
namespace Acorn
namespace Spec

universe u

/-- A well-typed clause about values in which no function expression is applied. -/
structure TidyClause (K : KCtx) (c : Clause) : Prop where
  plain : PlainClause K c
  tidy : ∀ l ∈ c.lits, l.left.BetaFree ∧ l.right.BetaFree

/-- A well-typed claim: a well-typed clause, and values of the right types for some of its variables. -/
structure ClaimOk (K : KCtx) (c : Claim) : Prop where
  clause : TidyClause K c.clause
  map : ∀ i t, c.map.get i = some t → SortFree t ∧ ∃ T, c.clause.ctx.get i = some T ∧ SHasType K c.clause.ctx t T

/-- A well-typed witness declaration.  The existence claim has no arguments. -/
structure SatisfyOk (K : KCtx) (w : Satisfy) : Prop where
  claim : ClaimOk K w.justification
  bare : w.justification.map = []
  clauses : ∀ c ∈ w.specialized.toList ++ w.witnesses, TidyClause K c

/-- A well-typed step. -/
def StepOk (K : KCtx) (step : CertStep) : Prop :=
  match step.code with
  | .claim c _ => ClaimOk K c
  | .satisfy w => SatisfyOk K w

/-- The names of instance attributes are constants, of the right types. -/
structure AliasesOk (K : KCtx) (A : Aliases) : Prop where
  typed : AliasesTyped K A
  const : ∀ m l targs s, A.lookup m l targs = some s → isKindSym s = false

/-- All steps are about one signature and well typed. -/
def StepsOk (K : KCtx) (steps : List (TraceEnv × CertStep)) : Prop :=
  ∀ p ∈ steps, p.1.env.K = K ∧ AliasesOk K p.1.aliases ∧ StepOk K p.2

/-- The witnesses that the step declares are chosen well: if there is one, the declared one is one. -/
def Chosen (M : Interp.{u}) (step : CertStep) : Prop :=
  match step.code with
  | .claim _ _ => True
  | .satisfy w => ClauseTrue M w.justification.clause → ∀ c ∈ w.specialized.toList ++ w.witnesses, ClauseTrue M c

/-- An interpretation without empty types in which the clauses are true, which gives the instance
attributes their meaning and chooses the witnesses well. -/
structure Realizes (K : KCtx) (M : Interp.{u}) (cs : List Clause) (steps : List (TraceEnv × CertStep)) : Prop where
  satisfies : Satisfies K M cs
  aliases : ∀ p ∈ steps, AliasesHold M p.1.aliases
  chosen : ∀ p ∈ steps, Chosen M p.2

/-- The same step, where the claim has no arguments. -/
def bare (step : CertStep) : CertStep :=
  match step.code with
  | .claim c w => { step with code := .claim ⟨c.clause, []⟩ w }
  | .satisfy _ => step

/-- The general form of the claim of the step. -/
def generalForm (step : CertStep) : Clause :=
  match step.code with
  | .claim c _ => c.clause
  | .satisfy w => w.justification.clause

/-- The steps that make the general form of a claim known, although they need not check it. -/
def KeepsGeneral (step : CertStep) : Prop :=
  (∃ c, step.code = .claim c false) ∧
    (step.rule = .fact ∨ step.rule = .claim ∨ step.rule = .brIntro ∨ (step.rule = .br ∧ step.generic = true))

/-- Whenever the checker makes the general form of a claim known, then it would accept that form, or it has
the property `P`. -/
def Careful (P : Clause → Prop) : TraceState → List (TraceEnv × CertStep) → Prop
  | _, [] => True
  | st, (E, step) :: rest => ∀ st', st.checkStep E step = .done (some st') →
    (KeepsGeneral step → (∃ st', st.checkStep E (bare step) = .done (some st')) ∨ P (generalForm step)) ∧
    Careful P st' rest

/-- No step that keeps the general form of its claim gives arguments to the claim. -/
def NoArguments (steps : List (TraceEnv × CertStep)) : Prop :=
  ∀ p ∈ steps, KeepsGeneral p.2 → ∀ c w, p.2.code = .claim c w → c.map = []

end Spec
end Acorn
