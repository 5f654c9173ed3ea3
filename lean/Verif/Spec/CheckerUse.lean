/-
What the answers of a checker should mean.
-/
import Verif.Spec.Checker
import Verif.Model.CheckerRun
namespace Acorn
namespace Spec

universe u

/-- The clauses a sequence of calls asserts. -/
def asserted : List (CheckEnv × Request) → List Clause
  | [] => []
  | (_, .insert c _) :: h => c :: asserted h
  | (_, .insertNormalized c _) :: h => c :: asserted h
  | (_, .insertTrace c _) :: h => c :: asserted h
  | _ :: h => asserted h

/-- What is required of a call: a well-typed clause, which is normalized if the method demands it. -/
def CallOk (K : KCtx) (env : CheckEnv) : Request → Prop
  | .insert c _ => PlainClause K c
  | .insertNormalized c _ => PlainClause K c ∧ Checker.normal env c = .done c
  | .insertTrace c _ => PlainClause K c
  | .setEager _ => True
  | .enableEager => True
  | .check c => PlainClause K c
  | .checkTrace c => PlainClause K c

/-- All calls are about one signature and meet their requirements. -/
def CallsOk (K : KCtx) (h : List (CheckEnv × Request)) : Prop :=
  ∀ p ∈ h, p.1.K = K ∧ CallOk K p.1 p.2

/-- The interpretations without empty types in which all of the clauses are true. -/
structure Satisfies (K : KCtx) (M : Interp.{u}) (cs : List Clause) : Prop where
  lawful : Lawful K M
  noEmpty : NoEmpty K M
  truth : ∀ c ∈ cs, ClauseTrue M c

end Spec
end Acorn
