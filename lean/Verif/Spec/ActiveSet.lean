/-
What the steps of a proof search mean.
-/
import Verif.Model.ActiveSet
import Verif.Spec.TraceChecker
namespace Acorn
namespace Spec
open Active
open Passive (Step)

universe u

/-- What a step may depend on: facts (0), also the assumptions (1), also the negated goal (2). -/
def level : Truthiness → Nat
  | .factual => 0
  | .hypothetical => 1
  | .counterfactual => 2

/-- The clause of a step is well formed, and true if the step claims to depend on nothing above a level. -/
structure TrueUpTo (K : KCtx) (M : Interp.{u}) {R : Type} (n : Nat) (s : Step (Info R)) : Prop where
  plain : PlainClause K s.clause
  holds : level s.info.truth ≤ n → ClauseTrue M s.clause

/-- The literals of a clause have no beta redex and compare values, not types. -/
def Sharp (K : KCtx) (c : Clause) : Prop := ∀ l ∈ c.lits, l.left.BetaFree ∧ l.right.BetaFree ∧
  ∃ T, SHasType K [] T .type0 ∧ SHasType K c.ctx l.left T

/-- Naming a witness of a true existential clause gives a true clause: the new constant stands for a witness. -/
def OpensWell {R : Type} (E : Env R) (M : Interp.{u}) : Prop := ∀ id c t, E.opened id c = some t → PlainClause E.K c →
  PlainClause E.K t.clause ∧ (ClauseTrue M c → ClauseTrue M t.clause)

/-- What the theorems assume about the environment. -/
structure SoundEnv {R : Type} (E : Env R) (M : Interp.{u}) : Prop where
  lawful : Lawful E.K M
  inhabited : NoEmpty E.K M
  signature : PlainSignature E.K
  aliases : AliasesOk E.K E.aliases
  aliasesHold : AliasesHold M E.aliases
  opens : OpensWell E M

/-- The active sets that a search can have, with the steps activated so far. -/
inductive Grows {R : Type} (E : Env R) : ActiveSet R → List (Step (Info R)) → Prop
  | new : Grows E .new []
  | activate {a a' : ActiveSet R} {ss new : List (Step (Info R))} {s : Step (Info R)} :
      Grows E a ss → a.activate E s = some (new, a') → Grows E a' (ss ++ [s])

/-- The states that a proof search can reach, with all the steps it was given: the prover is given steps
(`add_steps`, prover.rs:988-995) and told to take the next one, in any order. -/
inductive Searches {R : Type} (P : Prover R) : State R → List (Step (Info R)) → Prop
  | new : Searches P ⟨.new P.setup, .new, none⟩ []
  | add {st : State R} {ins : List (Step (Info R))} (steps : List (Step (Info R)))
      {p : Passive.PassiveSet (Info R)} :
      Searches P st ins → noPanic (st.passive.push P.setup steps) = some p →
      Searches P { st with passive := p } (ins ++ steps)
  | next {st st' : State R} {ins : List (Step (Info R))} (shallow stop : Bool) :
      Searches P st ins → st.next P shallow = some (st', stop) → Searches P st' ins

/-- The end of a search names two waiting steps whose variables have different types. -/
def MixedEnd {R : Type} (f : Final R) : Prop := ∃ a b, f = .passive a b ∧ a.clause.ctx ≠ b.clause.ctx

end Spec
end Acorn
