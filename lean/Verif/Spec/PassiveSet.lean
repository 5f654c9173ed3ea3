/-
What the properties of the passive set are stated with.
-/
import Verif.Model.PassiveSet
import Verif.Spec.Checker
import Verif.Spec.Clauses
namespace Acorn
namespace Passive

universe u
variable {R : Type}

/-- The step with number `id` waits, with this score. -/
def PassiveSet.Waits (p : PassiveSet R) (id : Nat) (s : Step R) (sc : Score) : Prop :=
  p.clauses[id]? = some (some (s, sc))

/-- Some waiting step has this clause. -/
def PassiveSet.Has (p : PassiveSet R) (c : Clause) : Prop := ∃ id s sc, p.Waits id s sc ∧ s.clause = c

/-- The steps by number; `none` where the step does not wait any more. -/
def PassiveSet.steps (p : PassiveSet R) : List (Option (Step R)) := p.clauses.map (Option.map Prod.fst)

/-- Every type of the context is reported to be inhabited. -/
def Inhabits (S : Setup R) (Γ : LCtx) : Prop := ∀ T, some T ∈ Γ → S.inhabited Γ T = true

/-- Two steps with a single literal each, the same one with opposite signs, about types that are reported to
be inhabited. -/
def Clash (S : Setup R) (a b : Step R) : Prop :=
  ∃ l : Literal, a.clause.lits = [l] ∧ b.clause.lits = [⟨!l.positive, l.left, l.right⟩] ∧
    Inhabits S a.clause.ctx ∧ Inhabits S b.clause.ctx

/-- An operation the prover may call: the steps that simplify have one literal, and the index returns what
it found in some order. -/
def Op.Ok : Op R → Prop
  | .simplify order act => act.clause.lits.length = 1 ∧ ∀ l, (order l).Perm l
  | _ => True

/-- A state the prover can reach from an empty passive set. -/
def Reachable (S : Setup R) (p : PassiveSet R) : Prop :=
  ∃ os popped, (∀ o ∈ os, Op.Ok o) ∧ (PassiveSet.new S).run S os = .ok (p, popped)

/-- One score is better than another: it is for a contradiction and the other is not; or that is the same
and the tier is higher; or that is the same too and the value is higher. -/
def Score.Better (a b : Score) : Prop :=
  (a.contradiction = true ∧ b.contradiction = false) ∨
    (a.contradiction = b.contradiction ∧ (b.tier < a.tier ∨ (a.tier = b.tier ∧ b.value < a.value)))

/-- For the depth-first pops: the value of the score does not count, the newest step does. -/
def NewerOrHigher (a : Score) (i : Nat) (b : Score) (j : Nat) : Prop :=
  (a.contradiction = true ∧ b.contradiction = false) ∨
    (a.contradiction = b.contradiction ∧ (b.tier < a.tier ∨ (a.tier = b.tier ∧ j < i)))

/-- All waiting clauses are true. -/
def PassiveSet.AllTrue (p : PassiveSet R) (M : Interp.{u}) : Prop := ∀ c, p.Has c → Spec.ClauseTrue M c

/-- All waiting clauses are well typed and about values. -/
def PassiveSet.AllPlain (p : PassiveSet R) (K : KCtx) : Prop := ∀ c, p.Has c → Spec.PlainClause K c

/-- Every type is reported to be inhabited. -/
def AllInhabited (S : Setup R) : Prop := ∀ Γ T, S.inhabited Γ T = true

/-- The next pop goes by age: it is one of every so many. -/
def DepthFirst (S : Setup R) (p : PassiveSet R) : Prop := ∃ n, S.period = some n ∧ (p.popCount + 1) % n = 0

/-- The clauses an operation brings from outside: the pushed ones, or the one to simplify with. -/
def Op.Uses : Op R → Clause → Prop
  | .push steps, c => ∃ s ∈ steps, s.clause = c
  | .simplify _ act, c => act.clause = c
  | _, _ => False

/-- The reports are right: a type that is reported to be inhabited has an element. -/
def ReportsHold (S : Setup R) (M : Interp.{u}) : Prop :=
  ∀ Γ T, S.inhabited Γ T = true → ∃ d, ∀ ρ β, M.mem d (eval M ρ β T)

/-- A step made by simplifying another one: it has the normal form of some of the literals, at least one less;
it is not an assumption; it counts as a goal if the other does; and its premises are the other step and the
activated one. -/
def SimplifiedFrom (S : Setup R) (act s n : Step R) : Prop :=
  ∃ ks t, ks.Sublist s.clause.lits ∧ ks.length < s.clause.lits.length ∧
    Clause.normalizeWithTrace ⟨ks, s.clause.ctx⟩ = some t ∧
    n = ⟨t.clause, false, s.negatedGoal, S.combine s.info act.info t.clause⟩

/-- A waiting step, or one made from it in one or more rounds. -/
inductive Origin (S : Setup R) (p : PassiveSet R) (act : Step R) : Step R → Prop
  | waits {id : Nat} {s : Step R} {sc : Score} : p.Waits id s sc → Origin S p act s
  | simp {s n : Step R} : Origin S p act s → SimplifiedFrom S act s n → Origin S p act n

end Passive
end Acorn
