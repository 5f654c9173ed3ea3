/-
What it means for a statement to be lowered correctly.
-/
import Verif.Spec.Clauses
import Verif.Model.Clausifier
namespace Acorn
namespace Spec

universe u

/-- Every type has an element.  (Kinds such as a typeclass may be empty.) -/
def NoEmptyTypes (M : Interp.{u}) : Prop := ∀ T, M.mem T (vtype0 M) → ∃ d, M.mem d T

/-- The type variables of a statement: variables `0 … n-1` whose types are kinds. -/
def TypeVars (tyvars : List Term) : LCtx := tyvars.map some

/-- The leading universal quantifiers of a statement range over values, not over types. -/
def QuantifiesValues : Term → Prop
  | .bind .all A b => endsKind A = false ∧ QuantifiesValues b
  | _ => True

/-- The statement, without its leading universal quantifiers, is an equation with a match on one side:
the head of that side is a match eliminator with a scrutinee and all cases.  Such statements, which come
from definitions by cases, are lowered to one clause or more for each case. -/
def EqualsMatch (K : Clausify.Kernel) : Term → Bool
  | .bind .all _ b => EqualsMatch K b
  | t =>
    match t.splitSym .eq_ 3 with
    | some [_, l, r] => (Clausify.splitMatch K l).isSome || (Clausify.splitMatch K r).isSome
    | _ => false

/-- A statement is true when its value is `true` for all values of its variables. -/
def StatementTrue (M : Interp.{u}) (Γ : LCtx) (t : Term) : Prop :=
  ∀ ρ, Models M Γ ρ → ∀ β, eval M ρ β t = vtt M

/-- All clauses are true. -/
def ClausesTrue (M : Interp.{u}) (cs : List Clause) : Prop := ∀ c ∈ cs, ClauseTrue M c

end Spec
end Acorn
