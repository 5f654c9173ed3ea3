/-
What the checker is for: the clauses, signatures and interpretations for which it is sound.
-/
import Verif.Spec.Monomorphic
namespace Acorn
namespace Spec

universe u

/-- The term mentions no kind: it does not quantify over types. -/
def SortFree (t : Term) : Prop :=
  ∀ a ∈ t.atoms, a ≠ .sym .type0 ∧ ∀ m n, a ≠ .sym (.typeclass m n)

/-- A type with all its type parameters as arguments, none of them inside of another argument.  The types of
all constants of the language are of this form. -/
inductive RankOne : Term → Prop
  | small {T : Term} : SortFree T → RankOne T
  | kind {T : Term} : isKind T = true → RankOne T
  | pi {A B : Term} : SortFree A ∨ isKind A = true → RankOne B → RankOne (.pi A B)

/-- Constants have types of rank one. -/
def PlainSignature (K : KCtx) : Prop :=
  ∀ s T, isKindSym s = false → K.symbolType s = some T → RankOne T ∧ STyped K [] BCtx.nil T .isTy

/-- An equation between values of one type, or between types. -/
def LitPlain (K : KCtx) (Γ : LCtx) (l : Literal) : Prop :=
  ∃ T, (SHasType K [] T .type0 ∨ isKind T = true) ∧ SHasType K Γ l.left T ∧ SHasType K Γ l.right T

/-- A well-typed clause about values: the variables are values, and nothing quantifies over types. -/
structure PlainClause (K : KCtx) (c : Clause) : Prop where
  vars : ValueVars K c.ctx
  lits : ∀ l ∈ c.lits, LitPlain K c.ctx l
  noSorts : NoSorts c.lits

/-- Every closed type has an element. -/
def NoEmpty (K : KCtx) (M : Interp.{u}) : Prop :=
  ∀ T, SHasType K [] T .type0 → ∃ d, ∀ ρ β, M.mem d (eval M ρ β T)

end Spec
end Acorn
