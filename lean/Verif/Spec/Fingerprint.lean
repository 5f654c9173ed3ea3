/-
What an index of terms must not lose.
-/
import Verif.Spec.Typing
import Verif.Model.Fingerprint
namespace Acorn
namespace Spec

open Term

/-- Every variable of `Γ` is replaced by a term over `Γ'` that has its type, and no variable is replaced
by a kind. -/
def WellTypedSubst (K : KCtx) (φ : Nat → Term) (Γ Γ' : LCtx) : Prop :=
  (∀ i T, Γ.get i = some T → HasType K Γ' (φ i) (sub φ bid T)) ∧ ∀ i, isKind (φ i) = false

/-- The two terms have a common instance.  Their variables are replaced independently. -/
def Unifiable (K : KCtx) (Γ1 : LCtx) (s : Term) (Γ2 : LCtx) (t : Term) : Prop :=
  ∃ Γ φ ψ, WellTypedSubst K φ Γ1 Γ ∧ WellTypedSubst K ψ Γ2 Γ ∧ sub φ bid s = sub ψ bid t

/-- No lambda or quantifier is applied, outside of binders. -/
def HeadsAtomic : Term → Prop
  | .atom _ => True
  | .bind _ _ _ => True
  | .app f a => (match f with | .bind _ _ _ => False | _ => True) ∧ HeadsAtomic f ∧ HeadsAtomic a

/-- The context lists variable types without dangling bound variables that only mention variables of the
context. -/
def ContextOk (Γ : LCtx) : Prop :=
  ∀ i T, Γ.get i = some T → T.escapes = false ∧ ∀ j, T.hasVar j = true → ∃ U, Γ.get j = some U

/-- Add entries one after the other; `none` if some call panics. -/
def addTerms {V : Type} (K : KCtx) : List (LCtx × Term × V) →
    Option (Fingerprint.Trees (List Fingerprint.Component) V)
  | [] => some .empty
  | (Γ, t, v) :: es => (addTerms K es).bind fun ts => Fingerprint.insertTerm K ts Γ t v

/-- Add literals one after the other. -/
def addLiterals {V : Type} (K : KCtx) : List (LCtx × Literal × V) →
    Option (Fingerprint.Trees (List Fingerprint.Component × List Fingerprint.Component) V)
  | [] => some .empty
  | (Γ, l, v) :: es => (addLiterals K es).bind fun ts => Fingerprint.insertLiteral K ts Γ l v

end Spec
end Acorn
