/-
What matching and specialization should achieve.
-/
import Verif.Model.VariableMap
import Verif.Spec.Clauses
namespace Acorn
namespace Spec

universe u

/-- The same term, except that the two sides of some equality terms may be swapped. -/
inductive EqSwap : Term → Term → Prop
  | atom (a : Atom) : EqSwap (.atom a) (.atom a)
  | app {f g a b : Term} : EqSwap f g → EqSwap a b → EqSwap (.app f a) (.app g b)
  | bind {A A' B B' : Term} (c : Binder) : EqSwap A A' → EqSwap B B' →
      EqSwap (.bind c A B) (.bind c A' B')
  | swap {T T' a a' b b' : Term} : EqSwap T T' → EqSwap a b' → EqSwap b a' →
      EqSwap (.eq T a b) (.eq T' a' b')

/-- A map keeps what another map says. -/
def Extends (m m' : VMap) : Prop := ∀ i t, m.get i = some t → m'.get i = some t

/-- No replacement term has a dangling bound variable. -/
def MapClosed (m : VMap) : Prop := ∀ i t, m.get i = some t → t.escapes = false

/-- The assignment that gives each mapped variable the value of its replacement. -/
def Through (M : Interp.{u}) (m : VMap) (ρ β : Nat → M.D) : Nat → M.D :=
  fun i => match m.get i with
    | some t => eval M ρ β t
    | none => ρ i

/-- The replacement of each mapped variable has the type of the variable, after replacement, in the
context `Δ`, and the other variables keep their types. -/
def MapTyped (K : KCtx) (m : VMap) (Γ Δ : LCtx) : Prop :=
  ∀ i T, Γ.get i = some T →
    match m.get i with
    | some t => SHasType K Δ t (m.apply T)
    | none => Δ.get i = some (m.apply T)

/-- Each instance alias denotes the attribute at its type arguments. -/
def AliasesHold (M : Interp.{u}) (A : Aliases) : Prop :=
  ∀ m l n targs s, A.params m l = some n → targs.length = n → A.lookup m l targs = some s →
    ∀ ρ β, eval M ρ β ((Term.sym (.global m l)).apply targs) = M.sym s

/-- Each instance alias has the type of the attribute at its type arguments, and is a value, not a
type. -/
def AliasesTyped (K : KCtx) (A : Aliases) : Prop :=
  ∀ m l n targs s, A.params m l = some n → targs.length = n → A.lookup m l targs = some s →
    ∀ Γ Δ J, STyped K Γ Δ ((Term.sym (.global m l)).apply targs) J →
      STyped K Γ Δ (.sym s) J ∧ ∃ T, J = .ty T ∧ endsKind T = false

end Spec
end Acorn
