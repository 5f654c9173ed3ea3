/-
What unification should achieve.
-/
import Verif.Model.Unifier
import Verif.Spec.Matching
namespace Acorn
namespace Spec

/-- The same term, except that the two sides of some equality terms may be swapped, and that a typeclass
may stand where the other term has the sort `Type0`. -/
inductive Unified : Term → Term → Prop
  | atom (a : Atom) : Unified (.atom a) (.atom a)
  | classType (m l : Nat) : Unified (.atom (.sym (.typeclass m l))) (.atom (.sym .type0))
  | typeClass (m l : Nat) : Unified (.atom (.sym .type0)) (.atom (.sym (.typeclass m l)))
  | app {f g a b : Term} : Unified f g → Unified a b → Unified (.app f a) (.app g b)
  | bind {A A' B B' : Term} (c : Binder) : Unified A A' → Unified B B' →
      Unified (.bind c A B) (.bind c A' B')
  | swap {T T' a a' b b' : Term} : Unified T T' → Unified a b' → Unified b a' →
      Unified (.eq T a b) (.eq T' a' b')

/-- An instance of a pattern: the same term, except that `Type0` in the pattern may be a typeclass. -/
inductive InstanceOf : Term → Term → Prop
  | atom (a : Atom) : InstanceOf (.atom a) (.atom a)
  | typeClass (m l : Nat) : InstanceOf (.atom (.sym .type0)) (.atom (.sym (.typeclass m l)))
  | app {f g a b : Term} : InstanceOf f g → InstanceOf a b → InstanceOf (.app f a) (.app g b)
  | bind {A A' B B' : Term} (c : Binder) : InstanceOf A A' → InstanceOf B B' →
      InstanceOf (.bind c A B) (.bind c A' B')

/-- The unifiers that a program can hold: a new one, or one made from a closed map, followed by any
calls, successful or not, with any amount of fuel. -/
inductive UReach (K : KCtx) : UState → Prop
  | init (inputs : Nat → Option LCtx) : UReach K (Unifier.init inputs)
  | withMap (m : VMap) (out : LCtx) : MapClosed m → UReach K (Unifier.withMap m out)
  | setInput {st : UState} (s : Nat) (Γ : LCtx) : UReach K st →
      UReach K { st with inputs := fun s' => if s' = s then some Γ else st.inputs s' }
  | apply {st st' : UState} {n s : Nat} {t t' : Term} : UReach K st →
      Unifier.apply n st s t = some (t', st') → UReach K st'
  | unify {st st' : UState} {n s1 s2 : Nat} {t1 t2 : Term} {b : Bool} : UReach K st →
      Unifier.unify K n st s1 t1 s2 t2 = some (b, st') → UReach K st'
  | matchInst {st st' : UState} {n s1 s2 : Nat} {t1 t2 : Term} {b : Bool} : UReach K st → s1 ≠ 0 →
      Unifier.matchInst K n st s1 t1 s2 t2 = some (b, st') → UReach K st'

/-- One unifier is a later state of another one, after any calls. -/
inductive ULater (K : KCtx) : UState → UState → Prop
  | refl (st : UState) : ULater K st st
  | setInput {st st1 : UState} (s : Nat) (Γ : LCtx) : ULater K st st1 →
      ULater K st { st1 with inputs := fun s' => if s' = s then some Γ else st1.inputs s' }
  | apply {st st1 st' : UState} {n s : Nat} {t t' : Term} : ULater K st st1 →
      Unifier.apply n st1 s t = some (t', st') → ULater K st st'
  | unify {st st1 st' : UState} {n s1 s2 : Nat} {t1 t2 : Term} {b : Bool} : ULater K st st1 →
      Unifier.unify K n st1 s1 t1 s2 t2 = some (b, st') → ULater K st st'
  | matchInst {st st1 st' : UState} {n s1 s2 : Nat} {t1 t2 : Term} {b : Bool} : ULater K st st1 → s1 ≠ 0 →
      Unifier.matchInst K n st1 s1 t1 s2 t2 = some (b, st') → ULater K st st'

end Spec
end Acorn
