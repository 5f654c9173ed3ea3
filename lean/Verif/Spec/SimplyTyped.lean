/-
The part of the type system in which types do not mention values.

Several operations of the kernel rewrite inside terms.  A family such as `Fin[n]` has types that
mention values, and the kernel compares types symbol by symbol, so rewriting an argument can change a
type.  `STyped` is the textbook judgement `Typed` restricted to terms where this cannot happen: the
type of an application depends on its argument only when the argument is a type.  Lambdas take values
and return values; polymorphism comes from constants and variables.
-/
import Verif.Spec.Typing
namespace Acorn
namespace Spec

open Term

/-- A kind, or a function type that ends in a kind: what type constructors have as their type. -/
def endsKind : Term → Bool
  | .bind .pi _ B => endsKind B
  | .sym s => isKindSym s
  | _ => false

/-- Typing without value-dependent types.  Compared with `Typed`: an application to a value has a type
that does not mention the argument (`appVal`), only applications to types instantiate (`appTy`), a
lambda binds a value and returns a value, and the parameters of an instance scheme are types, all
occurring in its target. -/
inductive STyped (K : KCtx) (Γ : LCtx) : BCtx → Term → Jdg → Prop
  | fvar {Δ i T} : Γ.get i = some T → T.escapes = false → STyped K Γ Δ (.fvar i) (.ty T)
  | bvar {Δ i T} : Δ i = some T → STyped K Γ Δ (.bvar i) (.ty T)
  | sym {Δ s T} : isKindSym s = false → K.symbolType s = some T → T.Ground →
      STyped K Γ Δ (.sym s) (.ty T)
  | appVal {Δ f a A B} : STyped K Γ Δ f (.ty (.pi A (ren Nat.succ B))) → STyped K Γ Δ a (.ty A) →
      endsKind A = false → endsKind B = false → STyped K Γ Δ (.app f a) (.ty B)
  | appTy {Δ f a A B} : STyped K Γ Δ f (.ty (.pi A B)) → STyped K Γ Δ a (.ty A) →
      endsKind A = true → STyped K Γ Δ (.app f a) (.ty (inst 0 a B))
  | lam {Δ A body B} : STyped K Γ Δ A .isTy →
      STyped K Γ (BCtx.cons A Δ) body (.ty (ren Nat.succ B)) →
      endsKind A = false → endsKind B = false →
      STyped K Γ Δ (.lam A body) (.ty (.pi A (ren Nat.succ B)))
  | all {Δ A body} : STyped K Γ Δ A .isTy → STyped K Γ (BCtx.cons A Δ) body (.ty .boolTy) →
      STyped K Γ Δ (.all A body) (.ty .boolTy)
  | ex {Δ A body} : STyped K Γ Δ A .isTy → STyped K Γ (BCtx.cons A Δ) body (.ty .boolTy) →
      STyped K Γ Δ (.ex A body) (.ty .boolTy)
  | pi {Δ A B} : STyped K Γ Δ A (.ty .type0) → STyped K Γ (BCtx.cons A Δ) B (.ty .type0) →
      STyped K Γ Δ (.pi A B) (.ty .type0)
  | inst {Δ m l c} : K.isInstanceOf (m, l) c = true → K.paramKinds (m, l) = [] →
      STyped K Γ Δ (.sym (.type m l)) (.ty (.sym (.typeclass c.1 c.2)))
  | scheme {Δ c sctx target} (φ : Nat → Term) : (sctx, target) ∈ K.schemes c →
      target.escapes = false →
      (∀ i T, sctx.get i = some T → isKind T = true ∧ target.hasVar i = true) →
      (∀ i T, sctx.get i = some T → STyped K Γ Δ (φ i) (.ty T)) →
      STyped K Γ Δ (sub φ bid target) (.ty .type0) →
      STyped K Γ Δ (sub φ bid target) (.ty (.sym (.typeclass c.1 c.2)))
  | extend {Δ t c d} : STyped K Γ Δ t (.ty (.sym (.typeclass c.1 c.2))) → K.tcExtends c d = true →
      STyped K Γ Δ t (.ty (.sym (.typeclass d.1 d.2)))
  | forget {Δ t m l} : STyped K Γ Δ t (.ty (.sym (.typeclass m l))) → STyped K Γ Δ t (.ty .type0)
  | tyType0 {Δ} : STyped K Γ Δ .type0 .isTy
  | tyClass {Δ m l} : STyped K Γ Δ (.sym (.typeclass m l)) .isTy
  | tyOf {Δ A} : STyped K Γ Δ A (.ty .type0) → STyped K Γ Δ A .isTy
  | tyPi {Δ A B} : STyped K Γ Δ A .isTy → STyped K Γ (BCtx.cons A Δ) B .isTy →
      STyped K Γ Δ (.pi A B) .isTy

/-- At the top level, where no bound variables are in scope. -/
abbrev SHasType (K : KCtx) (Γ : LCtx) (t T : Term) : Prop := STyped K Γ BCtx.nil t (.ty T)

end Spec
end Acorn
