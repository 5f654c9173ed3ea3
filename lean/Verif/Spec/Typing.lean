/-
The specification of well-typed terms and of lawful interpretations.  Independent of the type
checker of the code base: `Typed` is the textbook judgement for the kernel's terms, `Lawful` says
what the built-in symbols and binders have to mean, `Models` what it means for an assignment to
respect a context.
-/
import Verif.Lemmas.Subst
import Verif.Model.Context
namespace Acorn
namespace Spec

open Term

/-- Types of the bound variables in scope (already valid in the current scope). -/
abbrev BCtx := Nat → Option Term

/-- Go under a binder. -/
def BCtx.cons (A : Term) (Δ : BCtx) : BCtx
  | 0 => some (ren Nat.succ A)
  | n + 1 => (Δ n).map (ren Nat.succ)

/-- No bound variables in scope. -/
def BCtx.nil : BCtx := fun _ => none

/-- What a judgement says about a term: that it has a type, or that it is a type (of any size). -/
inductive Jdg where
  | ty (T : Term)
  | isTy

/-- Symbols that are kinds rather than values. -/
def isKindSym : Symbol → Bool
  | .type0 => true
  | .typeclass _ _ => true
  | _ => false

/-- `Type0` or a typeclass. -/
def isKind : Term → Bool
  | .sym s => isKindSym s
  | _ => false

/-- The typing judgement.  Free variables are typed by `Γ`, bound variables by `Δ`.  Unlike the
checker, it looks inside quantifiers and function types, `Type0` and typeclasses are not themselves
elements of `Type0`, and a function type is an element of `Type0` only if its parts are, and
the body of a lambda is a value, not a type. -/
inductive Typed (K : KCtx) (Γ : LCtx) : BCtx → Term → Jdg → Prop
  | fvar {Δ i T} : Γ.get i = some T → T.escapes = false → Typed K Γ Δ (.fvar i) (.ty T)
  | bvar {Δ i T} : Δ i = some T → Typed K Γ Δ (.bvar i) (.ty T)
  | sym {Δ s T} : isKindSym s = false → K.symbolType s = some T → T.Ground →
      Typed K Γ Δ (.sym s) (.ty T)
  | app {Δ f a A B} : Typed K Γ Δ f (.ty (.pi A B)) → Typed K Γ Δ a (.ty A) →
      Typed K Γ Δ (.app f a) (.ty (inst 0 a B))
  | lam {Δ A body B} : Typed K Γ Δ A .isTy → Typed K Γ (BCtx.cons A Δ) body (.ty B) →
      isKind B = false →
      Typed K Γ Δ (.lam A body) (.ty (.pi A B))
  | all {Δ A body} : Typed K Γ Δ A .isTy → Typed K Γ (BCtx.cons A Δ) body (.ty .boolTy) →
      Typed K Γ Δ (.all A body) (.ty .boolTy)
  | ex {Δ A body} : Typed K Γ Δ A .isTy → Typed K Γ (BCtx.cons A Δ) body (.ty .boolTy) →
      Typed K Γ Δ (.ex A body) (.ty .boolTy)
  | pi {Δ A B} : Typed K Γ Δ A (.ty .type0) → Typed K Γ (BCtx.cons A Δ) B (.ty .type0) →
      Typed K Γ Δ (.pi A B) (.ty .type0)
  /-- An instance of a typeclass, by declaration. -/
  | inst {Δ m l c} : K.isInstanceOf (m, l) c = true → K.paramKinds (m, l) = [] →
      Typed K Γ Δ (.sym (.type m l)) (.ty (.sym (.typeclass c.1 c.2)))
  /-- An instance of a typeclass, by an instance scheme such as `List[T]` for `T: Monoid`. -/
  | scheme {Δ c sctx target} (φ : Nat → Term) : (sctx, target) ∈ K.schemes c →
      target.escapes = false → (∀ i T, sctx.get i = some T → T.escapes = false) →
      (∀ i T, sctx.get i = some T → Typed K Γ Δ (φ i) (.ty (sub φ bid T))) →
      Typed K Γ Δ (sub φ bid target) (.ty .type0) →
      Typed K Γ Δ (sub φ bid target) (.ty (.sym (.typeclass c.1 c.2)))
  /-- A typeclass includes the typeclasses it extends. -/
  | extend {Δ t c d} : Typed K Γ Δ t (.ty (.sym (.typeclass c.1 c.2))) → K.tcExtends c d = true →
      Typed K Γ Δ t (.ty (.sym (.typeclass d.1 d.2)))
  /-- A type in a typeclass is a type. -/
  | forget {Δ t m l} : Typed K Γ Δ t (.ty (.sym (.typeclass m l))) → Typed K Γ Δ t (.ty .type0)
  | tyType0 {Δ} : Typed K Γ Δ .type0 .isTy
  | tyClass {Δ m l} : Typed K Γ Δ (.sym (.typeclass m l)) .isTy
  | tyOf {Δ A} : Typed K Γ Δ A (.ty .type0) → Typed K Γ Δ A .isTy
  | tyPi {Δ A B} : Typed K Γ Δ A .isTy → Typed K Γ (BCtx.cons A Δ) B .isTy →
      Typed K Γ Δ (.pi A B) .isTy

/-- Well-typedness at the top level, where no bound variables are in scope. -/
abbrev HasType (K : KCtx) (Γ : LCtx) (t T : Term) : Prop := Typed K Γ BCtx.nil t (.ty T)

variable (M : Interp.{u})

/-- The value `true`. -/
def vtt : M.D := M.sym .true_
/-- The value `false`. -/
def vff : M.D := M.sym .false_
/-- The type of booleans. -/
def vbool : M.D := M.sym .bool
/-- The universe of (small) types. -/
def vtype0 : M.D := M.sym .type0

/-- `ρ` assigns to every variable of the context an element of its type. -/
def Models (Γ : LCtx) (ρ : Nat → M.D) : Prop :=
  ∀ i T, Γ.get i = some T → ∀ β, M.mem (ρ i) (eval M ρ β T)

/-- The laws of the logic: booleans, functions (as graphs on their domain, so extensional),
quantifiers, equality, if-then-else, the universe of types, typeclasses as collections of types, and
each declared symbol having its declared type. -/
structure Lawful (K : KCtx) (M : Interp.{u}) : Prop where
  tt_ne_ff : vtt M ≠ vff M
  mem_bool : ∀ d, M.mem d (vbool M) ↔ d = vtt M ∨ d = vff M
  bind_congr : ∀ b A g h, (∀ a, M.mem a A → g a = h a) → M.bind b A g = M.bind b A h
  beta : ∀ A g a, M.mem a A → M.app (M.bind .lam A g) a = g a
  mem_pi : ∀ A B f, M.mem f (M.bind .pi A B) ↔
    (M.bind .lam A (M.app f) = f ∧ ∀ a, M.mem a A → M.mem (M.app f a) (B a))
  all_tt : ∀ A g, (∀ a, M.mem a A → M.mem (g a) (vbool M)) →
    (M.bind .all A g = vtt M ↔ ∀ a, M.mem a A → g a = vtt M)
  all_bool : ∀ A g, (∀ a, M.mem a A → M.mem (g a) (vbool M)) → M.mem (M.bind .all A g) (vbool M)
  ex_tt : ∀ A g, (∀ a, M.mem a A → M.mem (g a) (vbool M)) →
    (M.bind .ex A g = vtt M ↔ ∃ a, M.mem a A ∧ g a = vtt M)
  ex_bool : ∀ A g, (∀ a, M.mem a A → M.mem (g a) (vbool M)) → M.mem (M.bind .ex A g) (vbool M)
  not_tt : ∀ a, M.mem a (vbool M) → (M.app (M.sym .not_) a = vtt M ↔ a = vff M)
  and_tt : ∀ a b, M.mem a (vbool M) → M.mem b (vbool M) →
    (M.app (M.app (M.sym .and_) a) b = vtt M ↔ a = vtt M ∧ b = vtt M)
  or_tt : ∀ a b, M.mem a (vbool M) → M.mem b (vbool M) →
    (M.app (M.app (M.sym .or_) a) b = vtt M ↔ a = vtt M ∨ b = vtt M)
  eq_tt : ∀ T a b, M.mem T (vtype0 M) → M.mem a T → M.mem b T →
    (M.app (M.app (M.app (M.sym .eq_) T) a) b = vtt M ↔ a = b)
  ite_tt : ∀ T a b, M.mem T (vtype0 M) → M.mem a T → M.mem b T →
    M.app (M.app (M.app (M.app (M.sym .ite_) T) (vtt M)) a) b = a
  ite_ff : ∀ T a b, M.mem T (vtype0 M) → M.mem a T → M.mem b T →
    M.app (M.app (M.app (M.app (M.sym .ite_) T) (vff M)) a) b = b
  pi_small : ∀ A B, M.mem A (vtype0 M) → (∀ a, M.mem a A → M.mem (B a) (vtype0 M)) →
    M.mem (M.bind .pi A B) (vtype0 M)
  sym_type : ∀ s T, isKindSym s = false → K.symbolType s = some T → T.Ground →
    ∀ ρ β, M.mem (M.sym s) (eval M ρ β T)
  class_type0 : ∀ m l d, M.mem d (M.sym (.typeclass m l)) → M.mem d (vtype0 M)
  class_extends : ∀ c d, K.tcExtends c d = true → ∀ x,
    M.mem x (M.sym (.typeclass c.1 c.2)) → M.mem x (M.sym (.typeclass d.1 d.2))
  class_inst : ∀ m l c, K.isInstanceOf (m, l) c = true → K.paramKinds (m, l) = [] →
    M.mem (M.sym (.type m l)) (M.sym (.typeclass c.1 c.2))
  class_scheme : ∀ c sctx target, (sctx, target) ∈ K.schemes c → ∀ ρ, Models M sctx ρ →
    ∀ β, M.mem (eval M ρ β target) (M.sym (.typeclass c.1 c.2))

end Spec
end Acorn
