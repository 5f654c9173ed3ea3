/-
What the tables of known elements have to say, and when declarations make them say so.
-/
import Verif.Model.Inhabited
import Verif.Spec.Checker
namespace Acorn
namespace Spec
open Term

universe u

/-- Every parameter of the type is a type, or a value. -/
def ParamsOk : Term → Prop
  | .bind .pi A B => (isKind A = true ∨ endsKind A = false) ∧ ParamsOk B
  | _ => True

/-- No parameter is a function on types. -/
def HeadsOk : Term → Prop
  | .bind .pi A B => (isKind A = true ∨ ∀ s, A.headAtom = .sym s → isKindSym s = false) ∧ HeadsOk B
  | _ => True

/-- The leading type parameters. -/
def leadKinds : Term → List Term
  | .bind .pi A B => if isKind A then A :: leadKinds B else []
  | _ => []

/-- What is left without the leading type parameters. -/
def afterKinds : Term → Term
  | .bind .pi A B => if isKind A then afterKinds B else .bind .pi A B
  | T => T

/-- The type a function finally returns. -/
def result : Term → Term
  | .bind .pi _ B => result B
  | T => T

/-- The parameters of a provider accept the arguments of the type constructor. -/
def KindsFit (K : KCtx) (T : Term) (g : Id2) : Prop :=
  ∀ (j : Nat) (A B : Term), (leadKinds T)[j]? = some A → (K.paramKinds g)[j]? = some B → A = B ∨ A = .type0

/-- A declared type which is registered correctly.  The last two conditions are not guaranteed by the code. -/
structure Honest (K : KCtx) (s : Symbol) (T : Term) : Prop where
  declared : K.symbolType s = some T
  value : isKindSym s = false
  ground : T.Ground
  isTy : STyped K [] BCtx.nil T .isTy
  params : ParamsOk T
  heads : HeadsOk T
  /-- With two or more type parameters, the result is not just the first of them. -/
  notFirst : ∀ n, 1 ≤ n → n + 1 = (leadKinds T).length → afterKinds T ≠ .bvar n
  /-- Nothing is required of the arguments of the type constructor which it does not require itself. -/
  fit : ∀ m l, (result T).headAtom = .sym (.type m l) → KindsFit K T (m, l)

/-- The entries of the tables are right. -/
structure Truthful (K : KCtx) (W : Witnesses) : Prop where
  elem : ∀ T s, W.elem T = some s → K.symbolType s = some T ∧ isKindSym s = false ∧ T.Ground
  cls : ∀ (c : Id2) s, W.cls c = some s → Honest K s (.pi (.sym (.typeclass c.1 c.2)) (.bvar 0))
  ctor : ∀ g s, W.ctor g = some s → ∃ T, Honest K s T ∧ KindsFit K T g
  bases : ∀ c d, d ∈ W.bases c → K.tcExtends c d = true

/-- Type constructors have types as parameters, arbitrary types have none. -/
structure TypeParams (K : KCtx) : Prop where
  kinds : ∀ g, ∀ k ∈ K.paramKinds g, isKind k = true
  arbitrary : ∀ g c, K.arbitraryTc g = some c → K.paramKinds g = []

/-- The term denotes an element of the type. -/
def Denotes (M : Interp.{u}) (ρ : Nat → M.D) (w T : Term) : Prop :=
  ∀ β, M.mem (eval M ρ β w) (eval M ρ β T)

/-- The context consists of part of the declarations of the other. -/
def SubCtx (Γ : LCtx) (Γ' : Option LCtx) : Prop :=
  ∀ i T, Γ.get i = some T → (Γ'.bind fun G => G.get i) = some T

/-- A type of values, in the part of the context before variable `i`; not just a type variable. -/
structure ValueTypeAt (K : KCtx) (Γ : LCtx) (i : Nat) (T : Term) : Prop where
  isTy : STyped K (Γ.take i) BCtx.nil T .isTy
  value : endsKind T = false
  notVar : T.atomicVariable = none

/-- The types on the list have elements. -/
def KeysTrue (M : Interp.{u}) (keys : List (Term × LCtx)) : Prop :=
  ∀ T Γ, (T, Γ) ∈ keys → ∀ ρ, Models M Γ ρ → ∃ d, ∀ β, M.mem d (eval M ρ β T)

/-- The clause is true, about values, and its variables have values. -/
structure Sane (K : KCtx) (M : Interp.{u}) (c : Clause) : Prop where
  plain : PlainClause K c
  truth : ClauseTrue M c
  model : ∃ ρ, Models M c.ctx ρ

/-- The checker uses the tables for its test. -/
structure UsesTables (K : KCtx) (W : Witnesses) (env : CheckEnv) : Prop where
  sig : env.K = K
  params : TypeParams K
  truthful : Truthful K W
  test : ∃ fuel, env.inh = inhabitedTest K W fuel

end Spec
end Acorn
