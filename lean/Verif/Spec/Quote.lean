/-
Which kernel terms can be quoted, and what is asked of the tables that quoting reads: they are the
inverses of those that lowering reads.
-/
import Verif.Spec.Lowering
import Verif.Spec.SimplyTyped
import Verif.Model.Quote
namespace Acorn
namespace Spec

open Elab

universe u

/-- Neither `Type0` nor a typeclass occurs. -/
def noKinds : Term → Bool
  | .sym s => !isKindSym s
  | .atom _ => true
  | .app f a => noKinds f && noKinds a
  | .bind _ A b => noKinds A && noKinds b

/-- A type that asks for types first and then for values. -/
def prenex : Term → Bool
  | .bind .pi A B => (isKind A && prenex B) || (noKinds A && noKinds B)
  | T => noKinds T

/-- How many types a type asks for first. -/
def kindArity : Term → Nat
  | .bind .pi A B => if isKind A then kindArity B + 1 else 0
  | _ => 0

/-- Types are those of constants and variables: a symbol whose type ends in a kind is a datatype or the type
of truth values, the parameters of datatypes are types, and all other symbols ask for types first. -/
structure Prenex (K : KCtx) : Prop where
  value : ∀ s T, K.symbolType s = some T → endsKind T = false → prenex T = true
  types : ∀ s T, K.symbolType s = some T → endsKind T = true →
    s = .bool ∨ (∃ m l, s = .type m l) ∨ isKindSym s = true
  kinds : ∀ g, ∀ k ∈ K.paramKinds g, isKind k = true

/-- No variable stands for a kind, a type constructor or a polymorphic function. -/
def SimpleVars (Γ : LCtx) : Prop := ∀ i T, Γ.get i = some T → isKind T = true ∨ noKinds T = true

/-- Applied to `n` arguments, the term has all the type arguments of all its symbols, and no kinds and no
eliminators. -/
def Quotable (K : KCtx) (N : Names) : Nat → Term → Prop
  | n, .sym s => isKindSym s = false ∧ N.eliminator (N.const s) = none ∧
      ∀ T, K.symbolType s = some T → kindArity T ≤ n
  | _, .atom _ => True
  | n, .app f a => Quotable K N (n + 1) f ∧ Quotable K N 0 a
  | _, .bind _ A b => Quotable K N 0 A ∧ Quotable K N 0 b

/-- The tables `N` read the names in `L` back: a datatype is named by the name it was registered with, a type
that stands for a type parameter by a name that means it, a constant by a name registered for its symbol,
and the type parameters of a constant are as many as its symbol asks for. -/
structure Inverse (K : KCtx) (M : Interp.{u}) (L : Tables) (N : Names) (θ : String → M.D) : Prop where
  ground : ∀ g t, N.ground g = some t →
    (∃ d, t = .data d [] ∧ L.datatype d = some g) ∨ ∃ n, t = .arb n ∧ θ n = M.sym (.type g.1 g.2)
  const : ∀ s T, K.symbolType s = some T → endsKind T = false → isLogical s = false → s ≠ .true_ → s ≠ .false_ →
    L.symbol (N.const s) = some s ∧
    match N.poly (N.const s) with
    | some (names, _) => names.length = kindArity T
    | none => kindArity T = 0

/-- Applied to `n` arguments, all that the term needs is in the tables: a datatype has a type, which can be given
arguments if it has parameters, a constant without type parameters has a well-formed type of which the same is
true, and an `if` has at most its three values. -/
def Printable (K : KCtx) (N : Names) : Nat → Term → Prop
  | n, .sym s =>
    match s with
    | .type m l => ∃ t, N.ground (m, l) = some t ∧ (K.paramKinds (m, l) ≠ [] → ∃ d, t = .data d [])
    | .ite_ => n ≤ 4
    | .global _ _ | .scoped _ => N.poly (N.const s) = none → ∃ U, K.symbolType s = some U ∧
        STyped K [] BCtx.nil U .isTy ∧ noKinds U = true ∧
        ∀ m l, Atom.sym (.type m l) ∈ U.atoms →
          ∃ t, N.ground (m, l) = some t ∧ (K.paramKinds (m, l) ≠ [] → ∃ d, t = .data d [])
    | _ => True
  | _, .atom _ => True
  | n, .app f a => Printable K N (n + 1) f ∧ Printable K N 0 a
  | _, .bind _ A b => Printable K N 0 A ∧ Printable K N 0 b

/-- The variables of a context are types or values of well-formed types without kinds. -/
def QuotableCtx (K : KCtx) (Γ : LCtx) : Prop :=
  ∀ i T, Γ.get i = some T → isKind T = true ∨ (STyped K Γ BCtx.nil T .isTy ∧ noKinds T = true)

/-- The literals of a clause are equations and disequations between values that can be quoted. -/
structure QuotableClause (K : KCtx) (N : Names) (c : Clause) : Prop where
  ctx : QuotableCtx K c.ctx
  lits : ∀ l ∈ c.lits, ∃ T, SHasType K c.ctx l.left T ∧ SHasType K c.ctx l.right T ∧ endsKind T = false ∧
    Quotable K N 0 l.left ∧ Quotable K N 0 l.right

/-- The stack has the variables of the context at their positions. -/
structure StackOk {D : Type u} (Γ : LCtx) (rm : Remap) (env : List D) (ρ : Nat → D) : Prop where
  size : visibleSize Γ.length rm = env.length
  get : ∀ i j, i < Γ.length → rm.index i = some j → env[j]? = some (ρ i)
  length : ∀ m, rm = some m → m.length = Γ.length

end Spec
end Acorn
