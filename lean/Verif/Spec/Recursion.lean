/-
What a recursive definition means: an element that satisfies its equation.
-/
import Verif.Spec.Lowering
import Verif.Spec.Datatypes
namespace Acorn
namespace Spec

open Elab

universe u

section
variable (F : Frame.{u}) (C : String → List F.T → F.D) (θ : String → F.T) (S : Theory)

/-- `y`, of type `t`, is a field of the element `x` of type `A`: `x` is made by a constructor of `A` from
fields, one of which is `y`, and its type is declared as `t`. -/
def Field (A : Ty) (y : F.D) (t : Ty) (x : F.D) : Prop :=
  ∃ d as ks, A = .data d as ∧ S.constructors d as ks ∧ ∃ k ∈ ks, ∃ zs, F.Fits zs (F.tys θ k.2.2) ∧
    F.appN (C k.1 (F.tys θ k.2.1)) zs = x ∧ ∃ j : Nat, k.2.2[j]? = some t ∧ zs[j]? = some y

/-- A constructor of the type `A` in the frame. -/
def conOf (A : Ty) (k : String × List Ty × List Ty) : ConIn F where
  fn := C k.1 (F.tys θ k.2.1)
  args := F.tys θ k.2.2
  self := k.2.2.map fun t => t = A

/-- The interpretation suits what was declared, apart from the constant `f`: the other constants have
their types, and the datatypes are freely generated by their constructors. -/
structure SuitsApart (f : String) : Prop where
  const : ∀ n params g ps, n ≠ f → S.const n = some (params, g) → SmallArgs S ps (params.map (·.2)) →
    F.mem (C n (F.tys θ ps)) (F.ty θ (g.instantiate ((params.map (·.1)).zip ps)))
  free : ∀ d as ks, S.constructors d as ks → Freely F (F.ty θ (.data d as)) (ks.map (conOf F C θ (.data d as)))
  constructors : ∀ d as ks, S.constructors d as ks → ∀ k ∈ ks, k.1 ≠ f
  one : ∀ d as ks ks', S.constructors d as ks → S.constructors d as ks' → ks = ks'

end

/-- The interpretation `C` with the meaning `g` for the constant `f` at the type arguments `ts`. -/
noncomputable def put {F : Frame.{u}} (C : String → List F.T → F.D) (f : String) (ts : List F.T) (g : F.D) :
    String → List F.T → F.D :=
  open Classical in fun n us => if n = f ∧ us = ts then g else C n us

/-- What the constant `f` looks like in its own definition: it has the type arguments `ts` and the type `t`. -/
def OwnCall (F : Frame.{u}) (θ : String → F.T) (f : String) (ts : List F.T) (t : Ty) (n : String) (ps : List Ty) (t' : Ty) : Prop :=
  n = f → F.tys θ ps = ts ∧ t' = t

/-- `g` is what the definition `define f(args) -> ret { body }` says, when the type parameters are `ts`: a function of the declared type
that has the values that the definition gives it, where the calls of `f` in the definition are calls of `g`. -/
def Solves (F : Frame.{u}) (C : String → List F.T → F.D) (θ : String → F.T) (f : String) (ts : List F.T) (args : List Ty) (ret : Ty)
    (body : Value) (g : F.D) : Prop :=
  F.mem g (F.fnN (F.tys θ args) (F.ty θ ret)) ∧
    ∀ xs, F.Fits xs (F.tys θ args) → F.appN g xs = F.den (put C f ts g) θ xs body

end Spec
end Acorn
