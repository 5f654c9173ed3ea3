/-
Values whose parts fit together and whose functions get all their arguments at once: the values for
which the elaborator's expansion of lambdas is shown to keep the meaning.
-/
import Verif.Spec.ValueMeaning
namespace Acorn
namespace Spec

open Elab

universe u

/-- What is known of the constants: their types, and which lists of constructors make up all the values
of a type.  A constructor is its name, its type parameters and the types of its fields. -/
structure Decls where
  const : String → List Ty → Ty → Prop
  covers : Ty → List (String × List Ty × List Ty) → Prop

/-- The variables at the given level and after it, with these types. -/
def varsFrom : Nat → List Ty → List Value
  | _, [] => []
  | i, t :: ts => .var i t :: varsFrom (i + 1) ts

mutual

/-- `v` is a value of type `t` on a stack of variables of the types `Γ`, without type applications, in
which every function is applied to all the arguments its type lists. -/
def Full (S : Decls) (Γ : List Ty) : Value → Ty → Prop
  | .var i t', t => t' = t ∧ Γ[i]? = some t
  | .const n ps t', t => t' = t ∧ S.const n ps t
  | .app f as, t => ∃ ts, Full S Γ f (.fn ts t) ∧ FullAll S Γ as ts
  | .tapp _ _ _, _ => False
  | .lam ts b, t => ∃ r, t = .fn ts r ∧ Full S (Γ ++ ts) b r
  | .bin op a b, t => t = .bool ∧ ∃ u, Full S Γ a u ∧ Full S Γ b u ∧
      (op = .equals ∨ op = .notEquals ∨ u = .bool)
  | .not a, t => t = .bool ∧ Full S Γ a .bool
  | .try_ a t', t => t' = t ∧ ∃ u, Full S Γ a u
  | .all ts b, t => t = .bool ∧ Full S (Γ ++ ts) b .bool
  | .ex ts b, t => t = .bool ∧ Full S (Γ ++ ts) b .bool
  | .group a, t => Full S Γ a t
  | .bool _, t => t = .bool
  | .ite c a b, t => Full S Γ c .bool ∧ Full S Γ a t ∧ Full S Γ b t
  | .match_ s cs, t => ∃ u ks, Full S Γ s u ∧ S.covers u ks ∧ FullCases S Γ cs ks t

/-- Several values, with their types. -/
def FullAll (S : Decls) (Γ : List Ty) : List Value → List Ty → Prop
  | [], [] => True
  | v :: vs, t :: ts => Full S Γ v t ∧ FullAll S Γ vs ts
  | _, _ => False

/-- The cases of a match are for the given constructors, each with new variables for its fields. -/
def FullCases (S : Decls) (Γ : List Ty) : List Case → List (String × List Ty × List Ty) → Ty → Prop
  | [], [], _ => True
  | .mk ts p r _ _ :: cs, (n, ps, us) :: ks, t => ts = us ∧
      (∃ ct, p = (Value.const n ps ct).apply (varsFrom Γ.length ts)) ∧ Full S (Γ ++ ts) r t ∧
      FullCases S Γ cs ks t
  | _, _, _ => False

end

/-- The meanings of the constants are as declared, and what `?` gives has the type it is said to have. -/
structure Respects (F : Frame.{u}) (C : String → List F.T → F.D) (θ : String → F.T) (S : Decls) : Prop where
  const : ∀ n ps t, S.const n ps t → F.mem (C n (F.tys θ ps)) (F.ty θ t)
  covers : ∀ t ks, S.covers t ks → ∀ d, F.mem d (F.ty θ t) →
    ∃ k ∈ ks, ∃ xs, F.Fits xs (F.tys θ k.2.2) ∧ F.appN (C k.1 (F.tys θ k.2.1)) xs = d
  unwrap : ∀ t x, F.mem (F.unwrap (F.ty θ t) x) (F.ty θ t)

end Spec
end Acorn
