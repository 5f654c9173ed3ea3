/-
What the elaborator's values mean, over any frame: a collection of types and of elements with
functions and truth values, with a meaning for every constant.  Independent of the operations on values.
-/
import Verif.Model.AcornValue
namespace Acorn
namespace Spec

open Elab

noncomputable section

open Classical

universe u

/-- A frame for simply typed logic: types, elements, membership, functions between types. -/
structure Frame where
  T : Type u
  D : Type u
  mem : D → T → Prop
  bool : T
  data : String → List T → T
  fn : T → T → T
  type0 : T
  constraint : String → T
  tt : D
  ff : D
  app : D → D → D
  lam : T → (D → D) → D
  unwrap : T → D → D
  undef : D
  tt_ne_ff : tt ≠ ff
  mem_bool : ∀ d, mem d bool ↔ d = tt ∨ d = ff
  beta : ∀ t f x, mem x t → app (lam t f) x = f x
  lam_congr : ∀ t f g, (∀ x, mem x t → f x = g x) → lam t f = lam t g
  mem_app : ∀ a b f x, mem f (fn a b) → mem x a → mem (app f x) b
  mem_lam : ∀ a b f, (∀ x, mem x a → mem (f x) b) → mem (lam a f) (fn a b)
  ext : ∀ a b f g, mem f (fn a b) → mem g (fn a b) → (∀ x, mem x a → app f x = app g x) → f = g

namespace Frame

variable (F : Frame)

/-- The truth value of a proposition. -/
def ofProp (p : Prop) : F.D := if p then F.tt else F.ff

/-- The type of functions of several arguments. -/
def fnN : List F.T → F.T → F.T
  | [], r => r
  | t :: ts, r => F.fn t (fnN ts r)

/-- Application to several arguments. -/
def appN (f : F.D) (xs : List F.D) : F.D := xs.foldl F.app f

/-- The function of several arguments with these values. -/
def lamN : List F.T → (List F.D → F.D) → F.D
  | [], k => k []
  | t :: ts, k => F.lam t fun x => lamN ts fun xs => k (x :: xs)

/-- Elements of the given types, in order. -/
def Fits : List F.D → List F.T → Prop
  | [], [] => True
  | x :: xs, t :: ts => F.mem x t ∧ Fits xs ts
  | _, _ => False

mutual

/-- The meaning of a type, when `θ` gives the meaning of the type parameters. -/
def ty (θ : String → F.T) : Ty → F.T
  | .bool => F.bool
  | .data d as => F.data d (tys θ as)
  | .fn as r => F.fnN (tys θ as) (ty θ r)
  | .tvar n => θ n
  | .arb n => θ n
  | .type0 => F.type0
  | .constraint c => F.constraint c

/-- The meanings of several types. -/
def tys (θ : String → F.T) : List Ty → List F.T
  | [] => []
  | t :: ts => ty θ t :: tys θ ts

end

/-- The type parameters `names` get the meanings `ts`, in order; the first of a name counts. -/
def with_ (θ : String → F.T) (ps : List (String × F.T)) : String → F.T := fun n => (ps.lookup n).getD (θ n)

/-- The truth of a statement formed with a binary operator. -/
def binary : BinOp → F.D → F.D → Prop
  | .implies, a, b => a = F.tt → b = F.tt
  | .equals, a, b => a = b
  | .notEquals, a, b => a ≠ b
  | .and, a, b => a = F.tt ∧ b = F.tt
  | .or, a, b => a = F.tt ∨ b = F.tt

/-- The value of `k` for some elements with `P`, or `e` if there are none. -/
def pick (P : List F.D → Prop) (k : List F.D → F.D) (e : F.D) : F.D :=
  if h : ∃ xs, P xs then k (choose h) else e

mutual

/-- The meaning of a value on a stack, when `C` gives the meaning of the constants: level `i` of the stack is entry `i` of `env`, and the entries of
a binder come after those already there. -/
def den (C : String → List F.T → F.D) (θ : String → F.T) (env : List F.D) : Value → F.D
  | .var i _ => env.getD i F.undef
  | .const n ps _ => C n (F.tys θ ps)
  | .app f as => F.appN (den C θ env f) (denAll C θ env as)
  | .tapp f ns ts => den C (F.with_ θ (ns.zip (F.tys θ ts))) env f
  | .lam ts b => F.lamN (F.tys θ ts) fun xs => den C θ (env ++ xs) b
  | .bin op a b => F.ofProp (F.binary op (den C θ env a) (den C θ env b))
  | .not a => F.ofProp (den C θ env a ≠ F.tt)
  | .try_ a t => F.unwrap (F.ty θ t) (den C θ env a)
  | .all ts b => F.ofProp (∀ xs, F.Fits xs (F.tys θ ts) → den C θ (env ++ xs) b = F.tt)
  | .ex ts b => F.ofProp (∃ xs, F.Fits xs (F.tys θ ts) ∧ den C θ (env ++ xs) b = F.tt)
  | .group a => den C θ env a
  | .bool b => F.ofProp (b = true)
  | .ite c a b => if den C θ env c = F.tt then den C θ env a else den C θ env b
  | .match_ s cs => denCases C θ env (den C θ env s) cs

/-- The meanings of several values. -/
def denAll (C : String → List F.T → F.D) (θ : String → F.T) (env : List F.D) : List Value → List F.D
  | [] => []
  | v :: vs => den C θ env v :: denAll C θ env vs

/-- The meaning of a match: that of the first case whose pattern can be made equal to what is matched,
for some values of the variables of the case for which it is. -/
def denCases (C : String → List F.T → F.D) (θ : String → F.T) (env : List F.D) (d : F.D) : List Case → F.D
  | [] => F.undef
  | .mk ts p r _ _ :: cs =>
    F.pick (fun xs => F.Fits xs (F.tys θ ts) ∧ den C θ (env ++ xs) p = d) (fun xs => den C θ (env ++ xs) r)
      (denCases C θ env d cs)

end

/-- A statement is true on a stack. -/
def Holds (C : String → List F.T → F.D) (θ : String → F.T) (env : List F.D) (v : Value) : Prop := F.den C θ env v = F.tt

end Frame
end
end Spec
end Acorn
