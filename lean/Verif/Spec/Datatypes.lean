/-
What datatype declarations are meant to say, over any frame: a type is freely generated by its
constructors, a type is in one-to-one correspondence with the tuples of its fields.
-/
import Verif.Spec.ValueMeaning
import Verif.Spec.ValueNames
import Verif.Model.Datatypes
namespace Acorn
namespace Spec

open Elab

noncomputable section

open Classical

universe u

/-- A constructor in a frame: the function, the types of its arguments, and which arguments are
declared to be of the type that is being defined. -/
structure ConIn (F : Frame.{u}) where
  fn : F.D
  args : List F.T
  self : List Prop

/-- The type `t` is freely generated by the constructors. -/
structure Freely (F : Frame.{u}) (t : F.T) (cs : List (ConIn F)) : Prop where
  /-- Different constructors give different values. -/
  distinct : ∀ (i j : Nat) c d, i ≠ j → cs[i]? = some c → cs[j]? = some d →
    ∀ xs ys, F.Fits xs c.args → F.Fits ys d.args → F.appN c.fn xs ≠ F.appN d.fn ys
  /-- A constructor gives different values for different arguments. -/
  injective : ∀ c ∈ cs, ∀ xs ys, F.Fits xs c.args → F.Fits ys c.args → F.appN c.fn xs = F.appN c.fn ys → xs = ys
  /-- Every value comes from a constructor. -/
  cover : ∀ d, F.mem d t → ∃ c ∈ cs, ∃ xs, F.Fits xs c.args ∧ d = F.appN c.fn xs
  /-- What holds of a constructor's value whenever it holds of its arguments of the type itself, holds of
  every value. -/
  induction : ∀ P : F.D → Prop,
    (∀ c ∈ cs, ∀ xs, F.Fits xs c.args →
      (∀ (i : Nat) x, xs[i]? = some x → (∃ h : i < c.self.length, c.self[i]) → P x) → P (F.appN c.fn xs)) →
    ∀ d, F.mem d t → P d

/-- The constructor a declaration describes. -/
def conIn (F : Frame.{u}) (C : String → List F.T → F.D) (θ : String → F.T) (name : String)
    (params : List String) (c : Con) : ConIn F where
  fn := C c.name (params.map θ)
  args := F.tys θ c.args
  self := c.args.map fun t => t = selfType name params

/-- The functions of the constructors have the declared types. -/
def ConsTyped (F : Frame.{u}) (C : String → List F.T → F.D) (θ : String → F.T) (name : String)
    (params : List String) (cs : List Con) : Prop :=
  ∀ c ∈ cs, F.mem (C c.name (params.map θ)) (F.fnN (F.tys θ c.args) (F.data name (params.map θ)))

/-- The objects of type `t` correspond one to one to tuples of elements of the types `ts`: `members` gives
the tuple of an object, `new` the object of a tuple. -/
structure Tuples (F : Frame.{u}) (t : F.T) (ts : List F.T) (new : F.D) (members : List F.D) : Prop where
  /-- The fields of a new object are what it was made from. -/
  fields : ∀ xs, F.Fits xs ts → members.map (fun m => F.app m (F.appN new xs)) = xs
  /-- An object is the one made from its fields. -/
  eta : ∀ d, F.mem d t → F.appN new (members.map fun m => F.app m d) = d

/-- The objects of type `t` correspond one to one to the tuples of elements of the types `ts` that meet
the condition `P`; `new` gives some object for a tuple that meets it, and nothing for others. -/
structure TuplesWith (F : Frame.{u}) (t : F.T) (ts : List F.T) (members : List F.D) (P : List F.D → Prop)
    (new some_ none_ : F.D) : Prop where
  /-- The fields of an object meet the condition. -/
  meets : ∀ d, F.mem d t → P (members.map fun m => F.app m d)
  /-- Every tuple that meets the condition is the tuple of an object. -/
  all : ∀ xs, F.Fits xs ts → P xs → ∃ d, F.mem d t ∧ members.map (fun m => F.app m d) = xs
  /-- Objects with the same fields are equal. -/
  inj : ∀ d e, F.mem d t → F.mem e t → (members.map fun m => F.app m d) = (members.map fun m => F.app m e) → d = e
  /-- `new` on the fields of an object gives the object. -/
  some_new : ∀ d, F.mem d t → F.appN new (members.map fun m => F.app m d) = F.app some_ d
  /-- `new` on other tuples gives nothing. -/
  none_new : ∀ xs, F.Fits xs ts → ¬ P xs → F.appN new xs = none_

mutual

/-- Every constant of a value, with its type arguments and its type, has the property. -/
def EachConst (P : String → List Ty → Ty → Prop) : Value → Prop
  | .var _ _ => True
  | .const n ps t => P n ps t
  | .app f as => EachConst P f ∧ EachConstAll P as
  | .tapp f _ _ => EachConst P f
  | .lam _ b => EachConst P b
  | .bin _ a b => EachConst P a ∧ EachConst P b
  | .not a => EachConst P a
  | .try_ a _ => EachConst P a
  | .all _ b => EachConst P b
  | .ex _ b => EachConst P b
  | .group a => EachConst P a
  | .bool _ => True
  | .ite c a b => EachConst P c ∧ EachConst P a ∧ EachConst P b
  | .match_ s cs => EachConst P s ∧ EachConstCases P cs

/-- Of several values. -/
def EachConstAll (P : String → List Ty → Ty → Prop) : List Value → Prop
  | [] => True
  | v :: vs => EachConst P v ∧ EachConstAll P vs

/-- Of the cases of a match. -/
def EachConstCases (P : String → List Ty → Ty → Prop) : List Case → Prop
  | [] => True
  | .mk _ p r _ _ :: cs => EachConst P p ∧ EachConst P r ∧ EachConstCases P cs

end

/-- The type of a constant mentions only those of the parameters that its type arguments mention, and no
type variable when it has no type arguments. -/
def FullyApplied (params : List String) (ps : List Ty) (t : Ty) : Prop :=
  (∀ p ∈ params, p ∈ tyNames t → p ∈ tysNames ps) ∧ (ps = [] → ∀ p, t.hasVar p = false)

end
end Spec
end Acorn
