/-
The frame of all sets: every set is a type, functions are graphs, and the datatypes are given sets.
-/
import Verif.Spec.ValueMeaning
import Verif.Spec.SetModel
namespace Acorn
namespace Spec

open Elab

noncomputable section

/-- The types are all sets, and `data` says which sets the datatypes are. -/
abbrev setTypes (data : String → List SetModel.S → SetModel.S) : Frame where
  T := SetModel.S
  D := SetModel.S
  mem x A := x ∈ A
  bool := SetModel.bool
  data := data
  fn A B := SetModel.pi A fun _ => B
  type0 := SetModel.U
  constraint _ := SetModel.U
  tt := SetModel.tt
  ff := SetModel.ff
  app := SetModel.app
  lam := SetModel.lam
  unwrap _ _ := ∅
  undef := ∅
  tt_ne_ff := SetModel.tt_ne_ff
  mem_bool _ := SetModel.mem_bool
  beta _ _ _ h := SetModel.app_lam h
  lam_congr _ _ _ h := SetModel.lam_congr h
  mem_app _ _ _ _ h h' := (SetModel.mem_pi.1 h).2 _ h'
  mem_lam _ _ _ h := SetModel.lam_mem_pi h
  ext _ _ f g hf hg h := by
    rw [← (SetModel.mem_pi.1 hf).1, ← (SetModel.mem_pi.1 hg).1]
    exact SetModel.lam_congr h

/-- The datatypes over the types of the universe `U` are types of the universe. -/
def SmallData (data : String → List SetModel.S → SetModel.S) : Prop :=
  ∀ d ts, (∀ t ∈ ts, t ∈ SetModel.U) → data d ts ∈ SetModel.U

mutual

/-- The type is made of truth values, functions, datatypes, and the parameters `params`. -/
def TyOver (params : List String) : Ty → Prop
  | .bool => True
  | .data _ as => TyOverAll params as
  | .fn as r => TyOverAll params as ∧ TyOver params r
  | .arb n => n ∈ params
  | .tvar _ => False
  | .type0 => False
  | .constraint _ => False

/-- Several types are. -/
def TyOverAll (params : List String) : List Ty → Prop
  | [] => True
  | t :: ts => TyOver params t ∧ TyOverAll params ts

end

mutual

/-- The datatype `name` does not occur in the type. -/
def TyFree (name : String) : Ty → Prop
  | .data d as => d ≠ name ∧ TyFreeAll name as
  | .fn as r => TyFreeAll name as ∧ TyFree name r
  | _ => True

/-- It does not occur in several types. -/
def TyFreeAll (name : String) : List Ty → Prop
  | [] => True
  | t :: ts => TyFree name t ∧ TyFreeAll name ts

end

mutual

/-- Every occurrence of the datatype `name` in the type is with the arguments `as`, and none is inside the
arguments of a datatype. -/
def TyDirect (name : String) (as : List Ty) : Ty → Prop
  | .data d bs => (d = name ∧ bs = as) ∨ (d ≠ name ∧ TyFreeAll name bs)
  | .fn bs r => TyDirectAll name as bs ∧ TyDirect name as r
  | _ => True

/-- In several types. -/
def TyDirectAll (name : String) (as : List Ty) : List Ty → Prop
  | [] => True
  | t :: ts => TyDirect name as t ∧ TyDirectAll name as ts

end

mutual

/-- The datatype `name` does not occur in the types of a value, and the constants `ns` do not occur in it. -/
def ValueFree (name : String) (ns : List String) : Value → Prop
  | .var _ _ => True
  | .const n ps _ => n ∉ ns ∧ TyFreeAll name ps
  | .app f as => ValueFree name ns f ∧ ValuesFree name ns as
  | .tapp f _ ts => ValueFree name ns f ∧ TyFreeAll name ts
  | .lam ts b => TyFreeAll name ts ∧ ValueFree name ns b
  | .bin _ a b => ValueFree name ns a ∧ ValueFree name ns b
  | .not a => ValueFree name ns a
  | .try_ a t => ValueFree name ns a ∧ TyFree name t
  | .all ts b => TyFreeAll name ts ∧ ValueFree name ns b
  | .ex ts b => TyFreeAll name ts ∧ ValueFree name ns b
  | .group a => ValueFree name ns a
  | .bool _ => True
  | .ite c a b => ValueFree name ns c ∧ ValueFree name ns a ∧ ValueFree name ns b
  | .match_ s cs => ValueFree name ns s ∧ CasesFree name ns cs

/-- They do not occur in several values. -/
def ValuesFree (name : String) (ns : List String) : List Value → Prop
  | [] => True
  | v :: vs => ValueFree name ns v ∧ ValuesFree name ns vs

/-- They do not occur in the cases of a match. -/
def CasesFree (name : String) (ns : List String) : List Case → Prop
  | [] => True
  | .mk ts p r _ _ :: cs => TyFreeAll name ts ∧ ValueFree name ns p ∧ ValueFree name ns r ∧ CasesFree name ns cs

end

end
end Spec
end Acorn
