/-
A frame made of sets: the laws asked of a frame can be met.
-/
import Verif.Spec.ValueMeaning
import Verif.Spec.SetModel
namespace Acorn
namespace Spec

open Elab

noncomputable section

open Classical

/-- A non-empty set. -/
abbrev NSet := {A : SetModel.S // ∃ a, a ∈ A}

/-- Some element. -/
def NSet.some (A : NSet) : SetModel.S := choose A.2

theorem NSet.some_mem (A : NSet) : A.some ∈ A.1 := choose_spec A.2

/-- The truth values, as a type. -/
def NSet.bool : NSet := ⟨SetModel.bool, SetModel.tt, SetModel.mem_bool.2 (Or.inl rfl)⟩

/-- The types of the frame are the non-empty sets, its elements all sets.  The datatype `Nat` is the set
of natural numbers, the others have two elements. -/
def setFrame : Frame where
  T := NSet
  D := SetModel.S
  mem x A := x ∈ A.1
  bool := NSet.bool
  data d _ := if d = "Nat" then ⟨ZFSet.omega, ∅, ZFSet.omega_zero⟩ else NSet.bool
  fn A B := ⟨SetModel.pi A.1 fun _ => B.1, SetModel.lam A.1 fun _ => B.some,
    SetModel.lam_mem_pi fun _ _ => B.some_mem⟩
  type0 := NSet.bool
  constraint _ := NSet.bool
  tt := SetModel.tt
  ff := SetModel.ff
  app := SetModel.app
  lam A f := SetModel.lam A.1 f
  unwrap A _ := A.some
  undef := ∅
  tt_ne_ff := SetModel.tt_ne_ff
  mem_bool _ := SetModel.mem_bool
  beta _ _ _ h := SetModel.app_lam h
  lam_congr _ _ _ h := SetModel.lam_congr h
  mem_app _ _ _ _ h h' := (SetModel.mem_pi.1 h).2 _ h'
  mem_lam _ _ _ h := SetModel.lam_mem_pi h
  ext _ _ f g hf hg h := by
    rw [← (SetModel.mem_pi.1 hf).1, ← (SetModel.mem_pi.1 hg).1]
    exact SetModel.lam_congr h

end
end Spec
end Acorn
