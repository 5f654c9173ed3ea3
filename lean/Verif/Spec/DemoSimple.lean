/-
The demo signature seen by the restricted typing judgement.
-/
import Verif.Spec.Demo
import Verif.Lemmas.Connectives
namespace Acorn
namespace Spec
namespace Demo
open Term

variable {Γ : LCtx} {Δ : BCtx}

theorem s_sym {s : Symbol} {T : Term} (hk : isKindSym s = false)
    (h : K.symbolType s = some T) : STyped K Γ Δ (.sym s) (.ty T) := .sym hk h (ground h)

theorem s_nat : STyped K Γ Δ nat (.ty .type0) := s_sym rfl rfl
theorem s_bool : STyped K Γ Δ .boolTy (.ty .type0) := s_sym rfl rfl
theorem s_zero : STyped K Γ Δ zero (.ty nat) := s_sym rfl rfl
theorem s_prop : STyped K Γ Δ prop (.ty .boolTy) := s_sym rfl rfl
theorem s_tt : STyped K Γ Δ .tt (.ty .boolTy) := s_sym rfl rfl
theorem s_suc {t : Term} (h : STyped K Γ Δ t (.ty nat)) : STyped K Γ Δ (.app suc t) (.ty nat) :=
  .appVal (B := nat) (s_sym rfl rfl) h rfl rfl
theorem s_even {t : Term} (h : STyped K Γ Δ t (.ty nat)) : STyped K Γ Δ (.app even t) (.ty .boolTy) :=
  .appVal (B := .boolTy) (s_sym rfl rfl) h rfl rfl
theorem s_add {t s : Term} (h : STyped K Γ Δ t (.ty nat)) (h' : STyped K Γ Δ s (.ty nat)) :
    STyped K Γ Δ (.app (.app add t) s) (.ty nat) :=
  .appVal (B := nat) (.appVal (B := .pi nat nat) (s_sym rfl rfl) h rfl rfl) h' rfl rfl

theorem models_nil (ρ : Nat → M.D) : Models M [] ρ := by
  intro i T h; simp [LCtx.get] at h

theorem models_nat : Models M [some nat] (fun _ => (∅ : ZFSet)) := by
  intro i T h β
  match i, h with
  | 0, h => cases h; exact ZFSet.omega_zero

end Demo
end Spec
end Acorn
