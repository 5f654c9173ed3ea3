/-
A small concrete signature with a lawful set-theoretic interpretation, used by the examples that show
hypotheses can be met: a type `nat`, a typeclass `mon` with instance `nat`, and a few constants.
-/
import Verif.Spec.SetModel
import Verif.Lemmas.Typing
namespace Acorn
namespace Spec
namespace Demo
open Term SetModel

/-- The type of numbers. -/
abbrev nat : Term := .sym (.type 0 0)
/-- A type without elements. -/
abbrev void : Term := .sym (.type 0 1)
/-- A typeclass. -/
abbrev mon : Term := .sym (.typeclass 0 0)
/-- `zero : nat`. -/
abbrev zero : Term := .sym (.global 0 0)
/-- `suc : nat → nat`. -/
abbrev suc : Term := .sym (.global 0 1)
/-- `even : nat → Bool`. -/
abbrev even : Term := .sym (.global 0 2)
/-- `add : nat → nat → nat`. -/
abbrev add : Term := .sym (.global 0 3)
/-- `mul : Π (A : mon), A → A → A`. -/
abbrev mul : Term := .sym (.global 0 4)
/-- `b : Bool`. -/
abbrev prop : Term := .sym (.global 0 5)
/-- `single : Π (A : Type0), Bool`, true of types with at most one element. -/
abbrev single : Term := .sym (.global 0 6)
/-- `never : Π (A : Type0), Bool`, always false. -/
abbrev never : Term := .sym (.global 0 7)

/-- Types of the constants. -/
def constType : Nat → Option Term
  | 0 => some nat
  | 1 => some (.pi nat nat)
  | 2 => some (.pi nat .boolTy)
  | 3 => some (.pi nat (.pi nat nat))
  | 4 => some (.pi mon (.pi (.bvar 0) (.pi (.bvar 1) (.bvar 2))))
  | 5 => some .boolTy
  | 6 => some (.pi .type0 .boolTy)
  | 7 => some (.pi .type0 .boolTy)
  | _ => none

/-- The signature. -/
def K : KCtx where
  globalType m l := if m = 0 then constType l else none
  scopedType _ := none
  paramKinds _ := []
  tcExtends _ _ := false
  tcInstances c g := c == (0, 0) && g == (0, 0)
  arbitraryTc _ := none
  schemes _ := []

theorem ground_of {t : Term} (h1 : t.escapes = false) (h2 : t.hasAnyVar = false) : t.Ground := by
  refine ⟨h1, fun i => ?_⟩
  rw [hasVar, List.any_eq_false]
  intro a ha e
  rw [hasAnyVar, List.any_eq_false] at h2
  have := h2 a ha
  simp only [beq_iff_eq] at e
  subst e
  simp at this

theorem const_ground {l : Nat} {T : Term} (h : constType l = some T) : T.Ground := by
  match l, h with
  | 0, h => cases h; exact ground_of rfl rfl
  | 1, h => cases h; exact ground_of rfl rfl
  | 2, h => cases h; exact ground_of rfl rfl
  | 3, h => cases h; exact ground_of rfl rfl
  | 4, h => cases h; exact ground_of rfl rfl
  | 5, h => cases h; exact ground_of rfl rfl
  | 6, h => cases h; exact ground_of rfl rfl
  | 7, h => cases h; exact ground_of rfl rfl
  | n + 8, h => cases h

/-- All symbol types of the signature are closed. -/
theorem ground {s : Symbol} {T : Term} (h : K.symbolType s = some T) : T.Ground := by
  match s, h with
  | .true_, h | .false_, h | .not_, h | .and_, h | .or_, h | .eq_, h | .ite_, h | .bool, h | .type0, h
  | .type _ _, h | .typeclass _ _, h => cases h; exact ground_of rfl rfl
  | .global m l, h =>
    simp only [KCtx.symbolType, K] at h
    split at h
    · exact const_ground h
    · cases h
  | .scoped l, h => cases h

theorem typed_sym {Γ : LCtx} {Δ : BCtx} {s : Symbol} {T : Term} (hk : isKindSym s = false)
    (h : K.symbolType s = some T) : Typed K Γ Δ (.sym s) (.ty T) := .sym hk h (ground h)

theorem nat_ty {Γ : LCtx} {Δ : BCtx} : Typed K Γ Δ nat (.ty .type0) := typed_sym rfl rfl
theorem zero_ty {Γ : LCtx} {Δ : BCtx} : Typed K Γ Δ zero (.ty nat) := typed_sym rfl rfl
theorem suc_ty {Γ : LCtx} {Δ : BCtx} : Typed K Γ Δ suc (.ty (.pi nat nat)) := typed_sym rfl rfl
theorem even_ty {Γ : LCtx} {Δ : BCtx} : Typed K Γ Δ even (.ty (.pi nat .boolTy)) :=
  typed_sym rfl rfl
theorem add_ty {Γ : LCtx} {Δ : BCtx} : Typed K Γ Δ add (.ty (.pi nat (.pi nat nat))) :=
  typed_sym rfl rfl
theorem prop_ty {Γ : LCtx} {Δ : BCtx} : Typed K Γ Δ prop (.ty .boolTy) := typed_sym rfl rfl

noncomputable section

/-- Values of the constants: `even` is true of zero only. -/
def vals : Symbol → S
  | .type 0 1 => ∅
  | .type _ _ => ZFSet.omega
  | .typeclass 0 0 => {ZFSet.omega}
  | .typeclass _ _ => ∅
  | .global 0 0 => ∅
  | .global 0 1 => lam ZFSet.omega fun n => insert n n
  | .global 0 2 => lam ZFSet.omega fun n => ofProp (n = ∅)
  | .global 0 3 => lam ZFSet.omega fun n => lam ZFSet.omega fun _ => n
  | .global 0 4 => lam {ZFSet.omega} fun A => lam A fun a => lam A fun _ => a
  | .global 0 5 => tt
  | .global 0 6 => lam U fun A => ofProp (∀ a ∈ A, ∀ b ∈ A, a = b)
  | .global 0 7 => lam U fun _ => ff
  | _ => ∅

/-- The demo interpretation. -/
abbrev M : Interp := interp vals

theorem lawful : Lawful K M := by
  apply SetModel.lawful
  · intro s T hd hk hT _ ρ β
    match s, hd, hk, hT with
    | .type m l, _, _, hT =>
      cases hT
      show vals (.type m l) ∈ U
      match m, l with
      | 0, 0 => exact U_omega
      | 0, 1 => exact U_empty
      | 0, l + 2 => exact U_omega
      | m + 1, l => exact U_omega
    | .scoped l, _, _, hT => cases hT
    | .global m l, _, _, hT =>
      simp only [KCtx.symbolType, K] at hT
      split at hT
      · rename_i h; subst h
        match l, hT with
        | 0, hT => cases hT; exact ZFSet.omega_zero
        | 1, hT => cases hT; exact lam_mem_pi fun n hn => ZFSet.omega_succ hn
        | 2, hT => cases hT; exact lam_mem_pi fun n hn => ofProp_bool _
        | 3, hT => cases hT; exact lam_mem_pi fun n hn => lam_mem_pi fun _ _ => hn
        | 4, hT =>
          cases hT
          exact lam_mem_pi fun A _ => lam_mem_pi fun n hn => lam_mem_pi fun _ _ => hn
        | 5, hT => cases hT; exact mem_bool.2 (Or.inl rfl)
        | 6, hT => cases hT; exact lam_mem_pi fun A _ => ofProp_bool _
        | 7, hT => cases hT; exact lam_mem_pi fun A _ => mem_bool.2 (Or.inr rfl)
        | n + 8, hT => cases hT
      · cases hT
  · intro m l x hx
    match m, l, hx with
    | 0, 0, hx => rw [vals, ZFSet.mem_singleton] at hx; rw [hx]; exact U_omega
    | 0, l + 1, hx => exact absurd hx (ZFSet.notMem_empty _)
    | m + 1, l, hx => exact absurd hx (ZFSet.notMem_empty _)
  · intro c d h; cases h
  · intro m l c h _
    simp [KCtx.isInstanceOf, K] at h
    obtain ⟨rfl, rfl, rfl⟩ := h
    exact ZFSet.mem_singleton.2 rfl
  · intro c s t h; cases h

end
end Demo
end Spec
end Acorn
