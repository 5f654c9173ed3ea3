/-
A signature with a type constructor, typeclasses with more than one instance, and a derived class, with a
lawful interpretation in which some types are empty.
-/
import Verif.Spec.DemoSimple
namespace Acorn
namespace Spec
namespace Zoo
open Term SetModel

/-- Numbers. -/
abbrev nat : Term := .sym (.type 0 0)
/-- A type without elements. -/
abbrev void : Term := .sym (.type 0 1)
/-- `wrap : Type0 → Type0`, the type itself. -/
abbrev wrap : Term := .sym (.type 0 2)
/-- Types with a distinguished element; the instance is `nat`. -/
abbrev pointed : Term := .sym (.typeclass 0 0)
/-- A class with instances `nat` and `void`. -/
abbrev plain : Term := .sym (.typeclass 0 1)
/-- A class without instances, which extends `plain`. -/
abbrev special : Term := .sym (.typeclass 0 2)
/-- `zero : nat`. -/
abbrev zero : Term := .sym (.global 0 0)
/-- `point : Π (P : pointed), P`. -/
abbrev point : Term := .sym (.global 0 1)
/-- `box : Π (P : pointed), wrap(P)`. -/
abbrev box : Term := .sym (.global 0 2)
/-- `pick : Π (Q : pointed), Π (P : plain), Q`. -/
abbrev pick : Term := .sym (.global 0 3)
/-- `pack : Π (A : Type0), A → wrap(A)`. -/
abbrev pack : Term := .sym (.global 0 4)
/-- `tiny : Π (A : Type0), Bool`. -/
abbrev tiny : Term := .sym (.global 0 5)

/-- Types of the constants. -/
def constType : Nat → Option Term
  | 0 => some nat
  | 1 => some (.pi pointed (.bvar 0))
  | 2 => some (.pi pointed (.app wrap (.bvar 0)))
  | 3 => some (.pi pointed (.pi plain (.bvar 1)))
  | 4 => some (.pi .type0 (.pi (.bvar 0) (.app wrap (.bvar 1))))
  | 5 => some (.pi .type0 .boolTy)
  | _ => none

/-- The signature. -/
def K : KCtx where
  globalType m l := if m = 0 then constType l else none
  scopedType _ := none
  paramKinds g := if g = (0, 2) then [.type0] else []
  tcExtends c d := c == (0, 2) && d == (0, 1)
  tcInstances c g := (c == (0, 0) && g == (0, 0)) || (c == (0, 1) && (g == (0, 0) || g == (0, 1)))
  arbitraryTc _ := none
  schemes _ := []

theorem const_ground {l : Nat} {T : Term} (h : constType l = some T) : T.Ground := by
  match l, h with
  | 0, h => cases h; exact Demo.ground_of rfl rfl
  | 1, h => cases h; exact Demo.ground_of rfl rfl
  | 2, h => cases h; exact Demo.ground_of rfl rfl
  | 3, h => cases h; exact Demo.ground_of rfl rfl
  | 4, h => cases h; exact Demo.ground_of rfl rfl
  | 5, h => cases h; exact Demo.ground_of rfl rfl
  | n + 6, h => cases h

noncomputable section

/-- Values of the constants. -/
def vals : Symbol → S
  | .type 0 1 => ∅
  | .type 0 2 => lam U fun A => A
  | .type _ _ => ZFSet.omega
  | .typeclass 0 0 => {ZFSet.omega}
  | .typeclass 0 1 => {ZFSet.omega, ∅}
  | .typeclass _ _ => ∅
  | .global 0 0 => ∅
  | .global 0 1 => lam {ZFSet.omega} fun _ => ∅
  | .global 0 2 => lam {ZFSet.omega} fun _ => ∅
  | .global 0 3 => lam {ZFSet.omega} fun _ => lam {ZFSet.omega, ∅} fun _ => ∅
  | .global 0 4 => lam U fun A => lam A fun a => a
  | .global 0 5 => lam U fun A => ofProp (∀ a ∈ A, ∀ b ∈ A, a = b)
  | _ => ∅

/-- The interpretation. -/
abbrev M : Interp := interp vals

theorem wrap_val {A : S} (h : A ∈ U) : app (vals (.type 0 2)) A = A := app_lam h

theorem lawful : Lawful K M := by
  apply SetModel.lawful
  · intro s T hd hk hT _ ρ β
    match s, hd, hk, hT with
    | .type m l, _, _, hT =>
      match m, l, hT with
      | 0, 0, hT => cases hT; exact U_omega
      | 0, 1, hT => cases hT; exact U_empty
      | 0, 2, hT => cases hT; exact lam_mem_pi fun A hA => hA
      | 0, l + 3, hT => cases hT; exact U_omega
      | m + 1, l, hT => cases hT; exact U_omega
    | .scoped l, _, _, hT => cases hT
    | .global m l, _, _, hT =>
      simp only [KCtx.symbolType, K] at hT
      split at hT
      · rename_i h; subst h
        match l, hT with
        | 0, hT => cases hT; exact ZFSet.omega_zero
        | 1, hT =>
          cases hT
          exact lam_mem_pi fun A hA => by rw [ZFSet.mem_singleton] at hA; rw [hA]; exact ZFSet.omega_zero
        | 2, hT =>
          cases hT
          refine lam_mem_pi fun A hA => ?_
          rw [ZFSet.mem_singleton] at hA
          subst hA
          show (∅ : ZFSet) ∈ app (vals (.type 0 2)) ZFSet.omega
          rw [wrap_val U_omega]
          exact ZFSet.omega_zero
        | 3, hT =>
          cases hT
          exact lam_mem_pi fun A hA => lam_mem_pi fun B hB => by
            rw [ZFSet.mem_singleton] at hA; subst hA; exact ZFSet.omega_zero
        | 4, hT =>
          cases hT
          refine lam_mem_pi fun A hA => lam_mem_pi fun a ha => ?_
          show a ∈ app (vals (.type 0 2)) A
          rw [wrap_val hA]
          exact ha
        | 5, hT => cases hT; exact lam_mem_pi fun A _ => ofProp_bool _
        | n + 6, hT => cases hT
      · cases hT
  · intro m l x hx
    match m, l, hx with
    | 0, 0, hx => rw [vals, ZFSet.mem_singleton] at hx; rw [hx]; exact U_omega
    | 0, 1, hx =>
      rw [vals, ZFSet.mem_pair] at hx
      rcases hx with rfl | rfl
      · exact U_omega
      · exact U_empty
    | 0, l + 2, hx => exact absurd hx (ZFSet.notMem_empty _)
    | m + 1, l, hx => exact absurd hx (ZFSet.notMem_empty _)
  · intro c d h
    simp [K] at h
    obtain ⟨rfl, rfl⟩ := h
    intro x hx
    exact absurd hx (ZFSet.notMem_empty _)
  · intro m l c h _
    simp only [KCtx.isInstanceOf, K] at h
    simp at h
    rcases h with ⟨rfl, rfl, rfl⟩ | ⟨rfl, ⟨rfl, rfl⟩ | ⟨rfl, rfl⟩⟩
    · exact ZFSet.mem_singleton.2 rfl
    · exact ZFSet.mem_pair.2 (.inl rfl)
    · exact ZFSet.mem_pair.2 (.inr rfl)
  · intro c s t h; cases h

end
end Zoo
end Spec
end Acorn
