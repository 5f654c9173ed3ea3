/-
A small signature with an inductive type, `inductive Box { mk(Bool) }`, its match eliminator and some
functions defined by cases, with an interpretation in which no type is empty.
-/
import Verif.Spec.SetModelNonempty
import Verif.Spec.SimplyTyped
import Verif.Spec.Clausifier
import Verif.Lemmas.Typing
namespace Acorn
namespace Spec
namespace DemoBox
open Term SetModel

/-- The inductive type. -/
abbrev box : Term := .sym (.type 0 0)
/-- Its constructor, `mk : Bool → Box`. -/
abbrev mk : Term := .sym (.global 0 0)
/-- `match : Π (R : Type0), Box → (Bool → R) → R`. -/
abbrev elim : Term := .sym (.global 0 1)
/-- `foo : Box → (Bool → Bool) → (Bool → Bool) → Bool`. -/
abbrev foo : Term := .sym (.global 0 2)
/-- `bar : Box → Bool`. -/
abbrev bar : Term := .sym (.global 0 3)
/-- `unbox : Box → Bool`. -/
abbrev unbox : Term := .sym (.global 0 4)
/-- `only : Π (A : Type0), A → Bool`, true of the elements of types with one element. -/
abbrev only : Term := .sym (.global 0 5)
/-- Functions on `Bool`. -/
abbrev op : Term := .pi .boolTy .boolTy

/-- Types of the constants. -/
def constType : Nat → Option Term
  | 0 => some (.pi .boolTy box)
  | 1 => some (.pi .type0 (.pi box (.pi (.pi .boolTy (.bvar 2)) (.bvar 2))))
  | 2 => some (.pi box (.pi op (.pi op .boolTy)))
  | 3 => some (.pi box .boolTy)
  | 4 => some (.pi box .boolTy)
  | 5 => some (.pi .type0 (.pi (.bvar 0) .boolTy))
  | _ => none

/-- The signature. -/
def K : Clausify.Kernel where
  toKCtx := {
    globalType m l := if m = 0 then constType l else none
    scopedType _ := none
    paramKinds _ := []
    tcExtends _ _ := false
    tcInstances _ _ := false
    arbitraryTc _ := none
    schemes _ := [] }
  matchInfo s := if s = .global 0 1 then some [.global 0 0] else none

theorem ground_of {t : Term} (h1 : t.escapes = false) (h2 : t.hasAnyVar = false) : t.Ground := by
  refine ⟨h1, fun i => ?_⟩
  rw [hasVar, List.any_eq_false]
  intro a ha e
  rw [hasAnyVar, List.any_eq_false] at h2
  have := h2 a ha
  simp only [beq_iff_eq] at e
  subst e
  simp at this

theorem ground {s : Symbol} {T : Term} (h : K.toKCtx.symbolType s = some T) : T.Ground := by
  match s, h with
  | .true_, h | .false_, h | .not_, h | .and_, h | .or_, h | .eq_, h | .ite_, h | .bool, h | .type0, h
  | .type _ _, h | .typeclass _ _, h => cases h; exact ground_of rfl rfl
  | .global m l, h =>
    simp only [KCtx.symbolType, K] at h
    split at h
    · match l, h with
      | 0, h => cases h; exact ground_of rfl rfl
      | 1, h => cases h; exact ground_of rfl rfl
      | 2, h => cases h; exact ground_of rfl rfl
      | 3, h => cases h; exact ground_of rfl rfl
      | 4, h => cases h; exact ground_of rfl rfl
      | 5, h => cases h; exact ground_of rfl rfl
      | n + 6, h => cases h
    · cases h
  | .scoped l, h => cases h

section
variable {Γ : LCtx} {Δ : BCtx}

theorem s_sym {s : Symbol} {T : Term} (hk : isKindSym s = false) (h : K.toKCtx.symbolType s = some T) :
    STyped K.toKCtx Γ Δ (.sym s) (.ty T) := .sym hk h (ground h)
theorem s_box : STyped K.toKCtx Γ Δ box (.ty .type0) := s_sym rfl rfl
theorem s_bool : STyped K.toKCtx Γ Δ .boolTy (.ty .type0) := s_sym rfl rfl
theorem s_op : STyped K.toKCtx Γ Δ op (.ty .type0) := .pi s_bool s_bool
theorem s_mk {t : Term} (h : STyped K.toKCtx Γ Δ t (.ty .boolTy)) : STyped K.toKCtx Γ Δ (.app mk t) (.ty box) :=
  .appVal (B := box) (s_sym rfl rfl) h rfl rfl
theorem s_bar {t : Term} (h : STyped K.toKCtx Γ Δ t (.ty box)) : STyped K.toKCtx Γ Δ (.app bar t) (.ty .boolTy) :=
  .appVal (B := .boolTy) (s_sym rfl rfl) h rfl rfl
theorem s_unbox {t : Term} (h : STyped K.toKCtx Γ Δ t (.ty box)) :
    STyped K.toKCtx Γ Δ (.app unbox t) (.ty .boolTy) :=
  .appVal (B := .boolTy) (s_sym rfl rfl) h rfl rfl
theorem s_foo {x f g : Term} (hx : STyped K.toKCtx Γ Δ x (.ty box)) (hf : STyped K.toKCtx Γ Δ f (.ty op))
    (hg : STyped K.toKCtx Γ Δ g (.ty op)) : STyped K.toKCtx Γ Δ (.app (.app (.app foo x) f) g) (.ty .boolTy) :=
  .appVal (B := .boolTy) (.appVal (B := .pi op .boolTy) (.appVal (B := .pi op (.pi op .boolTy))
    (s_sym rfl rfl) hx rfl rfl) hf rfl rfl) hg rfl rfl
theorem s_elim {R x h : Term} (hR : STyped K.toKCtx Γ Δ R (.ty .type0)) (c : R.escapes = false) (k : endsKind R = false)
    (hx : STyped K.toKCtx Γ Δ x (.ty box)) (hh : STyped K.toKCtx Γ Δ h (.ty (.pi .boolTy R))) :
    STyped K.toKCtx Γ Δ (.app (.app (.app elim R) x) h) (.ty R) := by
  have h1 : STyped K.toKCtx Γ Δ (.app elim R) (.ty (.pi box (.pi (.pi .boolTy R) R))) := by
    have := STyped.appTy (K := K.toKCtx) (Γ := Γ) (Δ := Δ) (f := elim) (a := R) (A := .type0)
      (B := .pi box (.pi (.pi .boolTy (.bvar 2)) (.bvar 2))) (s_sym rfl rfl) hR rfl
    have e : Term.inst 0 R (.pi box (.pi (.pi .boolTy (.bvar 2)) (.bvar 2))) = .pi box (.pi (.pi .boolTy R) R) := by
      simp only [Term.inst]
      simp [up_eq_ren, ren_closed _ _ c]
    rw [e] at this; exact this
  have e : Term.ren Nat.succ R = R := ren_closed _ _ c
  refine .appVal (A := .pi .boolTy R) (B := R) ?_ hh k k
  have e2 : Term.ren Nat.succ (.pi (.pi .boolTy R) R) = .pi (.pi .boolTy R) R := by
    simp [Term.ren, ren_closed _ _ c]
  rw [e]
  refine .appVal (A := box) (B := .pi (.pi .boolTy R) R) ?_ hx rfl k
  rw [e2]; exact h1

end

noncomputable section

/-- Values of the constants. -/
def vals : Symbol → S
  | .type _ _ => bool
  | .global 0 0 => lam bool fun b => b
  | .global 0 1 => lam V fun R => lam bool fun x => lam (pi bool fun _ => R) fun h => app h x
  | .global 0 2 => lam bool fun _ => lam (pi bool fun _ => bool) fun f => lam (pi bool fun _ => bool) fun g =>
      ofProp (f ≠ g)
  | .global 0 3 => lam bool fun x => ofProp (x = SetModel.ff)
  | .global 0 4 => lam bool fun x => x
  | .global 0 5 => lam V fun A => lam A fun x => ofProp (∀ y ∈ A, y = x)
  | _ => ∅

/-- The interpretation. -/
abbrev M : Interp := interpV vals

theorem noEmptyTypes : NoEmptyTypes M := fun _ hT => (mem_V.1 hT).2

theorem lawful : Lawful K.toKCtx M := by
  apply SetModel.lawfulV
  · intro s T hd hk hT _ ρ β
    match s, hd, hk, hT with
    | .type m l, _, _, hT => cases hT; exact V_bool
    | .scoped l, _, _, hT => cases hT
    | .global m l, _, _, hT =>
      simp only [KCtx.symbolType, K] at hT
      split at hT
      · rename_i h; subst h
        match l, hT with
        | 0, hT => cases hT; exact lam_mem_pi fun b hb => hb
        | 1, hT =>
          cases hT
          exact lam_mem_pi fun R _ => lam_mem_pi fun x hx => lam_mem_pi fun h hh => (mem_pi.1 hh).2 x hx
        | 2, hT =>
          cases hT
          exact lam_mem_pi fun _ _ => lam_mem_pi fun _ _ => lam_mem_pi fun _ _ => ofProp_bool _
        | 3, hT => cases hT; exact lam_mem_pi fun _ _ => ofProp_bool _
        | 4, hT => cases hT; exact lam_mem_pi fun _ hx => hx
        | 5, hT => cases hT; exact lam_mem_pi fun _ _ => lam_mem_pi fun _ _ => ofProp_bool _
        | n + 6, hT => cases hT
      · cases hT
  · intro m l x hx; exact absurd hx (ZFSet.notMem_empty _)
  · intro c d h; cases h
  · intro m l c h _
    simp [KCtx.isInstanceOf, K] at h
  · intro c s t h; cases h

end
end DemoBox
end Spec
end Acorn
