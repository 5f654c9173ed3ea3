/-
A small signature with its names: the types `Switch`, `Box` with its match eliminator and `Pack[A]`, a
relation on `Switch`, and polymorphic constants.
-/
import Verif.Spec.SetModel
import Verif.Spec.Quote
namespace Acorn
namespace Spec
namespace DemoQuote
open Term Elab

/-- The types. -/
abbrev switchT : Term := .sym (.type 0 0)
abbrev boxT : Term := .sym (.type 0 1)
abbrev packT (a : Term) : Term := .app (.sym (.type 0 2)) a

/-- Types of the constants. -/
def constType : Nat → Option Term
  | 0 => some switchT
  | 1 => some switchT
  | 2 => some (.pi switchT boxT)
  | 3 => some (.pi .type0 (.pi boxT (.pi (.pi switchT (.bvar 2)) (.bvar 2))))
  | 4 => some (.pi switchT (.pi switchT .boolTy))
  | 5 => some (.pi .type0 (.pi (.bvar 0) .boolTy))
  | 6 => some (.pi .type0 (packT (.bvar 0)))
  | _ => none

/-- The kernel's signature. -/
def K : KCtx where
  globalType m l := if m = 0 then constType l else none
  scopedType _ := none
  paramKinds g := if g = (0, 2) then [.type0] else []
  tcExtends _ _ := false
  tcInstances _ _ := false
  arbitraryTc _ := none
  schemes _ := []

/-- The types, as the elaborator has them. -/
abbrev switch : Ty := .data "Switch" []
abbrev box : Ty := .data "Box" []
abbrev pack (a : Ty) : Ty := .data "Pack" [a]

/-- The tables that lowering reads. -/
def L : Tables where
  datatype n :=
    if n = "Switch" then some (0, 0) else if n = "Box" then some (0, 1) else if n = "Pack" then some (0, 2) else none
  arbitrary _ := none
  typeclass _ := none
  symbol n :=
    if n = "off" then some (.global 0 0)
    else if n = "on" then some (.global 0 1)
    else if n = "Box.mk" then some (.global 0 2)
    else if n = "Box.match" then some (.global 0 3)
    else if n = "less" then some (.global 0 4)
    else if n = "only" then some (.global 0 5)
    else if n = "Pack.empty" then some (.global 0 6)
    else none
  instanceAlias _ _ := none
  generic _ := none

/-- The tables that quoting reads. -/
def N : Names where
  ground g :=
    if g = (0, 0) then some switch else if g = (0, 1) then some box else if g = (0, 2) then some (.data "Pack" [])
    else none
  typeclass _ := none
  const s :=
    match s with
    | .global _ 0 => "off"
    | .global _ 1 => "on"
    | .global _ 2 => "Box.mk"
    | .global _ 3 => "Box.match"
    | .global _ 4 => "less"
    | .global _ 5 => "only"
    | .global _ 6 => "Pack.empty"
    | _ => "?"
  poly n :=
    if n = "Box.match" then some (["R"], .fn [box, .fn [switch] (.tvar "R")] (.tvar "R"))
    else if n = "only" then some (["A"], .fn [.tvar "A"] .bool)
    else if n = "Pack.empty" then some (["A"], pack (.tvar "A"))
    else none
  eliminator n := if n = "Box.match" then some [.global 0 2] else none

theorem prenex_K : Prenex K where
  value s T e hT := by
    match s, e with
    | .true_, e => cases e; rfl
    | .false_, e => cases e; rfl
    | .not_, e => cases e; rfl
    | .and_, e => cases e; rfl
    | .or_, e => cases e; rfl
    | .eq_, e => cases e; rfl
    | .ite_, e => cases e; rfl
    | .bool, e => cases e; cases hT
    | .type0, e => cases e; cases hT
    | .typeclass _ _, e => cases e; cases hT
    | .type m l, e =>
      cases e
      simp only [KCtx.typeKind, K] at hT
      split at hT <;> cases hT
    | .scoped _, e => cases e
    | .global m l, e =>
      simp only [KCtx.symbolType, K] at e
      split at e
      · match l, e with
        | 0, e => cases e; rfl
        | 1, e => cases e; rfl
        | 2, e => cases e; rfl
        | 3, e => cases e; rfl
        | 4, e => cases e; rfl
        | 5, e => cases e; rfl
        | 6, e => cases e; rfl
        | n + 7, e => cases e
      · cases e
  types s T e hT := by
    match s, e with
    | .true_, e => cases e; cases hT
    | .false_, e => cases e; cases hT
    | .not_, e => cases e; cases hT
    | .and_, e => cases e; cases hT
    | .or_, e => cases e; cases hT
    | .eq_, e => cases e; cases hT
    | .ite_, e => cases e; cases hT
    | .bool, e => exact .inl rfl
    | .type0, e => exact .inr (.inr rfl)
    | .typeclass _ _, e => exact .inr (.inr rfl)
    | .type m l, e => exact .inr (.inl ⟨m, l, rfl⟩)
    | .scoped _, e => cases e
    | .global m l, e =>
      simp only [KCtx.symbolType, K] at e
      split at e
      · match l, e with
        | 0, e => cases e; cases hT
        | 1, e => cases e; cases hT
        | 2, e => cases e; cases hT
        | 3, e => cases e; cases hT
        | 4, e => cases e; cases hT
        | 5, e => cases e; cases hT
        | 6, e => cases e; cases hT
        | n + 7, e => cases e
      · cases e
  kinds g k hk := by
    simp only [K] at hk
    split at hk
    · simp only [List.mem_singleton] at hk
      subst hk
      rfl
    · cases hk

theorem inverse (M : Interp) (θ : String → M.D) : Inverse K M L N θ where
  ground g t e := by
    simp only [N] at e
    split at e
    · rename_i hg; cases e; exact .inl ⟨_, rfl, by simp [L, hg]⟩
    split at e
    · rename_i hg; cases e; exact .inl ⟨_, rfl, by simp [L, hg]⟩
    split at e
    · rename_i hg; cases e; exact .inl ⟨_, rfl, by simp [L, hg]⟩
    · cases e
  const s T e hT hl h1 h2 := by
    match s, e with
    | .true_, e => exact absurd rfl h1
    | .false_, e => exact absurd rfl h2
    | .not_, e => cases hl
    | .and_, e => cases hl
    | .or_, e => cases hl
    | .eq_, e => cases hl
    | .ite_, e => cases hl
    | .bool, e => cases e; cases hT
    | .type0, e => cases e; cases hT
    | .typeclass _ _, e => cases e; cases hT
    | .type m l, e =>
      cases e
      simp only [KCtx.typeKind, K] at hT
      split at hT <;> cases hT
    | .scoped _, e => cases e
    | .global m l, e =>
      simp only [KCtx.symbolType, K] at e
      split at e
      · rename_i hm
        subst hm
        match l, e with
        | 0, e => cases e; exact ⟨rfl, rfl⟩
        | 1, e => cases e; exact ⟨rfl, rfl⟩
        | 2, e => cases e; exact ⟨rfl, rfl⟩
        | 3, e => cases e; exact ⟨rfl, rfl⟩
        | 4, e => cases e; exact ⟨rfl, rfl⟩
        | 5, e => cases e; exact ⟨rfl, rfl⟩
        | 6, e => cases e; exact ⟨rfl, rfl⟩
        | n + 7, e => cases e
      · cases e

noncomputable section

open SetModel Classical

/-- Values of the symbols: `Switch` and `Box` have two elements, `less` is the order on them. -/
def vals : Symbol → SetModel.S
  | .type 0 2 => SetModel.lam U fun _ => SetModel.bool
  | .type _ _ => SetModel.bool
  | .global 0 0 => SetModel.ff
  | .global 0 1 => SetModel.tt
  | .global 0 2 => SetModel.lam SetModel.bool fun x => x
  | .global 0 3 => SetModel.lam U fun R => SetModel.lam SetModel.bool fun x =>
      SetModel.lam (SetModel.pi SetModel.bool fun _ => R) fun f => SetModel.app f x
  | .global 0 4 => SetModel.lam SetModel.bool fun x => SetModel.lam SetModel.bool fun y =>
      ofProp (x = SetModel.tt → y = SetModel.tt)
  | .global 0 5 => SetModel.lam U fun A => SetModel.lam A fun x => ofProp (∀ y ∈ A, y = x)
  | .global 0 6 => SetModel.lam U fun _ => SetModel.ff
  | _ => ∅

/-- The interpretation. -/
abbrev M : Interp := interp vals

theorem lawful : Lawful K M := by
  apply SetModel.lawful
  · intro s T hd hk hT _ ρ β
    match s, hd, hk, hT with
    | .type m l, _, _, hT =>
      by_cases h : (m, l) = (0, 2)
      · cases h
        cases hT
        exact lam_mem_pi fun _ _ => U_bool
      · cases hT
        simp only [KCtx.typeKind, K, h, if_false, List.foldr_nil]
        have : vals (.type m l) = SetModel.bool := by
          unfold vals
          split <;> simp_all
        rw [this]
        exact U_bool
    | .scoped l, _, _, hT => cases hT
    | .global m l, _, _, hT =>
      simp only [KCtx.symbolType, K] at hT
      split at hT
      · rename_i h; subst h
        match l, hT with
        | 0, hT => cases hT; exact mem_bool.2 (Or.inr rfl)
        | 1, hT => cases hT; exact mem_bool.2 (Or.inl rfl)
        | 2, hT => cases hT; exact lam_mem_pi fun _ h => h
        | 3, hT =>
          cases hT
          refine lam_mem_pi fun R _ => lam_mem_pi fun x hx => lam_mem_pi fun f hf => ?_
          exact ((mem_pi.1 hf).2 x hx)
        | 4, hT => cases hT; exact lam_mem_pi fun _ _ => lam_mem_pi fun _ _ => ofProp_bool _
        | 5, hT => cases hT; exact lam_mem_pi fun _ _ => lam_mem_pi fun _ _ => ofProp_bool _
        | 6, hT =>
          cases hT
          refine lam_mem_pi fun A hA => ?_
          show SetModel.ff ∈ SetModel.app (SetModel.lam U fun _ => SetModel.bool) A
          rw [SetModel.app_lam (show A ∈ U from hA)]
          exact mem_bool.2 (Or.inr rfl)
        | n + 7, hT => cases hT
      · cases hT
  · intro m l x hx
    exact absurd hx (ZFSet.notMem_empty _)
  · intro c d h; cases h
  · intro m l c h _
    cases h
  · intro c s t h; cases h

end
end DemoQuote
end Spec
end Acorn
