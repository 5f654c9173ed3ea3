/-
A small theory with its registration in the kernel: `inductive Switch { off on }` with its match
eliminator, a typeclass `Mon` with an attribute `unit` and the instance `Switch: Mon`, whose attribute has
a symbol of its own, and a polymorphic predicate `only`.
-/
import Verif.Spec.SetModel
import Verif.Spec.Lowering
namespace Acorn
namespace Spec
namespace DemoLower
open Term Elab

/-- Types of the constants. -/
def constType : Nat → Option Term
  | 0 => some (.sym (.type 0 0))
  | 1 => some (.sym (.type 0 0))
  | 2 => some (.pi .type0 (.pi (.sym (.type 0 0)) (.pi (.bvar 1) (.pi (.bvar 2) (.bvar 3)))))
  | 3 => some (.pi .type0 (.pi (.bvar 0) .boolTy))
  | 4 => some (.pi (.sym (.typeclass 0 0)) (.bvar 0))
  | 5 => some (.sym (.type 0 0))
  | _ => none

/-- The kernel's signature. -/
def K : KCtx where
  globalType m l := if m = 0 then constType l else none
  scopedType _ := none
  paramKinds _ := []
  tcExtends _ _ := false
  tcInstances c g := c == (0, 0) && g == (0, 0)
  arbitraryTc _ := none
  schemes _ := []

/-- The type `Switch`. -/
abbrev switch : Ty := .data "Switch" []

/-- The tables of the kernel. -/
def L : Tables where
  datatype n := if n = "Switch" then some (0, 0) else none
  arbitrary _ := none
  typeclass n := if n = "Mon" then some (0, 0) else none
  symbol n :=
    if n = "Switch.off" then some (.global 0 0)
    else if n = "Switch.on" then some (.global 0 1)
    else if n = "Switch.match" then some (.global 0 2)
    else if n = "only" then some (.global 0 3)
    else if n = "Mon.unit" then some (.global 0 4)
    else none
  instanceAlias n ts :=
    match ts with
    | [.data d []] => if n = "Mon.unit" ∧ d = "Switch" then some (.global 0 5) else none
    | _ => none
  generic n :=
    if n = "only" then constType 3 else if n = "Mon.unit" then constType 4 else none

/-- The theory. -/
def theory : Theory where
  const n :=
    if n = "Switch.off" then some ([], switch)
    else if n = "Switch.on" then some ([], switch)
    else if n = "only" then some ([("A", none)], .fn [.tvar "A"] .bool)
    else if n = "Mon.unit" then some ([("M", some "Mon")], .tvar "M")
    else none
  datatype n := if n = "Switch" then some [] else none
  inClass t c := t = switch ∧ c = "Mon"
  constructors d as ks := d = "Switch" ∧ as = [] ∧ ks = [("Switch.off", [], []), ("Switch.on", [], [])]

theorem registered : Registered K L theory where
  datatype d ks e := by
    simp only [theory] at e
    split at e
    · rename_i hd
      cases e
      exact ⟨(0, 0), by simp [L, hd], rfl⟩
    · cases e
  arbitrary n g e := rfl
  const n ps g e := by
    simp only [theory] at e
    split at e
    · rename_i hn
      subst hn
      cases e
      exact ⟨List.nodup_nil, .global 0 0, .sym (.type 0 0), rfl, rfl, rfl, rfl⟩
    split at e
    · rename_i hn
      subst hn
      cases e
      exact ⟨List.nodup_nil, .global 0 1, .sym (.type 0 0), rfl, rfl, rfl, rfl⟩
    split at e
    · rename_i hn
      subst hn
      cases e
      exact ⟨by simp, .global 0 3, .pi .type0 (.pi (.bvar 0) .boolTy), rfl, rfl, rfl, rfl⟩
    split at e
    · rename_i hn
      subst hn
      cases e
      exact ⟨by simp, .global 0 4, .pi (.sym (.typeclass 0 0)) (.bvar 0), rfl, rfl, rfl, rfl⟩
    · cases e
  bare n g e := by
    simp only [theory] at e
    split at e
    · rename_i hn
      subst hn
      rfl
    split at e
    · rename_i hn
      subst hn
      rfl
    split at e
    · cases e
    split at e
    · cases e
    · cases e

noncomputable section

open SetModel Classical

/-- Values of the symbols. -/
def vals : Symbol → SetModel.S
  | .type _ _ => SetModel.bool
  | .typeclass 0 0 => {SetModel.bool}
  | .typeclass _ _ => ∅
  | .global 0 0 => SetModel.ff
  | .global 0 1 => SetModel.tt
  | .global 0 2 => SetModel.lam U fun R => SetModel.lam SetModel.bool fun x => SetModel.lam R fun a => SetModel.lam R fun b =>
      if x = SetModel.ff then a else b
  | .global 0 3 => SetModel.lam U fun A => SetModel.lam A fun x => ofProp (∀ y ∈ A, y = x)
  | .global 0 4 => SetModel.lam {SetModel.bool} fun _ => SetModel.tt
  | .global 0 5 => SetModel.tt
  | _ => ∅

/-- The interpretation. -/
abbrev M : Interp := interp vals

theorem lawful : Lawful K M := by
  apply SetModel.lawful
  · intro s T hd hk hT _ ρ β
    match s, hd, hk, hT with
    | .type m l, _, _, hT => cases hT; exact U_bool
    | .scoped l, _, _, hT => cases hT
    | .global m l, _, _, hT =>
      simp only [KCtx.symbolType, K] at hT
      split at hT
      · rename_i h; subst h
        match l, hT with
        | 0, hT => cases hT; exact mem_bool.2 (Or.inr rfl)
        | 1, hT => cases hT; exact mem_bool.2 (Or.inl rfl)
        | 2, hT =>
          cases hT
          refine lam_mem_pi fun R _ => lam_mem_pi fun x _ => lam_mem_pi fun a ha => lam_mem_pi fun b hb => ?_
          split
          · exact ha
          · exact hb
        | 3, hT => cases hT; exact lam_mem_pi fun _ _ => lam_mem_pi fun _ _ => ofProp_bool _
        | 4, hT =>
          cases hT
          refine lam_mem_pi fun A hA => ?_
          have hA : A ∈ ({SetModel.bool} : SetModel.S) := hA
          rw [ZFSet.mem_singleton] at hA
          show SetModel.tt ∈ A
          rw [hA]
          exact mem_bool.2 (Or.inl rfl)
        | 5, hT => cases hT; exact mem_bool.2 (Or.inl rfl)
        | n + 6, hT => cases hT
      · cases hT
  · intro m l x hx
    match m, l, hx with
    | 0, 0, hx => rw [vals, ZFSet.mem_singleton] at hx; rw [hx]; exact U_bool
    | 0, l + 1, hx => exact absurd hx (ZFSet.notMem_empty _)
    | m + 1, l, hx => exact absurd hx (ZFSet.notMem_empty _)
  · intro c d h; cases h
  · intro m l c h _
    simp [KCtx.isInstanceOf, K] at h
    obtain ⟨rfl, rfl, rfl⟩ := h
    exact ZFSet.mem_singleton.2 rfl
  · intro c s t h; cases h

/-- One type parameter `T` is in scope, as variable 0. -/
abbrev tv : List (String × Nat) := [("T", 0)]

/-- The type parameter means the type of truth values. -/
def ρ : Nat → M.D := fun _ => SetModel.bool

theorem agrees : Agrees lawful L theory tv ρ where
  params n i _ := U_bool
  apart n ps g e m hm := by
    simp only [theory] at e
    split at e
    · cases e; simp [tyNames, tysNames] at hm
    split at e
    · cases e; simp [tyNames, tysNames] at hm
    split at e
    · cases e; simp [tyNames, tysNames] at hm; simp [hm]
    split at e
    · cases e; simp [tyNames] at hm; simp [hm]
    · cases e
  inClass t c e := by
    obtain ⟨rfl, rfl⟩ := e
    exact ⟨(0, 0), rfl, ZFSet.mem_singleton.2 rfl⟩
  alias_ n ts s e := by
    simp only [L] at e
    split at e
    · split at e
      · rename_i hn
        obtain ⟨rfl, rfl⟩ := hn
        cases e
        exact (SetModel.app_lam (A := {SetModel.bool}) (g := fun _ => SetModel.tt) (a := SetModel.bool)
          (ZFSet.mem_singleton.2 rfl)).symm
      · cases e
    · cases e
  covers d as ks e x hx := by
    obtain ⟨rfl, rfl, rfl⟩ := e
    rcases mem_bool.1 hx with rfl | rfl
    · exact ⟨_, List.mem_cons_of_mem _ List.mem_cons_self, [], trivial, rfl⟩
    · exact ⟨_, List.mem_cons_self, [], trivial, rfl⟩
  chooses d as ks m e hm r fs hr hfs i k xs hk hxs := by
    obtain ⟨rfl, rfl, rfl⟩ := e
    have hm : m = .global 0 2 := by
      injection hm with hm
      exact hm.symm
    subst hm
    match fs, hfs with
    | [a, b], ⟨ha, hb, _⟩ =>
      have key : ∀ x, x ∈ SetModel.bool → SetModel.app (SetModel.app (SetModel.app (SetModel.app (vals (.global 0 2)) r) x) a) b =
          if x = SetModel.ff then a else b := by
        intro x hx
        simp only [vals]
        rw [SetModel.app_lam (show r ∈ U from hr), SetModel.app_lam hx, SetModel.app_lam (A := r) (a := a) ha,
          SetModel.app_lam (A := r) (a := b) hb]
        rfl
      match i, hk with
      | 0, hk =>
        cases hk
        match xs, hxs with
        | [], _ =>
          refine (key SetModel.ff (mem_bool.2 (.inr rfl))).trans ?_
          rw [if_pos rfl]
          rfl
      | 1, hk =>
        cases hk
        match xs, hxs with
        | [], _ =>
          refine (key SetModel.tt (mem_bool.2 (.inl rfl))).trans ?_
          rw [if_neg tt_ne_ff]
          rfl
      | n + 2, hk => simp at hk

end
end DemoLower
end Spec
end Acorn
