/-
The demo signature with an interpretation in which every type has an element.
-/
import Verif.Spec.DemoSimple
import Verif.Spec.Checker
import Verif.Lemmas.PlainTypes
namespace Acorn
namespace Spec
namespace Demo
open Term SetModel

noncomputable section

/-- As `vals`, but no type is empty. -/
def fullVals : Symbol → S
  | .type _ _ => ZFSet.omega
  | .typeclass 0 0 => {ZFSet.omega}
  | .typeclass _ _ => ∅
  | .global 0 0 => ∅
  | .global 0 1 => lam ZFSet.omega fun n => insert n n
  | .global 0 2 => lam ZFSet.omega fun n => ofProp (n = ∅)
  | .global 0 3 => lam ZFSet.omega fun n => lam ZFSet.omega fun _ => n
  | .global 0 4 => lam {ZFSet.omega} fun A => lam A fun a => lam A fun _ => a
  | .global 0 5 => tt
  | .global 0 6 => lam U fun A => ofProp (∀ a ∈ A, ∀ b ∈ A, a = b)
  | .global 0 7 => lam U fun _ => ff
  | _ => ∅

/-- The interpretation. -/
abbrev Full : Interp := interp fullVals

theorem sortFree_of {t : Term}
    (h : t.atoms.all (fun a => match a with | .sym s => !isKindSym s | _ => true) = true) : SortFree t := by
  intro a ha
  have := List.all_eq_true.1 h a ha
  constructor
  · rintro rfl; cases this
  · intro m n e; subst e; cases this

theorem full_lawful : Lawful K Full := by
  apply SetModel.lawful
  · intro s T hd hk hT _ ρ β
    match s, hd, hk, hT with
    | .type m l, _, _, hT =>
      cases hT
      exact U_omega
    | .scoped l, _, _, hT => cases hT
    | .global m l, _, _, hT =>
      simp only [KCtx.symbolType, K] at hT
      split at hT
      · rename_i h; subst h
        match l, hT with
        | 0, hT => cases hT; exact ZFSet.omega_zero
        | 1, hT => cases hT; exact lam_mem_pi fun n hn => ZFSet.omega_succ hn
        | 2, hT => cases hT; exact lam_mem_pi fun n hn => ofProp_bool _
        | 3, hT => cases hT; exact lam_mem_pi fun n hn => lam_mem_pi fun _ _ => hn
        | 4, hT =>
          cases hT
          exact lam_mem_pi fun A _ => lam_mem_pi fun n hn => lam_mem_pi fun _ _ => hn
        | 5, hT => cases hT; exact mem_bool.2 (Or.inl rfl)
        | 6, hT => cases hT; exact lam_mem_pi fun A _ => ofProp_bool _
        | 7, hT => cases hT; exact lam_mem_pi fun A _ => mem_bool.2 (Or.inr rfl)
        | n + 8, hT => cases hT
      · cases hT
  · intro m l x hx
    match m, l, hx with
    | 0, 0, hx =>
      rw [fullVals, ZFSet.mem_singleton] at hx; rw [hx]; exact U_omega
    | 0, l + 1, hx => exact absurd hx (ZFSet.notMem_empty _)
    | m + 1, l, hx => exact absurd hx (ZFSet.notMem_empty _)
  · intro c d h; cases h
  · intro m l c h _
    simp [KCtx.isInstanceOf, K] at h
    obtain ⟨rfl, rfl, rfl⟩ := h
    exact ZFSet.mem_singleton.2 rfl
  · intro c s t h; cases h

theorem full_type_sym (m l : Nat) : ∃ d, d ∈ fullVals (.type m l) :=
  ⟨∅, ZFSet.omega_zero⟩

theorem full_type {Γ : LCtx} {Δ : BCtx} {t : Term} {J : Jdg} (h : STyped K Γ Δ t J)
    (hΓ : ∀ i T, Γ.get i = some T → endsKind T = false) : (∀ i T, Δ i = some T → endsKind T = false) →
    ∀ T, J = .ty T → endsKind T = true →
      (∀ A B, T ≠ .pi A B) ∧ ∀ ρ β, ∃ d, Full.mem d (eval Full ρ β t) := by
  induction h with
  | fvar h1 _ => intro _ T e k; cases e; rw [hΓ _ _ h1] at k; cases k
  | bvar h1 => intro hΔ T e k; cases e; rw [hΔ _ _ h1] at k; cases k
  | @sym Δ s T h1 h2 _ =>
    intro _ T e k; cases e
    match s, h1, h2 with
    | .true_, _, h2 | .false_, _, h2 | .not_, _, h2 | .and_, _, h2 | .or_, _, h2 | .eq_, _, h2
    | .ite_, _, h2 => cases h2; exact absurd k (by decide)
    | .bool, _, h2 => cases h2; exact ⟨fun _ _ h => (by cases h), fun _ _ => ⟨SetModel.tt, mem_bool.2 (Or.inl rfl)⟩⟩
    | .type m l, _, h2 => cases h2; exact ⟨fun _ _ h => (by cases h), fun _ _ => full_type_sym m l⟩
    | .scoped l, _, hT => cases hT
    | .global m l, _, hT =>
      simp only [KCtx.symbolType, K] at hT
      split at hT
      · match l, hT with
        | 0, hT | 1, hT | 2, hT | 3, hT | 4, hT | 5, hT | 6, hT | 7, hT => cases hT; exact absurd k (by decide)
        | n + 8, hT => cases hT
      · cases hT
  | appVal _ _ _ h4 => intro _ T e k; cases e; rw [h4] at k; cases k
  | @appTy Δ f a A B h1 h2 h3 ih _ =>
    intro hΔ T e k; cases e
    exfalso
    have ha := h2.not_endsKind _ rfl
    exact (ih hΔ _ rfl (by rw [endsKind_inst ha] at k; exact k)).1 _ _ rfl
  | lam _ _ _ h4 => intro _ T e k; cases e; rw [endsKind, endsKind_ren, h4] at k; cases k
  | all | ex => intro _ T e k; cases e; exact absurd k (by decide)
  | @pi Δ A B h1 _ ih1 ih2 =>
    intro hΔ T e k; cases e
    refine ⟨fun _ _ h => (by cases h), fun ρ β => ?_⟩
    have ih := (ih2 (fun i T h => by
      cases i with
      | zero =>
        simp only [BCtx.cons, Option.some.injEq] at h
        subst h
        rw [endsKind_ren]; exact h1.not_endsKind _ rfl
      | succ i =>
        simp only [BCtx.cons, Option.map_eq_some_iff] at h
        obtain ⟨U, hU, rfl⟩ := h
        rw [endsKind_ren]; exact hΔ _ _ hU) _ rfl rfl).2
    exact ⟨_, lam_mem_pi (g := fun a => Classical.choose (ih ρ (push a β))) fun a _ =>
      Classical.choose_spec (ih ρ (push a β))⟩
  | inst => 
    rename_i m l _ _ _
    intro _ T e k; cases e; exact ⟨fun _ _ h => (by cases h), fun _ _ => full_type_sym m l⟩
  | scheme φ h => cases h
  | extend _ h => cases h
  | forget _ ih => intro hΔ T e k; cases e; exact ⟨fun _ _ h => (by cases h), (ih hΔ _ rfl rfl).2⟩
  | tyType0 | tyClass | tyOf | tyPi => intro _ T e; cases e

theorem full_noEmpty : NoEmpty K Full := by
  intro T h
  have hf := (full_type h (by intro i T h; simp [LCtx.get] at h) (by intro i T h; cases h) _ rfl rfl).2
  obtain ⟨d, hd⟩ := hf (fun _ => (∅ : ZFSet)) (fun _ => (∅ : ZFSet))
  refine ⟨d, fun ρ β => ?_⟩
  rw [eval_fvars Full T ρ (fun _ => (∅ : ZFSet)) β fun i hi => ?_,
    eval_closed Full (fun _ => (∅ : ZFSet)) β (fun _ => (∅ : ZFSet)) T (HasType.closed h.typed).1]
  · exact hd
  · exact absurd (STyped.declared h hi) (by simp [LCtx.get])

end

theorem plain : PlainSignature K := by
  intro s T hk h
  have small : ∀ {T : Term}, SHasType K [] T .type0 → RankOne T ∧ STyped K [] BCtx.nil T .isTy :=
    fun h => ⟨.small (Small.sortFree h), .tyOf h⟩
  have pi : ∀ {A B : Term}, STyped K [] BCtx.nil A (.ty .type0) → STyped K [] BCtx.nil B (.ty .type0) →
      STyped K [] BCtx.nil (.pi A (ren Nat.succ B)) (.ty .type0) := fun h h' => .pi h (h'.ren Nat.succ _ (RenOk.succ _ _))
  match s, hk, h with
  | .true_, _, h | .false_, _, h => cases h; exact small s_bool
  | .not_, _, h => cases h; exact small (pi s_bool s_bool)
  | .and_, _, h | .or_, _, h => cases h; exact small (pi s_bool (pi s_bool s_bool))
  | .eq_, _, h =>
    cases h
    exact ⟨.pi (.inr rfl) (.pi (.inl (sortFree_of rfl)) (.pi (.inl (sortFree_of rfl)) (.small (sortFree_of rfl)))),
      .tyPi .tyType0 (.tyOf (.pi (.bvar rfl) (.pi (.bvar rfl) s_bool)))⟩
  | .ite_, _, h =>
    cases h
    exact ⟨.pi (.inr rfl) (.pi (.inl (sortFree_of rfl)) (.pi (.inl (sortFree_of rfl)) (.pi (.inl (sortFree_of rfl)) (.small (sortFree_of rfl))))),
      .tyPi .tyType0 (.tyOf (.pi s_bool (.pi (.bvar rfl) (.pi (.bvar rfl) (.bvar rfl)))))⟩
  | .bool, _, h => cases h; exact ⟨.kind rfl, .tyType0⟩
  | .type m l, _, h => cases h; exact ⟨.kind rfl, .tyType0⟩
  | .scoped l, _, h => cases h
  | .global m l, _, hT =>
      simp only [KCtx.symbolType, K] at hT
      split at hT
      · match l, hT with
        | 0, hT => cases hT; exact small s_nat
        | 1, hT => cases hT; exact small (pi s_nat s_nat)
        | 2, hT => cases hT; exact small (pi s_nat s_bool)
        | 3, hT => cases hT; exact small (pi s_nat (pi s_nat s_nat))
        | 4, hT =>
          cases hT
          exact ⟨.pi (.inr rfl) (.small (sortFree_of rfl)), .tyPi .tyClass (.tyOf (.pi (.forget (.bvar rfl)) (.pi (.forget (.bvar rfl))
            (.forget (.bvar rfl)))))⟩
        | 5, hT => cases hT; exact small s_bool
        | 6, hT | 7, hT => cases hT; exact ⟨.pi (.inr rfl) (.small (sortFree_of rfl)), .tyPi .tyType0 (.tyOf s_bool)⟩
        | n + 8, hT => cases hT
      · cases hT

end Demo
end Spec
end Acorn
