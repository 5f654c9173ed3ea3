/-
The order of the arguments of a witness respects dependencies.
-/
import Verif.Lemmas.WitnessFunction
import Verif.Lemmas.CheckedType
import Verif.Lemmas.GetType
namespace Acorn.Opening

open Term Spec

universe u

variable {K : KCtx} {M : Interp.{u}} {Γ : LCtx}

theorem idxOf_lt {l : List Nat} (h : l.Pairwise (· < ·)) {a b : Nat} (ha : a ∈ l) (hb : b ∈ l) (hab : a < b) :
    l.idxOf a < l.idxOf b := by
  induction h with
  | nil => cases ha
  | @cons x l hx _ ih =>
    rw [List.idxOf_cons, List.idxOf_cons]
    rcases List.mem_cons.1 ha with rfl | ha'
    · have : (a == b) = false := by simp; omega
      simp [this]
    · have := hx a ha'
      rcases List.mem_cons.1 hb with rfl | hb'
      · omega
      · have h1 : (x == a) = false := by simp; omega
        have h2 : (x == b) = false := by simp; omega
        simp only [h1, h2, cond_false]
        have := ih ha' hb'
        omega

theorem mem_hoistOrder {i : Nat} : i ∈ hoistOrder Γ ↔ i < Γ.length := by
  simp only [hoistOrder, List.mem_append, List.mem_filter, List.mem_range]
  by_cases h : (Γ.get i).any Term.isTypeParamKind = true
  · simp [h]
  · simp [h]

theorem hoistOrder_nodup : (hoistOrder Γ).Nodup := by
  unfold hoistOrder
  refine List.nodup_append.2 ⟨List.nodup_range.filter _, List.nodup_range.filter _, ?_⟩
  rintro a ha b hb rfl
  have := (List.mem_filter.1 hb).2
  simp only [List.contains_eq_mem, Bool.not_eq_true', decide_eq_false_iff_not] at this
  exact this ha

theorem hoistOrder_length : (hoistOrder Γ).length = Γ.length := by
  have h := hoistOrder_nodup (Γ := Γ)
  have h1 : (hoistOrder Γ).length ≤ (List.range Γ.length).length :=
    h.length_le_of_subset fun i hi => List.mem_range.2 (mem_hoistOrder.1 hi)
  have h2 : (List.range Γ.length).length ≤ (hoistOrder Γ).length :=
    List.nodup_range.length_le_of_subset fun i hi => mem_hoistOrder.2 (List.mem_range.1 hi)
  simp at h1 h2
  omega

theorem hoistOrder_respects (ho : CtxOrdered Γ) {i j : Nat} {T : Term} (hi : Γ.get i = some T) (hj : T.hasVar j = true) :
    (hoistOrder Γ).idxOf j < (hoistOrder Γ).idxOf i := by
  obtain ⟨hlt, -⟩ := ho i T hi j hj
  have hil : i < Γ.length := get_lt hi
  have hnp : (Γ.get i).any Term.isTypeParamKind = false := by
    rw [hi]
    simp only [Option.any_some]
    rw [Bool.eq_false_iff]
    intro hk
    rw [isTypeParamKind_iff] at hk
    cases T with
    | atom a =>
      cases a with
      | sym s => simp [hasVar, atoms] at hj
      | fvar _ => cases hk
      | bvar _ => cases hk
    | app _ _ => cases hk
    | bind _ _ _ => cases hk
  unfold hoistOrder
  generalize hp : (List.range Γ.length).filter (fun i => (Γ.get i).any Term.isTypeParamKind) = params
  have hi' : i ∉ params := by rw [← hp]; simp [hnp]
  dsimp only
  rw [List.idxOf_append, List.idxOf_append, if_neg hi']
  split
  · rename_i hjp
    have := List.idxOf_lt_length_iff.2 hjp
    omega
  · rename_i hjp
    refine Nat.add_lt_add_right (idxOf_lt (List.pairwise_lt_range.filter _) ?_ ?_ hlt) _
    · simp [hjp]; omega
    · simp [hi', hil]

/-- The variables for types come first. -/
theorem hoistOrder_params {i j : Nat} (hj : j ∈ hoistOrder Γ) (h1 : (Γ.get i).any Term.isTypeParamKind = true)
    (h2 : (Γ.get j).any Term.isTypeParamKind = false) : (hoistOrder Γ).idxOf i < (hoistOrder Γ).idxOf j := by
  have hil : i < Γ.length := by
    cases e : Γ.get i with
    | none => rw [e] at h1; cases h1
    | some T => exact get_lt e
  have hi' : i ∈ (List.range Γ.length).filter fun i => (Γ.get i).any Term.isTypeParamKind :=
    List.mem_filter.2 ⟨List.mem_range.2 hil, h1⟩
  have hj' : j ∉ (List.range Γ.length).filter fun i => (Γ.get i).any Term.isTypeParamKind := fun h => by
    have := (List.mem_filter.1 h).2
    rw [h2] at this
    cases this
  unfold hoistOrder
  simp only
  rw [List.idxOf_append_of_mem hi', List.idxOf_append_of_notMem hj']
  have := List.idxOf_lt_length_iff.2 hi'
  omega

end Acorn.Opening
