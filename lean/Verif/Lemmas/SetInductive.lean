/-
Least sets closed under constructors, inside the universe of types.
-/
import Verif.Spec.SetModel
namespace Acorn
namespace Spec
namespace SetModel

open ZFSet Cardinal

theorem card_lt_univ {A : S} (hA : A ∈ U) : preBeth (rank A) < Cardinal.univ.{0, 1} := by
  have h2 : preBeth (rank A) < preBeth κ := by
    rw [preBeth_lt_preBeth]; rwa [U, mem_vonNeumann] at hA
  rwa [κ, inacc.preBeth_ord] at h2

/-- A level of the universe that is closed under families indexed by small sets. -/
theorem level (R : S) (hR : R ∈ U) : ∃ μ : Ordinal.{1}, vonNeumann μ ∈ U ∧ Order.IsSuccLimit μ ∧ rank R < μ ∧
    ∀ (A : S) (g : S → S), rank A ≤ rank R → (∀ a ∈ A, g a ∈ vonNeumann μ) → img g A ∈ vonNeumann μ := by
  have hr : rank R < κ := by rwa [U, mem_vonNeumann] at hR
  let c : Cardinal.{1} := max (max ℵ₀ (preBeth (rank R))) (rank R).card
  have hc : c < Cardinal.univ.{0, 1} := max_lt (max_lt inacc.1 (card_lt_univ hR)) (by rwa [κ, lt_ord] at hr)
  have h0 : ℵ₀ ≤ c := (le_max_left _ _).trans (le_max_left _ _)
  have hreg : Cardinal.IsRegular (Order.succ c) := isRegular_succ h0
  have hlim : Order.IsSuccLimit (Order.succ c).ord := isSuccLimit_ord (h0.trans (Order.le_succ c))
  refine ⟨(Order.succ c).ord, ?_, hlim, ?_, ?_⟩
  · rw [U, vonNeumann_mem_vonNeumann_iff, κ, ord_lt_ord]
    exact inacc.isStrongLimit.isSuccLimit.succ_lt hc
  · rw [lt_ord]
    exact (le_max_right _ _).trans_lt (Order.lt_succ c)
  · intro A g hA hg
    have hcA : card A < Order.succ c := by
      have h1 : card A ≤ preBeth (rank A) := by
        rw [← card_vonNeumann]; exact card_mono (subset_vonNeumann_self A)
      have h2 : preBeth (rank A) ≤ preBeth (rank R) := by rwa [preBeth_le_preBeth]
      exact ((h1.trans h2).trans ((le_max_right _ _).trans (le_max_left _ _))).trans_lt (Order.lt_succ c)
    rw [mem_vonNeumann]
    let f : Shrink.{1} A → Ordinal.{1} := fun a => Order.succ (rank (g ((equivShrink A).symm a)))
    have hsup : (⨆ a, f a) < (Order.succ c).ord := by
      apply Ordinal.iSup_lt_of_lt_cof
      · rw [hreg.cof_ord]; exact hcA
      · intro a
        have := hg _ ((equivShrink A).symm a).2
        rw [mem_vonNeumann] at this
        exact hlim.succ_lt this
    refine lt_of_le_of_lt ?_ hsup
    rw [rank_le_iff]
    intro y hy
    obtain ⟨a, ha, rfl⟩ := mem_img.1 hy
    have : f (equivShrink A ⟨a, ha⟩) ≤ ⨆ a, f a := Ordinal.le_iSup f _
    refine lt_of_lt_of_le ?_ this
    simp only [f, Equiv.symm_apply_apply]
    exact Order.lt_succ _

theorem pair_level {μ : Ordinal.{1}} (h : Order.IsSuccLimit μ) {x y : S} (hx : x ∈ vonNeumann μ) (hy : y ∈ vonNeumann μ) :
    pair x y ∈ vonNeumann μ := by
  rw [mem_vonNeumann] at *
  simp only [pair, rank_insert, rank_singleton]
  refine max_lt (h.succ_lt (h.succ_lt hx)) (h.succ_lt (max_lt (h.succ_lt hx) (h.succ_lt hy)))

theorem empty_level {μ : Ordinal.{1}} (h : Order.IsSuccLimit μ) : (∅ : S) ∈ vonNeumann μ := by
  rw [mem_vonNeumann, rank_empty]
  exact h.bot_lt

/-! ### Codes of constructor values -/

noncomputable section

/-- A tuple as nested pairs. -/
def tuple : List S → S
  | [] => ∅
  | x :: xs => pair x (tuple xs)

theorem pair_ne_empty (x y : S) : pair x y ≠ ∅ := by
  intro e
  have : ({x} : S) ∈ pair x y := by simp [pair]
  rw [e] at this
  exact notMem_empty _ this

theorem tuple_inj : ∀ {xs ys : List S}, tuple xs = tuple ys → xs = ys
  | [], [], _ => rfl
  | [], _ :: _, h => absurd h.symm (pair_ne_empty _ _)
  | _ :: _, [], h => absurd h (pair_ne_empty _ _)
  | x :: xs, y :: ys, h => by
    have := pair_injective h
    rw [this.1, tuple_inj this.2]

theorem tuple_level {μ : Ordinal.{1}} (h : Order.IsSuccLimit μ) : ∀ {xs : List S}, (∀ x ∈ xs, x ∈ vonNeumann μ) →
    tuple xs ∈ vonNeumann μ
  | [], _ => empty_level h
  | x :: _, hx => pair_level h (hx x (List.mem_cons_self ..)) (tuple_level h fun y hy => hx y (List.mem_cons_of_mem _ hy))

/-- The value of constructor number `i` for these arguments. -/
def code (i : Nat) (xs : List S) : S := pair (tuple (List.replicate i ∅)) (tuple xs)

theorem code_inj {i j : Nat} {xs ys : List S} (h : code i xs = code j ys) : i = j ∧ xs = ys := by
  have := pair_injective h
  refine ⟨?_, tuple_inj this.2⟩
  have := congrArg List.length (tuple_inj this.1)
  simpa using this

theorem code_level {μ : Ordinal.{1}} (h : Order.IsSuccLimit μ) {i : Nat} {xs : List S} (hx : ∀ x ∈ xs, x ∈ vonNeumann μ) :
    code i xs ∈ vonNeumann μ :=
  pair_level h (tuple_level h fun x hx => by rw [List.eq_of_mem_replicate hx]; exact empty_level h) (tuple_level h hx)

/-- A set that bounds the ranks of several sets. -/
def bound : List S → S
  | [] => ∅
  | x :: xs => x ∪ bound xs

theorem bound_mem : ∀ {xs : List S}, (∀ x ∈ xs, x ∈ U) → bound xs ∈ U
  | [], _ => U_empty
  | x :: _, h => U_union (h x (List.mem_cons_self ..)) (bound_mem fun y hy => h y (List.mem_cons_of_mem _ hy))

theorem rank_bound : ∀ {xs : List S} {x : S}, x ∈ xs → rank x ≤ rank (bound xs)
  | y :: ys, x, h => by
    rw [bound, rank_union]
    rcases List.mem_cons.1 h with rfl | h
    · exact le_max_left _ _
    · exact (rank_bound h).trans (le_max_right _ _)

end
end SetModel
end Spec
end Acorn
