/-
Choosing witnesses for all values of the variables of a context, as one function.
-/
import Verif.Lemmas.VarIds
import Verif.Lemmas.Witness
import Verif.Model.WitnessOpening
namespace Acorn.Opening

open Term Spec

universe u

variable {K : KCtx} {M : Interp.{u}}

theorem eval_convertAt (n : Nat) (t : Term) : ∀ (d : Nat) (ρ ρ' β γ : Nat → M.D), (∀ i, i < n → ρ' i = γ (d + n - 1 - i)) →
    (∀ i, n ≤ i → ρ' i = ρ i) → (∀ i, i < d → γ i = β i) → (∀ i, d ≤ i → γ (i + n) = β i) →
    eval M ρ γ (t.convertFreeToBoundAt n d) = eval M ρ' β t := by
  induction t with
  | atom a =>
    intro d ρ ρ' β γ h1 h2 h3 h4
    cases a with
    | fvar i =>
      simp only [convertFreeToBoundAt]
      split
      · rename_i h; simp [eval, h1 i h]
      · rename_i h; simp [eval, h2 i (by omega)]
    | bvar i =>
      simp only [convertFreeToBoundAt]
      split
      · rename_i h; simp [eval, h4 i h]
      · rename_i h; simp [eval, h3 i (by omega)]
    | sym s => rfl
  | app f a ihf iha =>
    intro d ρ ρ' β γ h1 h2 h3 h4
    simp only [convertFreeToBoundAt, eval, ihf d ρ ρ' β γ h1 h2 h3 h4, iha d ρ ρ' β γ h1 h2 h3 h4]
  | bind b A B ihA ihB =>
    intro d ρ ρ' β γ h1 h2 h3 h4
    simp only [convertFreeToBoundAt, eval, ihA d ρ ρ' β γ h1 h2 h3 h4]
    congr 1
    funext e
    refine ihB (d + 1) ρ ρ' (push e β) (push e γ) (fun i hi => ?_) h2 (fun i hi => ?_) (fun i hi => ?_)
    · rw [h1 i hi, show d + 1 + n - 1 - i = (d + n - 1 - i) + 1 by omega]; rfl
    · cases i with
      | zero => rfl
      | succ i => exact h3 i (by omega)
    · obtain ⟨j, rfl⟩ : ∃ j, i = j + 1 := ⟨i - 1, by omega⟩
      rw [show j + 1 + n = (j + n) + 1 by omega]
      exact h4 j (by omega)

theorem eval_convert {n : Nat} {t : Term} (hc : t.escapes = false) (hv : ∀ j, t.hasVar j = true → j < n) {ρ0 ρ γ β : Nat → M.D}
    (h : ∀ j, j < n → γ j = ρ (n - 1 - j)) : eval M ρ0 γ (t.convertFreeToBound n) = eval M ρ β t := by
  unfold convertFreeToBound
  split
  · rename_i hn
    rw [eval_closed M ρ0 γ β t hc]
    exact eval_fvars M t _ _ _ fun i hi => by have := hv i hi; omega
  · rw [eval_convertAt n t 0 ρ0 (fun i => if i < n then ρ i else ρ0 i) (fun i => γ (i + n)) γ (fun i hi => ?_) (fun i hi => ?_)
      (fun i hi => by omega) (fun i _ => rfl), eval_closed M _ _ β t hc]
    · exact eval_fvars M t _ _ _ fun i hi => by rw [if_pos (hv i hi)]
    · rw [if_pos hi, h _ (by omega)]; congr 1; omega
    · rw [if_neg (by omega)]

/-- The function type over the last `m` of `n` variables. -/
def tails (H : Nat → Term) (R : Term) (n : Nat) : Nat → Term
  | 0 => R.convertFreeToBound n
  | m + 1 => .pi ((H (n - (m + 1))).convertFreeToBound (n - (m + 1))) (tails H R n m)

theorem wrapPis_tails {Γ : LCtx} {H : Nat → Term} {R : Term} {n : Nat} (hH : ∀ i, i < n → Γ.get i = some (H i)) :
    ∀ m, m ≤ n → wrapPis Γ (n - m) (tails H R n m) = some (tails H R n n) := by
  suffices ∀ k m, k + m = n → wrapPis Γ k (tails H R n m) = some (tails H R n n) from
    fun m hm => this (n - m) m (by omega)
  intro k
  induction k with
  | zero => intro m hm; obtain rfl : m = n := by omega
            rfl
  | succ k ih =>
    intro m hm
    simp only [wrapPis, hH k (by omega), Option.bind_eq_bind, Option.bind_some]
    have := ih (m + 1) (by omega)
    rw [tails, show n - (m + 1) = k by omega] at this
    exact this

/-- The first `k` variables have values of their types. -/
def Good (M : Interp.{u}) (H : Nat → Term) (k : Nat) (ρ : Nat → M.D) : Prop :=
  ∀ i, i < k → ∀ β, M.mem (ρ i) (eval M ρ β (H i))

theorem good_congr {H : Nat → Term} {k : Nat} (hH : ∀ i, i < k → ∀ j, (H i).hasVar j = true → j < i) {ρ σ : Nat → M.D}
    (h : ∀ i, i < k → ρ i = σ i) (hg : Good M H k ρ) : Good M H k σ := by
  intro i hi β
  rw [← h i hi, ← eval_fvars M (H i) ρ σ β fun j hj => h j (by have := hH i hi j hj; omega)]
  exact hg i hi β

theorem choose_function (L : Lawful K M) {n : Nat} {H : Nat → Term} {R : Term}
    (hc : ∀ i, i < n → (H i).escapes = false) (hv : ∀ i, i < n → ∀ j, (H i).hasVar j = true → j < i)
    (hRc : R.escapes = false) (hRv : ∀ j, R.hasVar j = true → j < n) {P : (Nat → M.D) → M.D → Prop}
    (hP : ∀ ρ σ w, (∀ i, i < n → ρ i = σ i) → P ρ w → P σ w)
    (hex : ∀ ρ, Good M H n ρ → ∃ w, (∀ β, M.mem w (eval M ρ β R)) ∧ P ρ w) :
    ∃ d, (∀ ρ β, M.mem d (eval M ρ β (tails H R n n))) ∧
      ∀ ρ, Good M H n ρ → P ρ (((List.range n).map ρ).foldl M.app d) := by
  have key : ∀ m k, k + m = n → ∀ ρ, Good M H k ρ → ∃ d,
      (∀ ρ0 γ, (∀ j, j < k → γ j = ρ (k - 1 - j)) → M.mem d (eval M ρ0 γ (tails H R n m))) ∧
      ∀ σ, (∀ i, i < k → σ i = ρ i) → Good M H n σ → P σ (((List.range' k m).map σ).foldl M.app d) := by
    intro m
    induction m with
    | zero =>
      intro k hk ρ hρ
      obtain rfl : k = n := by omega
      obtain ⟨w, h1, h2⟩ := hex ρ hρ
      refine ⟨w, fun ρ0 γ hγ => ?_, fun σ hσ _ => hP ρ σ _ (fun i hi => (hσ i hi).symm) h2⟩
      rw [tails, eval_convert (ρ := ρ) (β := γ) hRc hRv hγ]
      exact h1 γ
    | succ m ih =>
      intro k hk ρ hρ
      -- the value of the type of variable `k`
      let β0 : Nat → M.D := ρ
      let A := eval M ρ β0 (H k)
      let up : M.D → Nat → M.D := fun a i => if i = k then a else ρ i
      have hup : ∀ a, M.mem a A → Good M H (k + 1) (up a) := by
        intro a ha i hi β
        have he : eval M (up a) β (H i) = eval M ρ β (H i) :=
          eval_fvars M (H i) _ _ β fun j hj => by
            have := hv i (by omega) j hj
            simp only [up]; rw [if_neg (by omega)]
        rw [he]
        by_cases hik : i = k
        · subst hik
          simp only [up, ↓reduceIte]
          rw [eval_closed M ρ β β0 _ (hc i (by omega))]
          exact ha
        · simp only [up, if_neg hik]
          exact hρ i (by omega) β
      have hch : ∀ a, ∃ d, M.mem a A →
          (∀ ρ0 γ, (∀ j, j < k + 1 → γ j = up a (k + 1 - 1 - j)) → M.mem d (eval M ρ0 γ (tails H R n m))) ∧
          ∀ σ, (∀ i, i < k + 1 → σ i = up a i) → Good M H n σ → P σ (((List.range' (k + 1) m).map σ).foldl M.app d) := by
        intro a
        by_cases ha : M.mem a A
        · obtain ⟨d, hd⟩ := ih (k + 1) (by omega) (up a) (hup a ha)
          exact ⟨d, fun _ => hd⟩
        · exact ⟨a, fun h => absurd h ha⟩
      obtain ⟨g, hg⟩ := Classical.axiomOfChoice hch
      refine ⟨M.bind .lam A g, fun ρ0 γ hγ => ?_, fun σ hσ hgood => ?_⟩
      · rw [tails, show n - (m + 1) = k by omega]
        have eA : eval M ρ0 γ ((H k).convertFreeToBound k) = A := eval_convert (hc k (by omega)) (hv k (by omega)) hγ
        show M.mem _ (M.bind .pi (eval M ρ0 γ ((H k).convertFreeToBound k)) fun a => eval M ρ0 (push a γ) (tails H R n m))
        rw [eA, L.mem_pi]
        refine ⟨L.bind_congr _ _ _ _ fun a ha => L.beta A g a ha, fun a ha => ?_⟩
        rw [L.beta A g a ha]
        refine (hg a ha).1 ρ0 (push a γ) fun j hj => ?_
        cases j with
        | zero => simp [push, up]
        | succ j =>
          have := hγ j (by omega)
          simp only [push, up, this]
          rw [if_neg (by omega)]
          congr 1; omega
      · have ha : M.mem (σ k) A := by
          have := hgood k (by omega) β0
          rwa [eval_fvars M (H k) σ ρ β0 fun j hj => hσ j (hv k (by omega) j hj)] at this
        rw [List.range'_succ, List.map_cons, List.foldl_cons, L.beta A g _ ha]
        refine (hg (σ k) ha).2 σ (fun i hi => ?_) hgood
        by_cases hik : i = k
        · simp [up, hik]
        · simp only [up, if_neg hik]; exact hσ i (by omega)
  obtain ⟨d, h1, h2⟩ := key n 0 (by omega) (fun _ => M.sym .true_) (fun i hi => by omega)
  refine ⟨d, fun ρ β => h1 ρ β fun j hj => by omega, fun ρ hρ => ?_⟩
  rw [List.range_eq_range']
  exact h2 ρ (fun i hi => by omega) hρ

end Acorn.Opening
