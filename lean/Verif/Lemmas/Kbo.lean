/-
The partial order under substitution and contexts.
-/
import Verif.Lemmas.Order
import Verif.Lemmas.Subst
namespace Acorn
namespace Term

/-- Sum of `w i` over the occurrences of free variables. -/
def wsum (w : Nat → Nat) : Term → Nat
  | fvar i => w i
  | atom _ => 0
  | app f a => wsum w f + wsum w a
  | bind _ a b => wsum w a + wsum w b

theorem weight1_ren (r : Nat → Nat) (t : Term) : (ren r t).weight1 = t.weight1 := by
  induction t generalizing r with
  | atom a => cases a <;> rfl
  | app f a ihf iha => simp [ren, weight1, ihf, iha]
  | bind b f a ihf iha => simp [ren, weight1, ihf, iha]

theorem weight2_ren (r : Nat → Nat) (t : Term) : (ren r t).weight2Nat = t.weight2Nat := by
  induction t generalizing r with
  | atom a => cases a <;> rfl
  | app f a ihf iha => simp [ren, weight2Nat, ihf, iha]
  | bind b f a ihf iha => simp [ren, weight2Nat, ihf, iha]

theorem occ_ren (r : Nat → Nat) (i : Nat) (t : Term) : occ i (ren r t) = occ i t := by
  induction t generalizing r with
  | atom a => cases a <;> rfl
  | app f a ihf iha => simp [ren, occ, ihf, iha]
  | bind b f a ihf iha => simp [ren, occ, ihf, iha]

theorem weight1_sub (φ : Nat → Term) (t : Term) :
    (sub φ bid t).weight1 = t.weight1 + wsum (fun i => (φ i).weight1) t := by
  induction t generalizing φ with
  | atom a => cases a <;> simp [sub, bid, weight1, wsum, atomWeight1]
  | app f a ihf iha => simp [sub, weight1, wsum, ihf, iha]; omega
  | bind b f a ihf iha =>
    have : (fun i => (lift φ i).weight1) = fun i => (φ i).weight1 := by
      funext i; exact weight1_ren _ _
    simp [sub, weight1, wsum, ihf, ups_bid, iha, this]; omega

theorem weight2_sub (φ : Nat → Term) (t : Term) :
    (sub φ bid t).weight2Nat = t.weight2Nat + wsum (fun i => (φ i).weight2Nat) t := by
  induction t generalizing φ with
  | atom a => cases a <;> simp [sub, bid, weight2Nat, wsum, atomWeight2]
  | app f a ihf iha => simp [sub, weight2Nat, wsum, ihf, iha]; omega
  | bind b f a ihf iha =>
    have : (fun i => (lift φ i).weight2Nat) = fun i => (φ i).weight2Nat := by
      funext i; exact weight2_ren _ _
    simp [sub, weight2Nat, wsum, ihf, ups_bid, iha, this]; omega

theorem occ_sub (φ : Nat → Term) (j : Nat) (t : Term) :
    occ j (sub φ bid t) = wsum (fun i => occ j (φ i)) t := by
  induction t generalizing φ with
  | atom a => cases a <;> simp [sub, bid, occ, wsum]
  | app f a ihf iha => simp [sub, occ, wsum, ihf, iha]
  | bind b f a ihf iha =>
    have : (fun i => occ j (lift φ i)) = fun i => occ j (φ i) := by
      funext i; exact occ_ren _ _ _
    simp [sub, occ, wsum, ihf, ups_bid, iha, this]

/-- Sum over the variables below `n`. -/
def rsum (f : Nat → Nat) : Nat → Nat
  | 0 => 0
  | n + 1 => rsum f n + f n

theorem rsum_add (f g : Nat → Nat) (n : Nat) : rsum (fun i => f i + g i) n = rsum f n + rsum g n := by
  induction n with
  | zero => rfl
  | succ n ih => simp [rsum, ih]; omega

theorem rsum_le {f g : Nat → Nat} (n : Nat) (h : ∀ i, f i ≤ g i) : rsum f n ≤ rsum g n := by
  induction n with
  | zero => exact Nat.le_refl _
  | succ n ih => simp only [rsum]; have := h n; omega

theorem rsum_zero (n : Nat) : rsum (fun _ => 0) n = 0 := by
  induction n with
  | zero => rfl
  | succ n ih => simp [rsum, ih]

theorem rsum_single (i k n : Nat) (h : i < n) : rsum (fun j => if j = i then k else 0) n = k := by
  induction n with
  | zero => omega
  | succ n ih =>
    simp only [rsum]
    by_cases e : n = i
    · subst e
      have : ∀ m, m ≤ n → rsum (fun j => if j = n then k else 0) m = 0 := by
        intro m hm
        induction m with
        | zero => rfl
        | succ m ihm =>
          simp only [rsum, ihm (by omega)]
          have : m ≠ n := by omega
          simp [this]
      simp [this n (Nat.le_refl _)]
    · simp [ih (by omega), e]

theorem wsum_eq (w : Nat → Nat) (t : Term) : ∀ n, t.varBound ≤ n →
    wsum w t = rsum (fun i => occ i t * w i) n := by
  induction t with
  | atom a =>
    intro n hn
    cases a with
    | fvar j =>
      simp only [varBound] at hn
      have h1 := rsum_single j (w j) n (by omega)
      have h2 : (fun i => occ i (fvar j) * w i) = fun i => if i = j then w j else 0 := by
        funext i
        simp only [occ]
        by_cases h : i = j <;> simp [h]
      rw [h2, h1]; rfl
    | bvar j => simp [wsum, occ, rsum_zero]
    | sym j => simp [wsum, occ, rsum_zero]
  | app f a ihf iha =>
    intro n hn
    simp only [varBound] at hn
    rw [wsum, ihf n (by omega), iha n (by omega), ← rsum_add]
    congr 1; funext i; simp only [occ, Nat.add_mul]
  | bind b f a ihf iha =>
    intro n hn
    simp only [varBound] at hn
    rw [wsum, ihf n (by omega), iha n (by omega), ← rsum_add]
    congr 1; funext i; simp only [occ, Nat.add_mul]

theorem wsum_mono {w : Nat → Nat} {s t : Term} (h : ∀ i, occ i s ≤ occ i t) : wsum w s ≤ wsum w t := by
  rw [wsum_eq w s (max s.varBound t.varBound) (by omega), wsum_eq w t (max s.varBound t.varBound) (by omega)]
  exact rsum_le _ fun i => Nat.mul_le_mul_right _ (h i)

theorem occ_lt {i : Nat} {t : Term} (h : 0 < occ i t) : i < t.varBound := by
  induction t with
  | atom a =>
    cases a with
    | fvar j => simp only [occ] at h; split at h <;> simp_all [varBound]
    | bvar j => simp [occ] at h
    | sym j => simp [occ] at h
  | app f a ihf iha =>
    simp only [occ] at h
    simp only [varBound]
    by_cases h1 : 0 < occ i f
    · have := ihf h1; omega
    · have := iha (by omega); omega
  | bind b f a ihf iha =>
    simp only [occ] at h
    simp only [varBound]
    by_cases h1 : 0 < occ i f
    · have := ihf h1; omega
    · have := iha (by omega); omega

theorem varBound_occ {t : Term} {n : Nat} (h : t.varBound = n + 1) : 0 < occ n t := by
  induction t generalizing n with
  | atom a => cases a <;> simp_all [varBound, occ]
  | app f a ihf iha =>
    simp only [varBound] at h
    simp only [occ]
    rcases Nat.le_total f.varBound a.varBound with h1 | h1
    · have := iha (n := n) (by omega); omega
    · have := ihf (n := n) (by omega); omega
  | bind b f a ihf iha =>
    simp only [varBound] at h
    simp only [occ]
    rcases Nat.le_total f.varBound a.varBound with h1 | h1
    · have := iha (n := n) (by omega); omega
    · have := ihf (n := n) (by omega); omega

/-- Counters that have not wrapped. -/
def CountsOk (t : Term) : Prop := ∀ i, occ i t < 256

theorem dominates_iff {s t : Term} (hs : CountsOk s) (ht : CountsOk t) :
    dominates s t = true ↔ ∀ i, occ i t ≤ occ i s := by
  have es : ∀ i, s.refcount i = occ i s := fun i => Nat.mod_eq_of_lt (hs i)
  have et : ∀ i, t.refcount i = occ i t := fun i => Nat.mod_eq_of_lt (ht i)
  simp only [dominates, Bool.and_eq_true, decide_eq_true_eq, List.all_eq_true, List.mem_range, es, et]
  constructor
  · rintro ⟨_, h⟩ i
    by_cases hi : i < t.varBound
    · exact h i hi
    · have : ¬ 0 < occ i t := fun h => hi (occ_lt h)
      omega
  · intro h
    refine ⟨?_, fun i _ => h i⟩
    cases hb : t.varBound with
    | zero => omega
    | succ n =>
      have h1 := varBound_occ hb
      have h2 := h n
      have := occ_lt (i := n) (t := s) (by omega)
      omega

theorem kboCmp_gt {s t : Term} : kboCmp s t = .gt ↔
    (s.weight1 > t.weight1 ∨ s.weight1 = t.weight1 ∧ s.weight2 > t.weight2) ∧ dominates s t = true := by
  simp only [kboCmp, kboHelper, Bool.not_true, Bool.false_or]
  split
  · rename_i h
    by_cases hd : dominates s t = true <;> simp [hd, h]
  · rename_i h
    constructor
    · intro h'
      split at h'
      · split at h' <;> cases h'
      · cases h'
    · intro h'; exact absurd h'.1 h

theorem kboCmp_swap (s t : Term) : kboCmp s t = (kboCmp t s).swap := by
  simp only [kboCmp, kboHelper, Bool.not_true, Bool.false_or]
  repeat' split
  all_goals first
    | rfl
    | (exfalso; omega)
    | simp_all

theorem wsum_eq_zero_of {w w' : Nat → Nat} (h : ∀ i, w i = 0 → w' i = 0) {t : Term}
    (ht : wsum w t = 0) : wsum w' t = 0 := by
  induction t with
  | atom a => cases a <;> simp_all [wsum]
  | app f a ihf iha => simp only [wsum] at *; have := ihf (by omega); have := iha (by omega); omega
  | bind b f a ihf iha => simp only [wsum] at *; have := ihf (by omega); have := iha (by omega); omega

/-- Terms of first weight 0 have second weight 0. -/
theorem weight2_zero {t : Term} (h : t.weight1 = 0) : t.weight2Nat = 0 := by
  induction t with
  | atom a =>
    cases a with
    | fvar i => rfl
    | bvar i => simp [weight1, atomWeight1] at h
    | sym s => cases s <;> simp_all [weight1, atomWeight1, weight2Nat, atomWeight2]
  | app f a ihf iha => simp only [weight1, weight2Nat] at *; have := ihf (by omega); have := iha (by omega); omega
  | bind b f a ihf iha => simp only [weight1] at h; omega

/-- Instantiation keeps a strict orientation as long as no counter wraps. -/
theorem kbo_sub {s t : Term} (φ : Nat → Term) (h : kboCmp s t = .gt) (hs : CountsOk s)
    (ht : CountsOk t) (hs' : CountsOk (sub φ bid s)) (ht' : CountsOk (sub φ bid t))
    (ws : (sub φ bid s).weight2Nat < 4294967296) (wt : (sub φ bid t).weight2Nat < 4294967296) :
    kboCmp (sub φ bid s) (sub φ bid t) = .gt := by
  rw [kboCmp_gt] at h ⊢
  obtain ⟨hw, hd⟩ := h
  rw [dominates_iff hs ht] at hd
  rw [dominates_iff hs' ht']
  constructor
  · rw [weight1_sub, weight1_sub]
    simp only [weight2]
    rw [Nat.mod_eq_of_lt ws, Nat.mod_eq_of_lt wt]
    rw [weight2_sub] at ws wt
    rw [weight2_sub, weight2_sub]
    simp only [weight2] at hw
    rw [Nat.mod_eq_of_lt (by omega), Nat.mod_eq_of_lt (by omega)] at hw
    have h1 := wsum_mono (w := fun i => (φ i).weight1) hd
    have h2 := wsum_mono (w := fun i => (φ i).weight2Nat) hd
    omega
  · intro j
    rw [occ_sub, occ_sub]
    exact wsum_mono hd

/-- Placing both sides in the same argument context keeps a strict orientation. -/
theorem kbo_app_arg {f s t : Term} (h : kboCmp s t = .gt) (hs : CountsOk (app f s))
    (ht : CountsOk (app f t)) (ws : (app f s).weight2Nat < 4294967296)
    (wt : (app f t).weight2Nat < 4294967296) : kboCmp (app f s) (app f t) = .gt := by
  have cs : CountsOk s := fun i => by have := hs i; simp only [occ] at this; omega
  have ct : CountsOk t := fun i => by have := ht i; simp only [occ] at this; omega
  rw [kboCmp_gt] at h ⊢
  obtain ⟨hw, hd⟩ := h
  rw [dominates_iff cs ct] at hd
  rw [dominates_iff hs ht]
  constructor
  · simp only [weight2] at *
    rw [Nat.mod_eq_of_lt ws, Nat.mod_eq_of_lt wt]
    simp only [weight2Nat, weight1] at *
    rw [Nat.mod_eq_of_lt (by omega), Nat.mod_eq_of_lt (by omega)] at hw
    omega
  · intro i; simp only [occ]; have := hd i; omega

theorem kbo_app_fun {a s t : Term} (h : kboCmp s t = .gt) (hs : CountsOk (app s a))
    (ht : CountsOk (app t a)) (ws : (app s a).weight2Nat < 4294967296)
    (wt : (app t a).weight2Nat < 4294967296) : kboCmp (app s a) (app t a) = .gt := by
  have cs : CountsOk s := fun i => by have := hs i; simp only [occ] at this; omega
  have ct : CountsOk t := fun i => by have := ht i; simp only [occ] at this; omega
  rw [kboCmp_gt] at h ⊢
  obtain ⟨hw, hd⟩ := h
  rw [dominates_iff cs ct] at hd
  rw [dominates_iff hs ht]
  constructor
  · simp only [weight2] at *
    rw [Nat.mod_eq_of_lt ws, Nat.mod_eq_of_lt wt]
    simp only [weight2Nat, weight1] at *
    rw [Nat.mod_eq_of_lt (by omega), Nat.mod_eq_of_lt (by omega)] at hw
    omega
  · intro i; simp only [occ]; have := hd i; omega

end Term
end Acorn
