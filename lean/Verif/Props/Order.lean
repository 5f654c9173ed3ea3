/-
C06: the extended term order is a total order on terms without binders.
C07: a strict orientation survives instantiation.
-/
import Verif.Lemmas.Kbo
namespace Acorn
open Term

/-- Every term compares equal to itself (also with binders). -/
theorem C06_refl (t : Term) : extCmp t t = .eq := extCmp_refl t

/-- Comparing in the other direction gives the opposite answer (also with binders); in particular
exactly one of less, equal, greater holds. -/
theorem C06_oriented (s t : Term) :
    (extCmp s t = .lt ↔ extCmp t s = .gt) ∧ (extCmp s t = .eq ↔ extCmp t s = .eq) := by
  have := extCmp_swap _ s t (Nat.le_refl _)
  rw [this]
  cases extCmp t s <;> simp [Ordering.swap]

/-- On terms without binders, equal means identical. -/
theorem C06_eq_iff {s t : Term} (hs : s.noBinder = true) (ht : t.noBinder = true) :
    extCmp s t = .eq ↔ s = t :=
  ⟨extCmp_eq_eq s.size s t (Nat.le_refl _) hs ht, fun h => h ▸ extCmp_refl s⟩

/-- On terms without binders, "less" is transitive. -/
theorem C06_lt_trans {s t u : Term} (hs : s.noBinder = true) (ht : t.noBinder = true)
    (hu : u.noBinder = true) (h1 : extCmp s t = .lt) (h2 : extCmp t u = .lt) : extCmp s u = .lt := by
  have := extCmp_trans (s.size + t.size + u.size + 1)
  exact Std.TransCmp.lt_trans
    (cmp := fun (a b : Small (s.size + t.size + u.size + 1)) => extCmp a.1 b.1)
    (a := ⟨s, hs, by omega⟩) (b := ⟨t, ht, by omega⟩) (c := ⟨u, hu, by omega⟩) h1 h2

/-- Non-vacuity: three binder-free terms in increasing order. -/
example : ∃ s t u : Term, s.noBinder = true ∧ t.noBinder = true ∧ u.noBinder = true ∧
    extCmp s t = .lt ∧ extCmp t u = .lt := by
  refine ⟨.fvar 3, .sym (.global 0 1), .app (.sym (.global 0 1)) (.sym (.global 0 2)), rfl, rfl, rfl,
    ?_, ?_⟩ <;> rw [extCmp_eq] <;> rfl

/-- Disagreement with the documented "total ordering where only identical terms are equal": with
binders, two different terms can compare equal to a common third one and still be strictly ordered, so
"equal" is not even an equivalence. -/
theorem C06_binders_not_total : ∃ a b c : Term, a ≠ b ∧ b ≠ c ∧
    extCmp a b = .eq ∧ extCmp b c = .eq ∧ extCmp a c = .lt := by
  refine ⟨.app (.sym (.type 0 0)) .boolTy, .lam (.sym (.type 0 0)) .tt,
    .app (.sym (.type 0 0)) .type0, by simp, by simp, ?_, ?_, ?_⟩
  · rw [extCmp_eq, partialTiebreak_eq]; rfl
  · rw [extCmp_eq, partialTiebreak_eq]; rfl
  · rw [extCmp_eq, partialTiebreak_eq]
    simp only [args, List.nil_append, lexZip, partialTiebreak_eq]
    rfl

/-- Substituting any terms for the free variables (avoiding capture) keeps "strictly greater", provided
the counters do not wrap: fewer than 256 occurrences of each variable, and symbol weights adding up to
less than `2^32`. -/
theorem C07_stable {s t : Term} (φ : Nat → Term) (h : kboCmp s t = .gt)
    (hs : ∀ i, occ i s < 256) (ht : ∀ i, occ i t < 256)
    (hs' : ∀ i, occ i (sub φ bid s) < 256) (ht' : ∀ i, occ i (sub φ bid t) < 256)
    (ws : (sub φ bid s).weight2Nat < 4294967296) (wt : (sub φ bid t).weight2Nat < 4294967296) :
    kboCmp (sub φ bid s) (sub φ bid t) = .gt :=
  kbo_sub φ h hs ht hs' ht' ws wt

/-- Non-vacuity: `f(x0) > x0`, instantiated with `x0 := g(x1)`. -/
example : ∃ (s t : Term) (φ : Nat → Term), kboCmp s t = .gt ∧ (∀ i, occ i s < 256) ∧
    (∀ i, occ i t < 256) ∧ (∀ i, occ i (sub φ bid s) < 256) ∧ (∀ i, occ i (sub φ bid t) < 256) ∧
    (sub φ bid s).weight2Nat < 4294967296 ∧ (sub φ bid t).weight2Nat < 4294967296 := by
  refine ⟨.app (.sym (.global 0 1)) (.fvar 0), .fvar 0,
    fun _ => .app (.sym (.global 0 2)) (.fvar 1), by decide, ?_, ?_, ?_, ?_, by decide, by decide⟩
  all_goals intro i; simp only [sub, occ]; repeat' split
  all_goals omega

/-- Being strictly greater is kept when the same term is applied to both sides, or both sides are
given the same argument (again without wrapping). -/
theorem C07_context {s t c : Term} (h : kboCmp s t = .gt) :
    ((∀ i, occ i (app c s) < 256) → (∀ i, occ i (app c t) < 256) →
      (app c s).weight2Nat < 4294967296 → (app c t).weight2Nat < 4294967296 →
      kboCmp (app c s) (app c t) = .gt) ∧
    ((∀ i, occ i (app s c) < 256) → (∀ i, occ i (app t c) < 256) →
      (app s c).weight2Nat < 4294967296 → (app t c).weight2Nat < 4294967296 →
      kboCmp (app s c) (app t c) = .gt) :=
  ⟨fun a b c d => kbo_app_arg h a b c d, fun a b c d => kbo_app_fun h a b c d⟩

/-- There is no infinite descending chain: rewriting by strictly oriented equations stops. -/
theorem C07_well_founded : WellFounded fun s t : Term => kboCmp t s = .gt := by
  have wf : WellFounded (InvImage (Prod.Lex (· < ·) (· < ·)) fun t : Term => (t.weight1, t.weight2)) :=
    InvImage.wf _ (Prod.lex ⟨_, Nat.lt_wfRel.wf⟩ ⟨_, Nat.lt_wfRel.wf⟩).wf
  refine Subrelation.wf ?_ wf
  intro s t h
  rw [kboCmp_gt] at h
  rcases h.1 with h | h
  · exact Prod.Lex.left _ _ h
  · show Prod.Lex _ _ (s.weight1, s.weight2) (t.weight1, t.weight2)
    rw [h.1]
    exact Prod.Lex.right _ h.2

/-- A strict orientation in the partial order is one in the extended order, so literals, which put the
larger side (extended order) left, never have a side order contradicting the partial order. -/
theorem C07_agrees {s t : Term} (h : kboCmp s t = .gt) : extCmp s t = .gt := by
  rw [kboCmp_gt] at h
  rw [extCmp_eq]
  have : kboHelper s t false = .gt := by
    simp only [kboHelper, if_pos h.1]; rfl
  rw [this]; rfl

/-- Disagreement: the `u32` symbol weight wraps, so instantiation can reverse an orientation. -/
theorem C07_wrap : ∃ (s t : Term) (φ : Nat → Term), kboCmp s t = .gt ∧
    (∀ i, occ i (sub φ bid s) < 256) ∧ (∀ i, occ i (sub φ bid t) < 256) ∧
    kboCmp (sub φ bid s) (sub φ bid t) = .lt := by
  refine ⟨.app (.sym (.global 16383 65535)) (.fvar 0), .app (.sym (.global 16383 65534)) (.fvar 0),
    fun _ => .sym (.global 0 1), by decide, ?_, ?_, by decide⟩
  all_goals intro i; simp [sub, occ]

end Acorn
