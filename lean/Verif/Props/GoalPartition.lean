/-
C32: goal buckets partition the goals.
-/
import Verif.Spec.GoalPartition
import Verif.Lemmas.GoalPartition
namespace Acorn
open Spec

/-- C32: every goal key falls in one of the 100 buckets, whatever the hash function. -/
theorem C32_bucket (sha256 : List Char → List Nat) (module goal : List Char) :
    goalBucket sha256 module goal < 100 :=
  Nat.mod_lt _ (by decide)

theorem filter_contains {f : BucketFilter} {b : Nat} : f.contains b = true ↔ InFilter f b := by
  simp [BucketFilter.contains, BucketRange.contains, InFilter]

/-- C32: for any filters that split the buckets, each goal is selected by exactly one of them. -/
theorem C32_one_filter (sha256 : List Char → List Nat) (module goal : List Char) {fs : List BucketFilter}
    (h : Splits fs) :
    ∃ i : Nat, (∃ f, fs[i]? = some f ∧ f.contains (goalBucket sha256 module goal) = true) ∧
      ∀ (j : Nat) f, fs[j]? = some f → f.contains (goalBucket sha256 module goal) = true → j = i := by
  obtain ⟨i, ⟨f, hf, hi⟩, hu⟩ := h _ (C32_bucket sha256 module goal)
  exact ⟨i, ⟨f, hf, filter_contains.mpr hi⟩, fun j f hj hc => hu j f hj (filter_contains.mp hc)⟩

/-- C32: a filter for a single bucket selects that bucket only, and exists for each bucket. -/
theorem C32_single (b : Nat) :
    (b < 100 → ∃ f, BucketFilter.single b = some f ∧ ∀ c, f.contains c = true ↔ c = b) ∧
    (100 ≤ b → BucketFilter.single b = none) := by
  constructor
  · intro h
    refine ⟨[⟨b, b⟩], by rw [BucketFilter.single, if_pos (by simpa [goalBucketCount] using h)], fun c => ?_⟩
    simp only [BucketFilter.contains, BucketRange.contains, List.any_cons, List.any_nil, Bool.or_false,
      Bool.and_eq_true, decide_eq_true_eq]
    omega
  · intro h
    rw [BucketFilter.single, if_neg (by simp [goalBucketCount]; omega)]

/-- C32: a text is accepted exactly when it is a list of buckets and ranges separated by commas, and then
means these. -/
theorem C32_parse (s : List Char) (f : BucketFilter) : BucketFilter.parse s = some f ↔ FilterText s f := by
  rw [← FilterText.trim, ← parseRanges_iff, BucketFilter.parse]
  split
  · rename_i h
    have : Text.trim s = [] := by simpa using h
    rw [this]
    simp [Text.splitChar, parseRanges, parseRange, Text.trim, Text.trimStart, Text.trimEnd]
  · exact Iff.rfl

/-- C32: parsing the printed form of a filter gives the same filter. -/
theorem C32_round_trip {f : BucketFilter} (h : FilterValid f) : BucketFilter.parse f.show = some f :=
  (C32_parse _ _).mpr (show_text h)

/-- C32: filters made by parsing or for a single bucket are printable in this sense. -/
theorem C32_valid (s : List Char) (f : BucketFilter) :
    (BucketFilter.parse s = some f → FilterValid f) ∧
    (∀ b, BucketFilter.single b = some f → FilterValid f) := by
  refine ⟨fun h => ((C32_parse _ _).mp h).valid, fun b h => ?_⟩
  rw [BucketFilter.single] at h
  split at h
  · rename_i hb
    cases h
    exact ⟨by simp, by simpa [goalBucketCount] using hb⟩
  · cases h

/-! ### Concrete case -/

namespace BucketDemo

def low : BucketFilter := [⟨0, 4⟩, ⟨17, 17⟩]
def rest : BucketFilter := [⟨5, 16⟩, ⟨18, 99⟩]

theorem splits : Splits [low, rest] := by
  have key : ∀ b : Fin 100, low.contains b.1 = !rest.contains b.1 := by decide +kernel
  intro b hb
  have h := key ⟨b, hb⟩
  dsimp only at h
  cases hr : rest.contains b with
  | true =>
    rw [hr] at h
    refine ⟨1, ⟨rest, rfl, filter_contains.mp hr⟩, ?_⟩
    rintro (_ | _ | j) f hf hc
    · cases hf; rw [filter_contains.mpr hc] at h; cases h
    · rfl
    · cases hf
  | false =>
    rw [hr] at h
    refine ⟨0, ⟨low, rfl, filter_contains.mp h⟩, ?_⟩
    rintro (_ | _ | j) f hf hc
    · rfl
    · cases hf; rw [filter_contains.mpr hc] at hr; cases hr
    · cases hf

example : low.show = "0-4,17".toList := by decide +kernel
example : BucketFilter.parse " 0 - +4, 17".toList = some low := by decide +kernel
example : BucketFilter.parse "9-3".toList = none ∧ BucketFilter.parse "1,,2".toList = none ∧
    BucketFilter.parse "100".toList = none := by decide +kernel
example : FilterValid low := ⟨by simp [low], by decide +kernel⟩

end BucketDemo

end Acorn
