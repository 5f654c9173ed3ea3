/-
C24: removing unreferenced auxiliary steps keeps the remaining trace intact.
-/
import Verif.Spec.Trace
import Verif.Lemmas.Trace
namespace Acorn
open Spec Trace

theorem retain_all (steps : List TraceStep) :
    ∃ K, Retained steps steps.length K (retain (referencedSteps steps) 0 steps ([], [])) := by
  refine retain_spec steps steps 0 [] _ (by simp) (by omega) ⟨rfl, by simp, by simp, by simp, by simp⟩

/-- C24: trimming succeeds exactly if the premises of all kept steps refer to steps of the trace. -/
theorem C24_succeeds (steps : List TraceStep) :
    (∃ out, trim steps = some out) ↔
      ∀ (i : Nat) s, steps[i]? = some s → Kept steps i → ∀ p ∈ s.premises, p < steps.length := by
  obtain ⟨K, h⟩ := retain_all steps
  simp only [trim]
  generalize retain (referencedSteps steps) 0 steps ([], []) = acc at h ⊢
  obtain ⟨remap, kept⟩ := acc
  dsimp only at h ⊢
  have hmem : ∀ s, s ∈ kept ↔ ∃ i, steps[i]? = some s ∧ Kept steps i := by
    intro s
    have h1 : some s ∈ kept.map some ↔ some s ∈ K.map (steps[·]?) := by rw [h.kept]
    simp only [List.mem_map, Option.some.injEq, exists_eq_right] at h1
    rw [h1]
    constructor
    · rintro ⟨i, hi, e⟩
      exact ⟨i, e, ((h.mem i).mp hi).2⟩
    · rintro ⟨i, e, hk⟩
      exact ⟨i, (h.mem i).mpr ⟨(List.getElem?_eq_some_iff.mp e).1, hk⟩, e⟩
  have href : ∀ p, (∃ q, remap[p]? = some (some q)) ↔ p < steps.length ∧ Kept steps p := by
    intro p
    rw [← h.mem]
    constructor
    · rintro ⟨q, hq⟩
      exact List.mem_of_getElem? ((h.remap p q).mp hq)
    · intro hp
      obtain ⟨q, hq⟩ := List.getElem?_of_mem hp
      exact ⟨q, (h.remap p q).mpr hq⟩
  constructor
  · rintro ⟨out, ho⟩ i s hs hk p hp
    obtain ⟨qs, hqs⟩ := (renumberAll_spec kept).2.2 out ho s ((hmem s).mpr ⟨i, hs, hk⟩)
    exact ((href p).mp ((renumber_spec s.premises).2.2 qs hqs p hp)).1
  · intro hall
    refine (renumberAll_spec kept).2.1 fun s hs => (renumber_spec s.premises).2.1 fun p hp => ?_
    obtain ⟨i, hi, hk⟩ := (hmem s).mp hs
    have hlt := hall i s hi hk p hp
    exact (href p).mpr ⟨hlt, steps[p], List.getElem?_eq_getElem hlt, .inr ⟨s, List.mem_of_getElem? hi, hp⟩⟩

/-- C24: the trimmed trace consists of exactly the non-auxiliary and the referenced steps, in their
order, unchanged except that every premise refers to the same step as before. -/
theorem C24_same {steps out : List TraceStep} (h : trim steps = some out) :
    ∃ positions : List Nat, positions.Pairwise (· < ·) ∧
      (∀ i, i ∈ positions ↔ Kept steps i) ∧ out.length = positions.length ∧
      ∀ (k : Nat) new, out[k]? = some new → ∃ i old, positions[k]? = some i ∧ steps[i]? = some old ∧
        SameStep positions new old := by
  obtain ⟨K, hr⟩ := retain_all steps
  simp only [trim] at h
  generalize retain (referencedSteps steps) 0 steps ([], []) = acc at h hr
  obtain ⟨remap, kept⟩ := acc
  dsimp only at h
  obtain ⟨hlen, hsteps⟩ := (renumberAll_spec kept).1 out h
  have hkl : kept.length = K.length := by
    have := congrArg List.length hr.kept
    simpa using this
  refine ⟨K, hr.sorted, fun i => ?_, by omega, fun k new hk => ?_⟩
  · rw [hr.mem]
    exact ⟨fun h => h.2, fun h => ⟨(List.getElem?_eq_some_iff.mp h.choose_spec.1).1, h⟩⟩
  · have hlt : k < kept.length := by
      have := (List.getElem?_eq_some_iff.mp hk).1
      omega
    have e := congrArg (fun l => l[k]?) hr.kept
    simp only [List.getElem?_map, List.getElem?_eq_getElem hlt,
      List.getElem?_eq_getElem (show k < K.length by omega), Option.map_some, Option.some.injEq] at e
    obtain ⟨qs, hqs, rfl⟩ := hsteps k new kept[k] hk (List.getElem?_eq_getElem hlt)
    obtain ⟨h1, h2⟩ := (renumber_spec kept[k].premises).1 qs hqs
    refine ⟨K[k]'(by omega), kept[k], List.getElem?_eq_getElem (by omega), e.symm, rfl, rfl, rfl, rfl, rfl, h1, ?_⟩
    intro j q p hq hp
    exact (hr.remap p q).mp (h2 j q p hq hp)

/-- C24: if all premises refer to earlier steps, trimming succeeds and the result has the same
property. -/
theorem C24_earlier {steps : List TraceStep}
    (h : ∀ (i : Nat) s, steps[i]? = some s → ∀ p ∈ s.premises, p < i) :
    ∃ out, trim steps = some out ∧ ∀ (i : Nat) s, out[i]? = some s → ∀ p ∈ s.premises, p < i := by
  obtain ⟨out, ho⟩ := (C24_succeeds steps).mpr fun i s hs _ p hp =>
    Nat.lt_trans (h i s hs p hp) (List.getElem?_eq_some_iff.mp hs).1
  refine ⟨out, ho, fun k s hk q hq => ?_⟩
  obtain ⟨K, hsort, _, _, hall⟩ := C24_same ho
  obtain ⟨i, old, hi, hold, _, _, _, _, _, hl, hp⟩ := hall k s hk
  obtain ⟨j, hj⟩ := List.getElem?_of_mem hq
  have hjl : j < old.premises.length := by
    have := (List.getElem?_eq_some_iff.mp hj).1
    omega
  have hpos := hp j q _ hj (List.getElem?_eq_getElem hjl)
  have hlt := h i old hold _ (List.getElem_mem hjl)
  refine Classical.byContradiction fun hge => ?_
  obtain ⟨hq1, hq2⟩ := List.getElem?_eq_some_iff.mp hpos
  obtain ⟨hi1, hi2⟩ := List.getElem?_eq_some_iff.mp hi
  rcases Nat.lt_or_eq_of_le (Nat.not_lt.mp hge) with hkq | rfl
  · have := List.pairwise_iff_getElem.mp hsort k q hi1 hq1 hkq
    omega
  · rw [hi2] at hq2
    omega

/-! ### Concrete case -/

namespace TraceDemo

def step (c : String) (ps : List Nat) (g : Bool) : TraceStep := ⟨.claim, c.toList, ps, g, none, none⟩

/-- Step 0 is auxiliary and unused, step 1 auxiliary and used by step 3. -/
def steps : List TraceStep :=
  [step "a" [] true, step "b" [] true, step "c" [] false, step "d" [1, 2] false]

example : trim steps = some [step "b" [] true, step "c" [] false, step "d" [0, 1] false] := by
  decide +kernel

example : ∀ (i : Nat) s, steps[i]? = some s → ∀ p ∈ s.premises, p < i := by
  intro i s h p hp
  match i with
  | 0 => simp [steps] at h; subst h; simp [step] at hp
  | 1 => simp [steps] at h; subst h; simp [step] at hp
  | 2 => simp [steps] at h; subst h; simp [step] at hp
  | 3 => simp [steps] at h; subst h; simp [step] at hp; omega
  | n + 4 => simp [steps] at h

/-- A premise out of range is fatal. -/
example : trim [step "a" [5] false] = none := by decide +kernel

end TraceDemo

end Acorn
