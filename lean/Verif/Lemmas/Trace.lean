import Verif.Spec.Trace
/-
Lemmas about trimming proof traces.
-/
namespace Acorn.Trace
open Spec

theorem markPremises_spec (ps : List Nat) (r : List Bool) (i : Nat) :
    (markPremises r ps).length = r.length ∧
    ((markPremises r ps).getD i false = true ↔ r.getD i false = true ∨ (i < r.length ∧ i ∈ ps)) := by
  induction ps generalizing r with
  | nil => simp [markPremises]
  | cons p ps ih =>
    have h := ih (r.set p true)
    simp only [markPremises, List.foldl_cons] at h ⊢
    refine ⟨by rw [h.1]; simp, ?_⟩
    rw [h.2]
    simp only [List.length_set, List.mem_cons]
    by_cases hp : i = p
    · subst hp
      by_cases hi : i < r.length
      · simp [hi]
      · simp [hi]
    · have hp' : ¬ p = i := fun h => hp h.symm
      simp [List.getElem?_set_ne hp', hp]

theorem referencedSteps_spec (steps : List TraceStep) (i : Nat) :
    (referencedSteps steps).getD i false = true ↔ i < steps.length ∧ ∃ t ∈ steps, i ∈ t.premises := by
  have key : ∀ (ss : List TraceStep) (r : List Bool),
      ((ss.foldl (fun r s => markPremises r s.premises) r).getD i false = true ↔
        r.getD i false = true ∨ (i < r.length ∧ ∃ t ∈ ss, i ∈ t.premises)) := by
    intro ss
    induction ss with
    | nil => simp
    | cons s ss ih =>
      intro r
      rw [List.foldl_cons, ih, (markPremises_spec _ _ _).2, (markPremises_spec _ _ i).1]
      simp only [List.mem_cons, exists_eq_or_imp]
      constructor
      · rintro ((h | ⟨a, b⟩) | ⟨a, b⟩)
        · exact .inl h
        · exact .inr ⟨a, .inl b⟩
        · exact .inr ⟨a, .inr b⟩
      · rintro (h | ⟨a, b | b⟩)
        · exact .inl (.inl h)
        · exact .inl (.inr ⟨a, b⟩)
        · exact .inr ⟨a, b⟩
  rw [referencedSteps, key]
  simp only [List.getD_eq_getElem?_getD, List.getElem?_replicate, List.length_replicate]
  split <;> simp_all

theorem dropped_iff (steps : List TraceStep) (i : Nat) (s : TraceStep) (hs : steps[i]? = some s) :
    dropped (referencedSteps steps) i s = true ↔ ¬ Kept steps i := by
  have hlt : i < steps.length := (List.getElem?_eq_some_iff.mp hs).1
  have hr := referencedSteps_spec steps i
  have hd : dropped (referencedSteps steps) i s = (s.generic && !((referencedSteps steps).getD i false)) := by
    unfold dropped
    cases s.generic <;> simp
  rw [hd]
  constructor
  · rintro h ⟨s', hs', h'⟩
    rw [hs] at hs'
    cases hs'
    simp only [Bool.and_eq_true, Bool.not_eq_true'] at h
    rcases h' with h' | h'
    · rw [h'] at h; simp at h
    · have := hr.mpr ⟨hlt, h'⟩
      rw [h.2] at this
      cases this
  · intro h
    simp only [Bool.and_eq_true, Bool.not_eq_true']
    constructor
    · cases hg : s.generic with
      | true => rfl
      | false => exact absurd ⟨s, hs, .inl hg⟩ h
    · cases hb : (referencedSteps steps).getD i false with
      | false => rfl
      | true => exact absurd ⟨s, hs, .inr (hr.mp hb).2⟩ h

/-- Positions kept so far, the renumbering and the kept steps fit together. -/
structure Retained (steps : List TraceStep) (n : Nat) (K : List Nat) (acc : List (Option Nat) × List TraceStep) :
    Prop where
  len : acc.1.length = n
  sorted : K.Pairwise (· < ·)
  mem : ∀ i, i ∈ K ↔ i < n ∧ Kept steps i
  kept : acc.2.map some = K.map (steps[·]?)
  remap : ∀ p q : Nat, acc.1[p]? = some (some q) ↔ K[q]? = some p

theorem retain_spec (steps rest : List TraceStep) (i : Nat) (K : List Nat)
    (acc : List (Option Nat) × List TraceStep) (hrest : rest = steps.drop i) (hi : i ≤ steps.length)
    (h : Retained steps i K acc) :
    ∃ K', Retained steps steps.length K' (retain (referencedSteps steps) i rest acc) := by
  induction rest generalizing i K acc with
  | nil =>
    have : i = steps.length := by
      have := congrArg List.length hrest
      simp at this
      omega
    subst this
    exact ⟨K, by simpa [retain] using h⟩
  | cons s rest ih =>
    have hlt : i < steps.length := by
      have := congrArg List.length hrest
      simp at this
      omega
    have hs : steps[i]? = some s := by
      have := congrArg (fun l => l[0]?) hrest
      simpa using this.symm
    have hrest' : rest = steps.drop (i + 1) := by
      have := congrArg List.tail hrest
      simpa using this
    obtain ⟨remap, kept⟩ := acc
    have hlenK : kept.length = K.length := by
      have := congrArg List.length h.kept
      simpa using this
    simp only [retain]
    by_cases hd : dropped (referencedSteps steps) i s = true
    · rw [if_pos hd]
      have hk := (dropped_iff steps i s hs).mp hd
      refine ih (i + 1) K _ hrest' hlt ⟨by have := h.len; simp at this ⊢; omega, h.sorted, ?_, h.kept, ?_⟩
      · intro j
        rw [h.mem]
        constructor
        · rintro ⟨a, b⟩; exact ⟨by omega, b⟩
        · rintro ⟨a, b⟩
          refine ⟨?_, b⟩
          rcases Nat.lt_succ_iff_lt_or_eq.mp a with a | rfl
          · exact a
          · exact absurd b hk
      · intro p q
        rw [← h.remap]
        have hl : remap.length = i := h.len
        dsimp only
        by_cases hp : p < remap.length
        · rw [List.getElem?_append_left hp]
        · rw [List.getElem?_append_right (by omega), List.getElem?_eq_none (l := remap) (by omega)]
          simp [List.getElem?_singleton]
    · rw [if_neg hd]
      have hk : Kept steps i := Classical.byContradiction fun hc => hd ((dropped_iff steps i s hs).mpr hc)
      refine ih (i + 1) (K ++ [i]) _ hrest' hlt ⟨by have := h.len; simp at this ⊢; omega, ?_, ?_, ?_, ?_⟩
      · rw [List.pairwise_append]
        refine ⟨h.sorted, by simp, ?_⟩
        intro a ha b hb
        simp at hb
        subst hb
        exact ((h.mem a).mp ha).1
      · intro j
        rw [List.mem_append, h.mem, List.mem_singleton]
        constructor
        · rintro (⟨a, b⟩ | rfl)
          · exact ⟨by omega, b⟩
          · exact ⟨by omega, hk⟩
        · rintro ⟨a, b⟩
          rcases Nat.lt_succ_iff_lt_or_eq.mp a with a | rfl
          · exact .inl ⟨a, b⟩
          · exact .inr rfl
      · have := h.kept
        simp only [List.map_append, List.map_cons, List.map_nil, hs]
        rw [this]
      · intro p q
        have hl : remap.length = i := h.len
        dsimp only
        by_cases hp : p < remap.length
        · rw [List.getElem?_append_left hp]
          have := h.remap p q
          dsimp only at this
          rw [this]
          constructor
          · intro hq
            rw [List.getElem?_append_left (List.getElem?_eq_some_iff.mp hq).1]
            exact hq
          · intro hq
            by_cases hqk : q < K.length
            · rwa [List.getElem?_append_left hqk] at hq
            · rw [List.getElem?_append_right (by omega), List.getElem?_singleton] at hq
              split at hq
              · cases hq; omega
              · cases hq
        · rw [List.getElem?_append_right (by omega)]
          have hnone : ∀ x, K[q]? = some x → x < i := fun x hx =>
            ((h.mem x).mp (List.mem_of_getElem? hx)).1
          by_cases hqk : q < K.length
          · rw [List.getElem?_append_left hqk]
            constructor
            · intro hq
              rw [List.getElem?_singleton] at hq
              split at hq
              · simp at hq; omega
              · cases hq
            · intro hq
              have := hnone p hq
              omega
          · rw [List.getElem?_append_right (by omega), List.getElem?_singleton, List.getElem?_singleton]
            constructor
            · intro hq
              split at hq
              · simp at hq
                rw [if_pos (by omega)]
                congr 1
                omega
              · cases hq
            · intro hq
              split at hq
              · cases hq
                rw [if_pos (by omega)]
                congr 2
                omega
              · cases hq

theorem renumber_spec {remap : List (Option Nat)} (ps : List Nat) :
    (∀ qs, renumber remap ps = some qs → qs.length = ps.length ∧
      ∀ (j : Nat) q p, qs[j]? = some q → ps[j]? = some p → remap[p]? = some (some q)) ∧
    ((∀ p ∈ ps, ∃ q, remap[p]? = some (some q)) → ∃ qs, renumber remap ps = some qs) ∧
    (∀ qs, renumber remap ps = some qs → ∀ p ∈ ps, ∃ q, remap[p]? = some (some q)) := by
  induction ps with
  | nil =>
    refine ⟨?_, fun _ => ⟨[], rfl⟩, by simp⟩
    intro qs h
    simp only [renumber] at h
    cases h
    simp
  | cons p ps ih =>
    obtain ⟨ih1, ih2, ih3⟩ := ih
    have inv : ∀ qs, renumber remap (p :: ps) = some qs →
        ∃ q qs', remap[p]? = some (some q) ∧ renumber remap ps = some qs' ∧ qs = q :: qs' := by
      intro qs h
      simp only [renumber, Option.bind_eq_some_iff, Option.map_eq_some_iff, Option.join_eq_some_iff] at h
      obtain ⟨q, hq, qs', h, rfl⟩ := h
      exact ⟨q, qs', hq, h, rfl⟩
    refine ⟨?_, ?_, ?_⟩
    · intro qs h
      obtain ⟨q, qs', hq, hr, rfl⟩ := inv qs h
      obtain ⟨h1, h2⟩ := ih1 qs' hr
      refine ⟨by simp [h1], fun j q' p' hq' hp' => ?_⟩
      cases j with
      | zero => simp at hq' hp'; subst hq'; subst hp'; exact hq
      | succ j => exact h2 j q' p' (by simpa using hq') (by simpa using hp')
    · intro h
      obtain ⟨q, hq⟩ := h p (by simp)
      obtain ⟨qs, hqs⟩ := ih2 fun p' hp' => h p' (by simp [hp'])
      exact ⟨q :: qs, by simp [renumber, hq, hqs]⟩
    · intro qs h p' hp'
      obtain ⟨q, qs', hq, hr, rfl⟩ := inv qs h
      rcases List.mem_cons.mp hp' with rfl | hp'
      · exact ⟨q, hq⟩
      · exact ih3 qs' hr p' hp'

theorem renumberAll_spec {remap : List (Option Nat)} (ss : List TraceStep) :
    (∀ out, renumberAll remap ss = some out → out.length = ss.length ∧
      ∀ (k : Nat) t s, out[k]? = some t → ss[k]? = some s →
        ∃ qs, renumber remap s.premises = some qs ∧ t = { s with premises := qs }) ∧
    ((∀ s ∈ ss, ∃ qs, renumber remap s.premises = some qs) → ∃ out, renumberAll remap ss = some out) ∧
    (∀ out, renumberAll remap ss = some out → ∀ s ∈ ss, ∃ qs, renumber remap s.premises = some qs) := by
  induction ss with
  | nil =>
    refine ⟨?_, fun _ => ⟨[], rfl⟩, by simp⟩
    intro out h
    simp only [renumberAll] at h
    cases h
    simp
  | cons s ss ih =>
    obtain ⟨ih1, ih2, ih3⟩ := ih
    have inv : ∀ out, renumberAll remap (s :: ss) = some out →
        ∃ qs out', renumber remap s.premises = some qs ∧ renumberAll remap ss = some out' ∧
          out = { s with premises := qs } :: out' := by
      intro out h
      simp only [renumberAll, Option.bind_eq_some_iff, Option.map_eq_some_iff] at h
      obtain ⟨qs, hq, out', h, rfl⟩ := h
      exact ⟨qs, out', hq, h, rfl⟩
    refine ⟨?_, ?_, ?_⟩
    · intro out h
      obtain ⟨qs, out', hq, hr, rfl⟩ := inv out h
      obtain ⟨h1, h2⟩ := ih1 out' hr
      refine ⟨by simp [h1], fun k t s' ht hs' => ?_⟩
      cases k with
      | zero => simp at ht hs'; subst ht; subst hs'; exact ⟨qs, hq, rfl⟩
      | succ k => exact h2 k t s' (by simpa using ht) (by simpa using hs')
    · intro h
      obtain ⟨qs, hq⟩ := h s (by simp)
      obtain ⟨out, ho⟩ := ih2 fun s' hs' => h s' (by simp [hs'])
      exact ⟨_, by rw [renumberAll, hq, Option.bind_some, ho, Option.map_some]⟩
    · intro out h s' hs'
      obtain ⟨qs, out', hq, hr, rfl⟩ := inv out h
      rcases List.mem_cons.mp hs' with rfl | hs'
      · exact ⟨qs, hq⟩
      · exact ih3 out' hr s' hs'

end Acorn.Trace
