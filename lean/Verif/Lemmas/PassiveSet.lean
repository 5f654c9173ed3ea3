/-
The queues of the passive set agree with its clauses.
-/
import Verif.Spec.PassiveSet
import Verif.Lemmas.Fingerprint
namespace Acorn
namespace Passive

section
variable {α : Type} {lt : α → α → Bool}

theorem mem_setRemove {q : List α} {a x : α} : x ∈ setRemove lt q a ↔ x ∈ q ∧ (lt x a = true ∨ lt a x = true) := by
  simp [setRemove, List.mem_filter]

theorem mem_setInsert {q : List α} {a x : α} (h : ∀ y ∈ q, lt y a = true ∨ lt a y = true) :
    x ∈ setInsert lt q a ↔ x = a ∨ x ∈ q := by
  have : q.any (fun x => !lt x a && !lt a x) = false := by
    rw [List.any_eq_false]
    intro y hy
    rcases h y hy with h | h <;> simp [h]
  simp [setInsert, this]

theorem setLast_mem : ∀ {q : List α} {a : α}, setLast lt q = some a → a ∈ q
  | [], _, e => by simp [setLast] at e
  | b :: q, a, e => by
    simp only [setLast] at e
    split at e
    · cases e; simp
    · rename_i c hc
      split at e
      · cases e; simp
      · cases e; exact List.mem_cons_of_mem _ (setLast_mem hc)

theorem setLast_none {q : List α} (e : setLast lt q = none) : q = [] := by
  cases q with
  | nil => rfl
  | cons a q =>
    simp only [setLast] at e
    split at e
    · cases e
    · split at e <;> cases e

theorem setLast_max (hi : ∀ a, lt a a = false) (ht : ∀ a b c, lt a b = true → lt b c = true → lt a c = true) :
    ∀ {q : List α} {a : α}, setLast lt q = some a → ∀ x ∈ q, lt a x = false
  | [], _, e => by simp [setLast] at e
  | b :: q, a, e => by
    simp only [setLast] at e
    split at e
    · rename_i hn
      cases e
      rw [setLast_none hn]
      intro x hx
      rw [List.mem_singleton.1 hx]; exact hi _
    · rename_i c hc
      have ih := setLast_max hi ht hc
      split at e
      · rename_i hl
        cases e
        intro x hx
        rcases List.mem_cons.1 hx with rfl | hx
        · exact hi _
        · cases hh : lt b x with
          | false => rfl
          | true => have := ht _ _ _ hl hh; rw [ih x hx] at this; cases this
      · rename_i hl
        cases e
        intro x hx
        rcases List.mem_cons.1 hx with rfl | hx
        · simpa using hl
        · exact ih x hx

end

theorem Score.lt_iff {a b : Score} : a.lt b = true ↔ b.Better a := by
  simp only [Score.lt, Score.Better, Bool.or_eq_true, Bool.and_eq_true, Bool.not_eq_true', beq_iff_eq,
    decide_eq_true_eq]
  constructor
  · rintro (⟨h, h'⟩ | ⟨h, h' | ⟨h1, h2⟩⟩)
    · exact .inl ⟨h', h⟩
    · exact .inr ⟨h.symm, .inl h'⟩
    · exact .inr ⟨h.symm, .inr ⟨h1.symm, h2⟩⟩
  · rintro (⟨h, h'⟩ | ⟨h, h' | ⟨h1, h2⟩⟩)
    · exact .inl ⟨h', h⟩
    · exact .inr ⟨h.symm, .inl h'⟩
    · exact .inr ⟨h.symm, .inr ⟨h1.symm, h2⟩⟩

theorem Score.lt_irrefl (a : Score) : a.lt a = false := by
  simp [Score.lt]

theorem Score.lt_trans {a b c : Score} (h : a.lt b = true) (h' : b.lt c = true) : a.lt c = true := by
  rw [Score.lt_iff] at *
  simp only [Score.Better] at *
  obtain ⟨a1, a2, a3, _⟩ := a
  obtain ⟨b1, b2, b3, _⟩ := b
  obtain ⟨c1, c2, c3, _⟩ := c
  cases a1 <;> cases b1 <;> cases c1 <;> simp_all <;> omega

/-- Neither is better: the three parts agree. -/
theorem Score.tie {a b : Score} (h : a.lt b = false) (h' : b.lt a = false) :
    a.contradiction = b.contradiction ∧ a.tier = b.tier ∧ a.value = b.value := by
  have h : ¬ a.lt b = true := by simp [h]
  have h' : ¬ b.lt a = true := by simp [h']
  rw [Score.lt_iff] at *
  simp only [Score.Better] at *
  obtain ⟨a1, a2, a3, _⟩ := a
  obtain ⟨b1, b2, b3, _⟩ := b
  cases a1 <;> cases b1 <;> simp_all <;> omega

theorem entryLt_iff {a b : Score × Nat} :
    entryLt a b = true ↔ a.1.lt b.1 = true ∨ (b.1.lt a.1 = false ∧ a.2 < b.2) := by
  simp [entryLt]

theorem entryLt_irrefl (a : Score × Nat) : entryLt a a = false := by
  simp [entryLt, Score.lt_irrefl]

theorem entryLt_trans (a b c : Score × Nat) (h : entryLt a b = true) (h' : entryLt b c = true) :
    entryLt a c = true := by
  rw [entryLt_iff] at *
  have tie : ∀ {x y z : Score}, x.lt y = false → y.lt x = false → z.lt x = z.lt y ∧ x.lt z = y.lt z := by
    intro x y z h h'
    obtain ⟨e1, e2, e3⟩ := Score.tie h h'
    simp [Score.lt, e1, e2, e3]
  have no : ∀ {x y : Score}, x.lt y = true → y.lt x = false := by
    intro x y h
    cases h' : y.lt x with
    | false => rfl
    | true => have := Score.lt_trans h h'; rw [Score.lt_irrefl] at this; cases this
  rcases h with h | ⟨h, i⟩
  · rcases h' with h' | ⟨h', j⟩
    · exact .inl (Score.lt_trans h h')
    · cases hb : b.1.lt c.1 with
      | true => exact .inl (Score.lt_trans h hb)
      | false => exact .inl ((tie hb h').1 ▸ h)
  · cases ha : a.1.lt b.1 with
    | true =>
      rcases h' with h' | ⟨h', j⟩
      · exact .inl (Score.lt_trans ha h')
      · cases hb : b.1.lt c.1 with
        | true => exact .inl (Score.lt_trans ha hb)
        | false => exact .inl ((tie hb h').1 ▸ ha)
    | false =>
      rcases h' with h' | ⟨h', j⟩
      · exact .inl ((tie ha h).2 ▸ h')
      · refine .inr ⟨(tie ha h).1 ▸ h', by omega⟩

theorem entryLt_apart {a b : Score × Nat} (h : a.2 ≠ b.2) : entryLt a b = true ∨ entryLt b a = true := by
  rw [entryLt_iff, entryLt_iff]
  cases h1 : a.1.lt b.1 <;> cases h2 : b.1.lt a.1 <;> simp <;> omega

theorem dfLt_iff {a b : Bool × Nat × Nat} : dfLt a b = true ↔ (b.1 = true ∧ a.1 = false) ∨
    (b.1 = a.1 ∧ (a.2.1 < b.2.1 ∨ (b.2.1 = a.2.1 ∧ a.2.2 < b.2.2))) := by
  simp only [dfLt, Bool.or_eq_true, Bool.and_eq_true, Bool.not_eq_true', beq_iff_eq, decide_eq_true_eq]
  constructor
  · rintro (⟨h, h'⟩ | ⟨h, h' | ⟨h1, h2⟩⟩)
    · exact .inl ⟨h', h⟩
    · exact .inr ⟨h.symm, .inl h'⟩
    · exact .inr ⟨h.symm, .inr ⟨h1.symm, h2⟩⟩
  · rintro (⟨h, h'⟩ | ⟨h, h' | ⟨h1, h2⟩⟩)
    · exact .inl ⟨h', h⟩
    · exact .inr ⟨h.symm, .inl h'⟩
    · exact .inr ⟨h.symm, .inr ⟨h1.symm, h2⟩⟩

theorem dfLt_irrefl (a : Bool × Nat × Nat) : dfLt a a = false := by
  simp [dfLt]

theorem dfLt_trans (a b c : Bool × Nat × Nat) (h : dfLt a b = true) (h' : dfLt b c = true) : dfLt a c = true := by
  rw [dfLt_iff] at *
  obtain ⟨a1, a2, a3⟩ := a
  obtain ⟨b1, b2, b3⟩ := b
  obtain ⟨c1, c2, c3⟩ := c
  cases a1 <;> cases b1 <;> cases c1 <;> simp_all <;> omega

theorem dfLt_apart {a b : Bool × Nat × Nat} (h : a.2.2 ≠ b.2.2) : dfLt a b = true ∨ dfLt b a = true := by
  rw [dfLt_iff, dfLt_iff]
  obtain ⟨a1, a2, a3⟩ := a
  obtain ⟨b1, b2, b3⟩ := b
  cases a1 <;> cases b1 <;> simp_all <;> omega

/-! ### A queue with one entry for each waiting clause -/

variable {R κ : Type}

/-- The queue holds the keys of the waiting clauses. -/
structure Keyed (key : Score → Nat → κ) (cs : List (Option (Step R × Score))) (q : List κ) : Prop where
  mem : ∀ k, k ∈ q ↔ ∃ (id : Nat) (s : Step R) (sc : Score), cs[id]? = some (some (s, sc)) ∧ k = key sc id
  nodup : q.Nodup

/-- What the order of the keys must satisfy. -/
structure KeyOrder (lt : κ → κ → Bool) (key : Score → Nat → κ) : Prop where
  irrefl : ∀ a, lt a a = false
  apart : ∀ sc i sc' j, i ≠ j → lt (key sc i) (key sc' j) = true ∨ lt (key sc' j) (key sc i) = true

theorem entryOrder : KeyOrder entryLt fun sc id => (sc, id) :=
  ⟨entryLt_irrefl, fun _ _ _ _ h => entryLt_apart h⟩

theorem dfOrder : KeyOrder dfLt dfKey := ⟨dfLt_irrefl, fun _ _ _ _ h => dfLt_apart h⟩

theorem getElem?_set_same {α : Type} {l : List α} {i : Nat} {a b : α} (h : l[i]? = some a) :
    (l.set i b)[i]? = some b := by
  obtain ⟨hi, _⟩ := List.getElem?_eq_some_iff.1 h
  simp [List.getElem?_set, hi]

theorem getElem?_set_other {α : Type} {l : List α} {i j : Nat} {b : α} (h : i ≠ j) :
    (l.set i b)[j]? = l[j]? := by
  simp [List.getElem?_set, h]

variable {lt : κ → κ → Bool} {key : Score → Nat → κ} {cs : List (Option (Step R × Score))} {q : List κ}

theorem Keyed.remove (ho : KeyOrder lt key) (h : Keyed key cs q) {id : Nat} {s : Step R} {sc : Score}
    (e : cs[id]? = some (some (s, sc))) : Keyed key (cs.set id none) (setRemove lt q (key sc id)) := by
  refine ⟨fun k => ?_, h.nodup.filter _⟩
  rw [mem_setRemove, h.mem]
  constructor
  · rintro ⟨⟨j, s', sc', e', rfl⟩, hl⟩
    by_cases hj : id = j
    · subst hj
      rw [e] at e'; cases e'
      rcases hl with hl | hl <;> rw [ho.irrefl] at hl <;> cases hl
    · exact ⟨j, s', sc', by rw [getElem?_set_other hj]; exact e', rfl⟩
  · rintro ⟨j, s', sc', e', rfl⟩
    by_cases hj : id = j
    · subst hj
      rw [getElem?_set_same e] at e'; cases e'
    · rw [getElem?_set_other hj] at e'
      exact ⟨⟨j, s', sc', e', rfl⟩, ho.apart _ _ _ _ (Ne.symm hj)⟩

theorem Keyed.insert (ho : KeyOrder lt key) (h : Keyed key cs q) {id : Nat} {s : Step R} {sc : Score}
    (e : cs[id]? = some none) : Keyed key (cs.set id (some (s, sc))) (setInsert lt q (key sc id)) := by
  have hf : ∀ y ∈ q, lt y (key sc id) = true ∨ lt (key sc id) y = true := by
    intro y hy
    obtain ⟨j, s', sc', e', rfl⟩ := (h.mem y).1 hy
    refine ho.apart _ _ _ _ fun hj => ?_
    subst hj; rw [e] at e'; cases e'
  refine ⟨fun k => ?_, ?_⟩
  · rw [mem_setInsert hf, h.mem]
    constructor
    · rintro (rfl | ⟨j, s', sc', e', rfl⟩)
      · exact ⟨id, s, sc, getElem?_set_same e, rfl⟩
      · refine ⟨j, s', sc', ?_, rfl⟩
        rw [getElem?_set_other fun hj => ?_]; exact e'
        subst hj; rw [e] at e'; cases e'
    · rintro ⟨j, s', sc', e', rfl⟩
      by_cases hj : id = j
      · subst hj
        rw [getElem?_set_same e] at e'; cases e'
        exact .inl rfl
      · rw [getElem?_set_other hj] at e'
        exact .inr ⟨j, s', sc', e', rfl⟩
  · unfold setInsert
    split
    · exact h.nodup
    · refine List.nodup_cons.2 ⟨fun hm => ?_, h.nodup⟩
      rcases hf _ hm with hl | hl <;> rw [ho.irrefl] at hl <;> cases hl

theorem Keyed.push (ho : KeyOrder lt key) (h : Keyed key cs q) {s : Step R} {sc : Score} :
    Keyed key (cs ++ [some (s, sc)]) (setInsert lt q (key sc cs.length)) := by
  have h0 : Keyed key (cs ++ [none]) q := by
    refine ⟨fun k => ?_, h.nodup⟩
    rw [h.mem]
    constructor
    · rintro ⟨j, s', sc', e', rfl⟩
      refine ⟨j, s', sc', ?_, rfl⟩
      rw [List.getElem?_append_left (List.getElem?_eq_some_iff.1 e').1]; exact e'
    · rintro ⟨j, s', sc', e', rfl⟩
      refine ⟨j, s', sc', ?_, rfl⟩
      by_cases hj : j < cs.length
      · rwa [List.getElem?_append_left hj] at e'
      · rw [List.getElem?_append_right (by omega)] at e'
        cases hk : j - cs.length with
        | zero => rw [hk] at e'; cases e'
        | succ n => rw [hk] at e'; cases e'
  have := h0.insert ho (id := cs.length) (s := s) (sc := sc) (by simp)
  have e : (cs ++ [none]).set cs.length (some (s, sc)) = cs ++ [some (s, sc)] := by simp [List.set_append]
  rwa [e] at this

theorem Keyed.rescore (ho : KeyOrder lt key) (h : Keyed key cs q) {id : Nat} {s : Step R} {sc new : Score}
    (e : cs[id]? = some (some (s, sc))) :
    Keyed key (cs.set id (some (s, new))) (setInsert lt (setRemove lt q (key sc id)) (key new id)) := by
  have := (h.remove ho e).insert ho (id := id) (s := s) (sc := new) (getElem?_set_same e)
  rwa [List.set_set] at this

end Passive
end Acorn
