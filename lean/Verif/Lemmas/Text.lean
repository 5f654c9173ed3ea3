import Verif.Model.Text
/-
Lemmas about string functions.
-/
namespace Acorn.Text

/-- All characters are white space. -/
def Ws (s : List Char) : Prop := ∀ c ∈ s, isWhitespace c = true

theorem dropWhile_ws {s t : List Char} (h : Ws s) : (s ++ t).dropWhile isWhitespace = t.dropWhile isWhitespace := by
  induction s with
  | nil => rfl
  | cons c s ih =>
    rw [List.cons_append, List.dropWhile_cons, if_pos (h c (by simp)), ih fun x hx => h x (by simp [hx])]

theorem dropWhile_split (s : List Char) : ∃ p, s = p ++ s.dropWhile isWhitespace ∧ Ws p := by
  induction s with
  | nil => exact ⟨[], rfl, by simp [Ws]⟩
  | cons c s ih =>
    rw [List.dropWhile_cons]
    split
    · rename_i hc
      obtain ⟨p, hp, hw⟩ := ih
      refine ⟨c :: p, by rw [List.cons_append, ← hp], ?_⟩
      intro x hx
      rcases List.mem_cons.mp hx with rfl | hx
      · exact hc
      · exact hw x hx
    · exact ⟨[], rfl, by simp [Ws]⟩

theorem dropWhile_stop {s t : List Char} {c : Char} (hc : isWhitespace c = false) :
    (s ++ c :: t).dropWhile isWhitespace = s.dropWhile isWhitespace ++ c :: t := by
  induction s with
  | nil => rw [List.nil_append, List.dropWhile_cons, if_neg (by simp [hc])]; rfl
  | cons x s ih =>
    rw [List.cons_append, List.dropWhile_cons, List.dropWhile_cons]
    split
    · exact ih
    · rfl

theorem trimStart_pad {p s : List Char} (h : Ws p) : trimStart (p ++ s) = trimStart s := dropWhile_ws h

theorem trimEnd_pad {p s : List Char} (h : Ws p) : trimEnd (s ++ p) = trimEnd s := by
  unfold trimEnd
  rw [List.reverse_append, dropWhile_ws fun c hc => h c (List.mem_reverse.mp hc)]

theorem trimEnd_ws {p : List Char} (h : Ws p) : trimEnd p = [] := by
  have := trimEnd_pad (s := []) h
  simpa [trimEnd] using this

theorem trimStart_ws {p : List Char} (h : Ws p) : trimStart p = [] := by
  have := trimStart_pad (s := []) h
  simpa [trimStart] using this

theorem trimEnd_stop {s t : List Char} {c : Char} (hc : isWhitespace c = false) :
    trimEnd (s ++ c :: t) = s ++ c :: trimEnd t := by
  unfold trimEnd
  rw [List.reverse_append, List.reverse_cons, List.append_assoc, List.singleton_append, dropWhile_stop hc]
  simp

theorem trimStart_stop {s t : List Char} {c : Char} (hc : isWhitespace c = false) :
    trimStart (s ++ c :: t) = trimStart s ++ c :: t := dropWhile_stop hc

theorem ws_or_stop (s : List Char) : Ws s ∨ ∃ a c b, s = a ++ c :: b ∧ isWhitespace c = false := by
  by_cases h : Ws s
  · exact Or.inl h
  · simp only [Ws, Classical.not_forall] at h
    obtain ⟨c, hc, hn⟩ := h
    obtain ⟨a, b, rfl⟩ := List.append_of_mem hc
    exact Or.inr ⟨a, c, b, rfl, by simpa using hn⟩

theorem trim_stop {a b : List Char} {c : Char} (hc : isWhitespace c = false) :
    trim (a ++ c :: b) = trimStart a ++ c :: trimEnd b := by
  rw [trim, trimStart_stop hc, trimEnd_stop hc]

theorem trim_pad {p s q : List Char} (hp : Ws p) (hq : Ws q) : trim (p ++ s ++ q) = trim s := by
  rcases ws_or_stop s with h | ⟨a, c, b, rfl, hc⟩
  · have h1 : Ws (p ++ s ++ q) := by
      intro c hc
      simp only [List.mem_append] at hc
      rcases hc with (hc | hc) | hc
      · exact hp c hc
      · exact h c hc
      · exact hq c hc
    rw [trim, trim, trimStart_ws h1, trimStart_ws h]
  · have e : p ++ (a ++ c :: b) ++ q = (p ++ a) ++ c :: (b ++ q) := by simp
    rw [e, trim_stop hc, trim_stop hc, trimStart_pad hp, trimEnd_pad hq]

theorem trim_split (s : List Char) : ∃ p q, s = p ++ trim s ++ q ∧ Ws p ∧ Ws q := by
  obtain ⟨p, hp, hw⟩ := dropWhile_split s
  obtain ⟨q, hq, hv⟩ := dropWhile_split (trimStart s).reverse
  refine ⟨p, q.reverse, ?_, hw, fun c hc => hv c (List.mem_reverse.mp hc)⟩
  have h1 : trimStart s = trim s ++ q.reverse := by
    rw [trim, trimEnd, ← List.reverse_append, ← hq, List.reverse_reverse]
  rw [List.append_assoc, ← h1]
  exact hp

theorem trim_trim (s : List Char) : trim (trim s) = trim s := by
  obtain ⟨p, q, h, hp, hq⟩ := trim_split s
  have := trim_pad (s := trim s) hp hq
  rw [← h] at this
  exact this.symm

theorem trim_self {s : List Char} (h : ∀ c ∈ s, isWhitespace c = false) : trim s = s := by
  have key : ∀ s : List Char, (∀ c ∈ s, isWhitespace c = false) → s.dropWhile isWhitespace = s := by
    intro s h
    cases s with
    | nil => rfl
    | cons c s => rw [List.dropWhile_cons, if_neg (by simp [h c (by simp)])]
  rw [trim, trimStart, key s h, trimEnd, key _ fun c hc => h c (List.mem_reverse.mp hc), List.reverse_reverse]

/-! ### Splitting -/

theorem splitOnce_none {sep : Char} {s : List Char} (h : sep ∉ s) : splitOnce sep s = none := by
  induction s with
  | nil => rfl
  | cons c s ih =>
    rw [splitOnce, if_neg (fun e => h (by simp [e])), ih fun hm => h (by simp [hm])]
    rfl

theorem splitOnce_some {sep : Char} {a b : List Char} (h : sep ∉ a) : splitOnce sep (a ++ sep :: b) = some (a, b) := by
  induction a with
  | nil => simp [splitOnce]
  | cons c a ih =>
    rw [List.cons_append, splitOnce, if_neg (fun e => h (by simp [e])), ih fun hm => h (by simp [hm])]
    rfl

theorem splitOnce_eq {sep : Char} {s a b : List Char} (h : splitOnce sep s = some (a, b)) :
    s = a ++ sep :: b ∧ sep ∉ a := by
  induction s generalizing a with
  | nil => cases h
  | cons c s ih =>
    rw [splitOnce] at h
    split at h
    · rename_i hc
      cases h
      subst hc
      exact ⟨rfl, by simp⟩
    · rename_i hc
      simp only [Option.map_eq_some_iff, Prod.exists, Prod.mk.injEq] at h
      obtain ⟨a', b', h, rfl, rfl⟩ := h
      obtain ⟨rfl, hn⟩ := ih h
      refine ⟨rfl, ?_⟩
      simp only [List.mem_cons, not_or]
      exact ⟨fun e => hc e.symm, hn⟩

theorem splitChar_ne_nil (sep : Char) (s : List Char) : splitChar sep s ≠ [] := by
  cases s with
  | nil => simp [splitChar]
  | cons c s =>
    rw [splitChar]
    split
    · simp
    · split <;> simp

theorem splitChar_one {sep : Char} {s : List Char} (h : sep ∉ s) : splitChar sep s = [s] := by
  induction s with
  | nil => rfl
  | cons c s ih =>
    rw [splitChar, if_neg (fun e => h (by simp [e])), ih fun hm => h (by simp [hm])]

theorem splitChar_more {sep : Char} {s t : List Char} (h : sep ∉ s) :
    splitChar sep (s ++ sep :: t) = s :: splitChar sep t := by
  induction s with
  | nil => simp [splitChar]
  | cons c s ih =>
    rw [List.cons_append, splitChar, if_neg (fun e => h (by simp [e])), ih fun hm => h (by simp [hm])]

theorem splitChar_eq {sep : Char} {s p : List Char} {ps : List (List Char)} (h : splitChar sep s = p :: ps) :
    (ps = [] ∧ s = p) ∨ ∃ t, s = p ++ sep :: t ∧ splitChar sep t = ps := by
  induction s generalizing p with
  | nil => simp only [splitChar, List.cons.injEq] at h; exact Or.inl ⟨h.2.symm, h.1⟩
  | cons c s ih =>
    rw [splitChar] at h
    split at h
    · rename_i hc
      simp only [List.cons.injEq] at h
      exact Or.inr ⟨s, by simp [← h.1, hc], h.2⟩
    · cases hs : splitChar sep s with
      | nil => exact absurd hs (splitChar_ne_nil _ _)
      | cons q qs =>
        rw [hs] at h
        simp only [List.cons.injEq] at h
        obtain ⟨rfl, rfl⟩ := h
        rcases ih hs with ⟨h1, h2⟩ | ⟨t, h1, h2⟩
        · exact Or.inl ⟨h1, by rw [h2]⟩
        · exact Or.inr ⟨t, by rw [h1]; rfl, h2⟩

end Acorn.Text
