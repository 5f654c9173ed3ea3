import Verif.Spec.LiveDocument
/-
Lemmas about live documents.
-/
namespace Acorn
open Spec

theorem splitLines_cons {c : Char} {cs : List Char} (h1 : c ≠ '\n') (h2 : ¬ (c = '\r' ∧ cs.head? = some '\n')) :
    splitLines (c :: cs) = consLine c (splitLines cs) := by
  rw [splitLines.eq_def]
  split
  · rename_i h; cases h
  · rename_i h
    simp only [List.cons.injEq] at h
    exact absurd ⟨h.1, by simp [h.2]⟩ h2
  · rename_i h
    simp only [List.cons.injEq] at h
    exact absurd h.1 h1
  · rename_i h
    simp only [List.cons.injEq] at h
    rw [h.1, h.2]

theorem plainEndings_cons {c : Char} {cs : List Char} (h2 : ¬ (c = '\r' ∧ cs.head? = some '\n')) :
    plainEndings (c :: cs) = c :: plainEndings cs := by
  rw [plainEndings.eq_def]
  split
  · rename_i h; cases h
  · rename_i h
    simp only [List.cons.injEq] at h
    exact absurd ⟨h.1, by simp [h.2]⟩ h2
  · rename_i h
    simp only [List.cons.injEq] at h
    rw [h.1, h.2]

theorem splitLines_ne_nil (s : List Char) : splitLines s ≠ [] := by
  rw [splitLines.eq_def]
  split
  · simp
  · simp
  · simp
  · rename_i c cs _ _
    cases splitLines cs <;> simp [consLine]

theorem joinLines_cons {l : List Char} {ls : List (List Char)} (h : ls ≠ []) :
    joinLines (l :: ls) = l ++ '\n' :: joinLines ls := by
  cases ls with
  | nil => exact absurd rfl h
  | cons => rfl

theorem joinLines_consLine {c : Char} {ls : List (List Char)} (h : ls ≠ []) :
    joinLines (consLine c ls) = c :: joinLines ls := by
  cases ls with
  | nil => exact absurd rfl h
  | cons l ls =>
    cases ls with
    | nil => rfl
    | cons => rfl

/-- Induction over the characters, with Windows line endings as one step. -/
theorem crlfRec {P : List Char → Prop} (nil : P []) (crlf : ∀ cs, P cs → P ('\r' :: '\n' :: cs))
    (lf : ∀ cs, P cs → P ('\n' :: cs))
    (char : ∀ c cs, c ≠ '\n' → ¬ (c = '\r' ∧ cs.head? = some '\n') → P cs → P (c :: cs)) : ∀ s, P s
  | [] => nil
  | c :: cs => by
    by_cases h1 : c = '\n'
    · subst h1; exact lf cs (crlfRec nil crlf lf char cs)
    · by_cases h2 : c = '\r' ∧ cs.head? = some '\n'
      · obtain ⟨rfl, h⟩ := h2
        match cs, h with
        | _ :: cs', h =>
          simp only [List.head?_cons, Option.some.injEq] at h
          subst h
          exact crlf cs' (crlfRec nil crlf lf char cs')
      · exact char c cs h1 h2 (crlfRec nil crlf lf char cs)
termination_by s => s.length

theorem joinLines_splitLines (s : List Char) : joinLines (splitLines s) = plainEndings s := by
  induction s using crlfRec with
  | nil => rfl
  | crlf cs ih => simp only [splitLines, plainEndings, joinLines_cons (splitLines_ne_nil cs), ih, List.nil_append]
  | lf cs ih =>
    rw [show splitLines ('\n' :: cs) = [] :: splitLines cs by simp [splitLines],
      joinLines_cons (splitLines_ne_nil cs), ih, plainEndings_cons (by simp)]
    rfl
  | char c cs h1 h2 ih =>
    rw [splitLines_cons h1 h2, joinLines_consLine (splitLines_ne_nil cs), ih, plainEndings_cons h2]

theorem splitLines_no_lf (s : List Char) : ∀ l ∈ splitLines s, '\n' ∉ l := by
  induction s using crlfRec with
  | nil => simp [splitLines]
  | crlf cs ih => simpa [splitLines] using ih
  | lf cs ih => simpa [splitLines] using ih
  | char c cs h1 h2 ih =>
    rw [splitLines_cons h1 h2]
    intro l hl
    cases hs : splitLines cs with
    | nil => exact absurd hs (splitLines_ne_nil cs)
    | cons x xs =>
      rw [hs] at hl ih
      simp only [consLine, List.mem_cons] at hl
      rcases hl with rfl | hl
      · simp only [List.mem_cons, not_or]
        exact ⟨fun e => h1 e.symm, ih x (by simp)⟩
      · exact ih l (by simp [hl])

theorem plainEndings_append_plain {s : List Char} (h : '\n' ∉ s) : ∀ t, plainEndings (t ++ s) = plainEndings t ++ s := by
  have h0 : plainEndings s = s := by
    induction s with
    | nil => rfl
    | cons c s ih =>
      rw [plainEndings_cons, ih fun hm => h (by simp [hm])]
      rintro ⟨-, hh⟩
      exact h (by simp [List.mem_of_head? hh])
  intro t
  induction t using crlfRec with
  | nil => simpa [plainEndings] using h0
  | crlf cs ih => simp [plainEndings, ih]
  | lf cs ih => rw [List.cons_append, plainEndings_cons (by simp), plainEndings_cons (by simp), ih]; rfl
  | char c cs h1 h2 ih =>
    rw [List.cons_append, plainEndings_cons, plainEndings_cons h2, ih]
    · rfl
    · rintro ⟨rfl, hh⟩
      cases cs with
      | nil => exact h (List.mem_of_head? hh)
      | cons d cs => exact h2 ⟨rfl, hh⟩

theorem plainEndings_prefix {p : List Char} (h : '\n' ∉ p) :
    ∀ t, ¬ (p.getLast? = some '\r' ∧ t.head? = some '\n') → plainEndings (p ++ t) = p ++ plainEndings t := by
  intro t ht
  induction p with
  | nil => rfl
  | cons c p ih =>
    rw [List.cons_append, plainEndings_cons, ih (fun hm => h (by simp [hm]))]
    · rfl
    · rintro ⟨h1, h2⟩
      refine ht ⟨?_, h2⟩
      cases p with
      | nil => simp at h1
      | cons d p => rw [List.getLast?_cons]; simp [h1]
    · rintro ⟨rfl, hh⟩
      cases p with
      | nil => exact ht ⟨rfl, by simpa using hh⟩
      | cons d p =>
        simp only [List.cons_append, List.head?_cons, Option.some.injEq] at hh
        exact h (by simp [hh])

/-- The lines before, each followed by a line end. -/
def linesBefore (a : List (List Char)) : List Char := a.flatMap fun l => l ++ ['\n']

/-- The lines after, each preceded by a line end. -/
def linesAfter (b : List (List Char)) : List Char := b.flatMap fun l => '\n' :: l

theorem joinLines_mid {a x b : List (List Char)} (hx : x ≠ []) :
    joinLines (a ++ x ++ b) = linesBefore a ++ joinLines x ++ linesAfter b := by
  have h1 : joinLines (x ++ b) = joinLines x ++ linesAfter b := by
    induction x with
    | nil => exact absurd rfl hx
    | cons l ls ih =>
      cases ls with
      | nil =>
        show joinLines (l :: b) = l ++ linesAfter b
        clear ih hx
        induction b generalizing l with
        | nil => simp [joinLines, linesAfter]
        | cons m ms ih => rw [joinLines_cons (by simp), ih]; simp [linesAfter]
      | cons m ms =>
        rw [joinLines_cons (by simp), List.cons_append, joinLines_cons (by simp), ih (by simp)]
        simp
  induction a with
  | nil => simpa [linesBefore] using h1
  | cons l ls ih =>
    rw [List.cons_append, List.cons_append, joinLines_cons (by simp [hx]), ih]
    simp [linesBefore]

theorem offset_at (a : List (List Char)) (l : List Char) (b : List (List Char)) (ch : Nat) :
    offset (a ++ l :: b) ⟨a.length, ch⟩ = (linesBefore a).length + min ch l.length := by
  induction a with
  | nil => simp [offset, linesBefore]
  | cons x a ih =>
    show x.length + 1 + offset (a ++ l :: b) ⟨a.length, ch⟩ = _
    rw [ih]
    simp [linesBefore]
    omega

theorem take_offset (a : List (List Char)) (l : List Char) (b : List (List Char)) (ch : Nat) :
    (joinLines (a ++ l :: b)).take (offset (a ++ l :: b) ⟨a.length, ch⟩) = linesBefore a ++ l.take ch := by
  have := joinLines_mid (a := a) (x := [l]) (b := b) (by simp)
  simp only [joinLines, List.append_assoc, List.singleton_append] at this
  rw [this, offset_at, List.take_append, List.take_of_length_le (by omega)]
  congr 1
  rw [Nat.add_sub_cancel_left, List.take_append, Nat.sub_eq_zero_of_le (Nat.min_le_right _ _), List.take_zero,
    List.append_nil]
  by_cases h : ch ≤ l.length
  · rw [Nat.min_eq_left h]
  · rw [Nat.min_eq_right (by omega), List.take_length, List.take_of_length_le (by omega)]

theorem drop_offset (a : List (List Char)) (l : List Char) (b : List (List Char)) (ch : Nat) :
    (joinLines (a ++ l :: b)).drop (offset (a ++ l :: b) ⟨a.length, ch⟩) = l.drop ch ++ linesAfter b := by
  have := joinLines_mid (a := a) (x := [l]) (b := b) (by simp)
  simp only [joinLines, List.append_assoc, List.singleton_append] at this
  rw [this, offset_at, List.drop_append, List.drop_of_length_le (by omega), List.nil_append, Nat.add_sub_cancel_left,
    List.drop_append, Nat.sub_eq_zero_of_le (Nat.min_le_right _ _), List.drop_zero]
  congr 1
  by_cases h : ch ≤ l.length
  · rw [Nat.min_eq_left h]
  · rw [Nat.min_eq_right (by omega), List.drop_length, List.drop_of_length_le (by omega)]

/-! ### Reachable documents -/

/-- Facts about every reachable document. -/
structure LiveDocument.Ok (saved : List (List Char)) (d : LiveDocument) : Prop where
  no_lf : ∀ l ∈ d.lines, '\n' ∉ l.text
  nonempty : d.lines ≠ []
  same : ∀ l ∈ d.lines, ∀ k, l.savedIndex = some k → saved[k]? = some l.text
  ordered : (d.lines.filterMap LiveLine.savedIndex).Pairwise (· < ·)

theorem numbered_ok (text : List Char) (v w : Int) :
    (LiveDocument.mk (numberedLines text) v w).Ok (splitLines text) := by
  refine ⟨?_, ?_, ?_, ?_⟩
  · intro l hl
    obtain ⟨⟨x, i⟩, hx, rfl⟩ := List.mem_map.mp hl
    exact splitLines_no_lf text x (List.fst_mem_of_mem_zipIdx hx)
  · intro h
    refine splitLines_ne_nil text ?_
    have := congrArg List.length h
    simp only [numberedLines, List.length_map, List.length_zipIdx, List.length_nil] at this
    exact List.length_eq_zero_iff.mp this
  · intro l hl k hk
    obtain ⟨⟨x, i⟩, hx, rfl⟩ := List.mem_map.mp hl
    simp only [Option.some.injEq] at hk
    subst hk
    exact List.mem_zipIdx_iff_getElem?.mp hx
  · have : (numberedLines text).filterMap LiveLine.savedIndex = (splitLines text).zipIdx.map Prod.snd := by
      simp only [numberedLines, List.filterMap_map]
      rw [← List.filterMap_eq_map]
      rfl
    show List.Pairwise _ ((numberedLines text).filterMap LiveLine.savedIndex)
    rw [this, List.zipIdx_map_snd]
    exact List.pairwise_lt_range'

theorem nonnumbered_none (text : List Char) : (nonnumberedLines text).filterMap LiveLine.savedIndex = [] := by
  rw [List.filterMap_eq_nil_iff]
  intro l hl
  obtain ⟨x, -, rfl⟩ := List.mem_map.mp hl
  rfl

theorem nonnumbered_texts (text : List Char) : (nonnumberedLines text).map LiveLine.text = splitLines text := by
  simp [nonnumberedLines, Function.comp_def]

theorem nonnumbered_ne_nil (text : List Char) : nonnumberedLines text ≠ [] := by
  simp [nonnumberedLines, splitLines_ne_nil]

theorem mem_nonnumbered {text : List Char} {l : LiveLine} (h : l ∈ nonnumberedLines text) :
    '\n' ∉ l.text ∧ l.savedIndex = none := by
  obtain ⟨x, hx, rfl⟩ := List.mem_map.mp h
  exact ⟨splitLines_no_lf text x hx, rfl⟩

theorem LiveDocument.Ok.change {saved : List (List Char)} {d : LiveDocument} (h : d.Ok saved)
    (range : Option DocRange) (text : List Char) (v : Int) : (d.change range text v).1.Ok saved := by
  obtain ⟨h1, h2, h3, h4⟩ := h
  unfold LiveDocument.change
  cases range with
  | none =>
    refine ⟨fun l hl => (mem_nonnumbered hl).1, nonnumbered_ne_nil text, ?_, ?_⟩
    · intro l hl k hk
      rw [(mem_nonnumbered hl).2] at hk
      cases hk
    · show List.Pairwise _ ((nonnumberedLines text).filterMap LiveLine.savedIndex)
      rw [nonnumbered_none]
      exact .nil
  | some r =>
    dsimp only
    split
    · exact ⟨h1, h2, h3, h4⟩
    · split
      · exact ⟨h1, h2, h3, h4⟩
      · rename_i ha hb
        simp only [List.take_take]
        generalize hm : nonnumberedLines _ = mid
        have hmid : ∀ l ∈ mid, '\n' ∉ l.text ∧ l.savedIndex = none := fun l hl => by
          subst hm; exact mem_nonnumbered hl
        have hmn : mid.filterMap LiveLine.savedIndex = [] := by subst hm; exact nonnumbered_none _
        have hne : mid ≠ [] := by subst hm; exact nonnumbered_ne_nil _
        refine ⟨?_, by simp [hne], ?_, ?_⟩
        · intro l hl
          simp only [List.mem_append] at hl
          rcases hl with (hl | hl) | hl
          · exact h1 l (List.mem_of_mem_take hl)
          · exact (hmid l hl).1
          · exact h1 l (List.mem_of_mem_drop hl)
        · intro l hl k hk
          simp only [List.mem_append] at hl
          rcases hl with (hl | hl) | hl
          · exact h3 l (List.mem_of_mem_take hl) k hk
          · rw [(hmid l hl).2] at hk; cases hk
          · exact h3 l (List.mem_of_mem_drop hl) k hk
        · simp only [List.filterMap_append, hmn, List.append_nil]
          rw [← List.filterMap_append]
          refine h4.sublist (List.Sublist.filterMap _ ?_)
          have : min r.start.line (r.stop.line + 1) ≤ r.stop.line + 1 := Nat.min_le_right _ _
          generalize min r.start.line (r.stop.line + 1) = m at this
          have e := List.take_append_drop m d.lines
          suffices hsub : (d.lines.take m ++ d.lines.drop (r.stop.line + 1)).Sublist
              (d.lines.take m ++ d.lines.drop m) by rw [e] at hsub; exact hsub
          refine (List.Sublist.refl _).append ?_
          rw [show r.stop.line + 1 = m + (r.stop.line + 1 - m) by omega, ← List.drop_drop]
          exact List.drop_sublist _ _

theorem savedText_append (text : List Char) (ops : List DocOp) (op : DocOp) :
    savedText text (ops ++ [op]) = savedText (savedText text ops) [op] := by
  induction ops generalizing text with
  | nil => rfl
  | cons o ops ih =>
    cases o with
    | change => exact ih text
    | save t => exact ih t

theorem docAfter_ok (text : List Char) (v : Int) (ops : List DocOp) :
    (docAfter text v ops).Ok (splitLines (savedText text ops)) := by
  have key : ∀ (ops : List DocOp) (d : LiveDocument) (t : List Char), d.Ok (splitLines t) →
      (ops.foldl DocOp.apply d).Ok (splitLines (savedText t ops)) := by
    intro ops
    induction ops with
    | nil => intro d t h; exact h
    | cons op ops ih =>
      intro d t h
      cases op with
      | change range text version => exact ih _ _ (h.change range text version)
      | save s => exact ih _ _ (numbered_ok s _ _)
  exact key ops _ _ (numbered_ok text _ _)

end Acorn
