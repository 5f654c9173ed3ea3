/-
C33: editor changes are applied exactly.
-/
import Verif.Spec.LiveDocument
import Verif.Lemmas.LiveDocument
namespace Acorn
open Spec

theorem split_at {α : Type} {l : List α} {i : Nat} (h : i < l.length) :
    ∃ a x b, l = a ++ x :: b ∧ a.length = i ∧ l[i]? = some x ∧ a = l.take i ∧ b = l.drop (i + 1) := by
  refine ⟨l.take i, l[i], l.drop (i + 1), ?_, by simp; omega, List.getElem?_eq_getElem h, rfl, rfl⟩
  rw [← List.drop_eq_getElem_cons h, List.take_append_drop]

/-- C33: after any history, an edit whose lines are in range and in order succeeds and yields the text with
the part between the two positions replaced, with Windows line endings in the replacement made plain.
(Exception: a line feed inserted directly after a carriage return merges with it.) -/
theorem C33_splice (text : List Char) (version : Int) (ops : List DocOp) (r : DocRange) (t : List Char) (v : Int)
    (hle : r.start.line ≤ r.stop.line) (hlt : r.stop.line < (docAfter text version ops).lines.length)
    (hcr : ¬ (((docText (docAfter text version ops)).take
      (docOffset (docAfter text version ops) r.start)).getLast? = some '\r' ∧ t.head? = some '\n')) :
    let d := docAfter text version ops
    (d.change (some r) t v).2 = true ∧
    docText (d.change (some r) t v).1 =
      (docText d).take (docOffset d r.start) ++ plainEndings t ++ (docText d).drop (docOffset d r.stop) := by
  intro d
  have hok := docAfter_ok text version ops
  have hlt' : r.stop.line < d.lines.length := hlt
  obtain ⟨a, x, b, h1, ha, hx, hat, -⟩ := split_at (Nat.lt_of_le_of_lt hle hlt')
  obtain ⟨c, y, e, h2, hc, hy, -, hed⟩ := split_at hlt'
  have off1 : docOffset d r.start = offset (a.map LiveLine.text ++ x.text :: b.map LiveLine.text)
      ⟨(a.map LiveLine.text).length, r.start.character⟩ := by
    simp only [docOffset, h1, List.map_append, List.map_cons, List.length_map, ha]
  have off2 : docOffset d r.stop = offset (c.map LiveLine.text ++ y.text :: e.map LiveLine.text)
      ⟨(c.map LiveLine.text).length, r.stop.character⟩ := by
    simp only [docOffset, h2, List.map_append, List.map_cons, List.length_map, hc]
  have t1 : docText d = joinLines (a.map LiveLine.text ++ x.text :: b.map LiveLine.text) := by
    simp only [docText, h1, List.map_append, List.map_cons]
  have t2 : docText d = joinLines (c.map LiveLine.text ++ y.text :: e.map LiveLine.text) := by
    simp only [docText, h2, List.map_append, List.map_cons]
  have k1 := take_offset (a.map LiveLine.text) x.text (b.map LiveLine.text) r.start.character
  rw [← t1, ← off1] at k1
  have k2 := drop_offset (c.map LiveLine.text) y.text (e.map LiveLine.text) r.stop.character
  rw [← t2, ← off2] at k2
  have hxm : x ∈ d.lines := by rw [h1]; simp
  have hym : y ∈ d.lines := by rw [h2]; simp
  have hpn : '\n' ∉ x.text.take r.start.character := fun hm => hok.no_lf x hxm (List.mem_of_mem_take hm)
  have hsn : '\n' ∉ y.text.drop r.stop.character := fun hm => hok.no_lf y hym (List.mem_of_mem_drop hm)
  rw [k1, k2]
  have hcomb : plainEndings (x.text.take r.start.character ++ t ++ y.text.drop r.stop.character) =
      x.text.take r.start.character ++ plainEndings t ++ y.text.drop r.stop.character := by
    rw [plainEndings_append_plain hsn, plainEndings_prefix hpn]
    rintro ⟨g1, g2⟩
    refine hcr ⟨?_, g2⟩
    show ((docText d).take (docOffset d r.start)).getLast? = some '\r'
    rw [k1, List.getLast?_append, g1]
    rfl
  unfold LiveDocument.change
  dsimp only
  rw [if_neg (by omega), if_neg (by omega)]
  refine ⟨rfl, ?_⟩
  simp only [LiveDocument.keptPrefix, LiveDocument.keptSuffix, hx, hy, docText, List.map_append, List.take_take,
    nonnumbered_texts]
  rw [joinLines_mid (splitLines_ne_nil _), joinLines_splitLines, hcomb, Nat.min_eq_left (by omega), ← hat, ← hed]
  simp

/-- C33: an edit without a range replaces the whole text, and one out of range changes nothing but the
version and is reported; the version always becomes the new one and the saved version stays. -/
theorem C33_other_changes (d : LiveDocument) (t : List Char) (v : Int) :
    ((d.change none t v).2 = true ∧ docText (d.change none t v).1 = plainEndings t) ∧
    (∀ r : DocRange, r.stop.line < r.start.line ∨ d.lines.length ≤ r.stop.line →
      d.change (some r) t v = ({ d with liveVersion := v }, false)) ∧
    (∀ range, (d.change range t v).1.liveVersion = v ∧ (d.change range t v).1.savedVersion = d.savedVersion) := by
  refine ⟨⟨rfl, ?_⟩, ?_, ?_⟩
  · show joinLines ((nonnumberedLines t).map LiveLine.text) = _
    rw [nonnumbered_texts, joinLines_splitLines]
  · intro r hr
    unfold LiveDocument.change
    dsimp only
    split
    · rfl
    · rw [if_pos (by omega)]
  · intro range
    unfold LiveDocument.change
    cases range with
    | none => exact ⟨rfl, rfl⟩
    | some r =>
      dsimp only
      split
      · exact ⟨rfl, rfl⟩
      · split <;> exact ⟨rfl, rfl⟩

/-- C33: opening or saving a document gives it the text of the file with plain line endings, and makes the
saved and live versions equal. -/
theorem C33_open_save (d : LiveDocument) (t : List Char) (v : Int) :
    (docText (LiveDocument.new t v) = plainEndings t ∧ (LiveDocument.new t v).liveVersion = v ∧
      (LiveDocument.new t v).savedVersion = v) ∧
    (docText (d.save t).1 = plainEndings t ∧ (d.save t).1.liveVersion = d.liveVersion ∧
      (d.save t).1.savedVersion = d.liveVersion ∧ (d.save t).2 = d.liveVersion) := by
  have key : joinLines ((numberedLines t).map LiveLine.text) = plainEndings t := by
    have : (numberedLines t).map LiveLine.text = splitLines t := by
      simp only [numberedLines, List.map_map]
      exact List.zipIdx_map_fst 0 (splitLines t)
    rw [this, joinLines_splitLines]
  exact ⟨⟨key, rfl, rfl⟩, key, rfl, rfl, rfl⟩

/-- C33: after any history the line table is truthful: a line that claims to be unchanged has the text of
that line of the file last opened or saved, and the claims are in increasing order; no line contains a line
feed, so that the lines of the table are the lines of the text. -/
theorem C33_line_table (text : List Char) (version : Int) (ops : List DocOp) :
    let d := docAfter text version ops
    (∀ l ∈ d.lines, ∀ k, l.savedIndex = some k → (splitLines (savedText text ops))[k]? = some l.text) ∧
    (d.lines.filterMap LiveLine.savedIndex).Pairwise (· < ·) ∧
    (∀ l ∈ d.lines, '\n' ∉ l.text) ∧ d.lines ≠ [] :=
  let h := docAfter_ok text version ops
  ⟨h.same, h.ordered, h.no_lf, h.nonempty⟩

/-- C33: the prefix at a position is the text between the start of its line and the position; it is empty
for lines out of range. -/
theorem C33_prefix (d : LiveDocument) (line ch : Nat) :
    (line < d.lines.length → d.getPrefix line ch =
      ((docText d).take (docOffset d ⟨line, ch⟩)).drop (docOffset d ⟨line, 0⟩)) ∧
    (d.lines.length ≤ line → d.getPrefix line ch = []) := by
  constructor
  · intro h
    obtain ⟨a, x, b, h1, rfl, hx, -, -⟩ := split_at h
    have t1 : docText d = joinLines (a.map LiveLine.text ++ x.text :: b.map LiveLine.text) := by
      simp only [docText, h1, List.map_append, List.map_cons]
    have o1 : ∀ ch, docOffset d ⟨a.length, ch⟩ = offset (a.map LiveLine.text ++ x.text :: b.map LiveLine.text)
        ⟨(a.map LiveLine.text).length, ch⟩ := by
      intro ch
      simp only [docOffset, h1, List.map_append, List.map_cons, List.length_map]
    rw [o1, o1, t1, take_offset, offset_at]
    simp [LiveDocument.getPrefix, hx]
  · intro h
    simp [LiveDocument.getPrefix, List.getElem?_eq_none h]

/-- C33: looking up the line of the last saved file for a line of the document finds the line itself if it is
unchanged, otherwise the nearest unchanged line above, otherwise line 0. -/
theorem C33_env_line (d : LiveDocument) (line : Nat) (h : line < d.lines.length) :
    (∃ i k, i ≤ line ∧ (d.lines[i]?).bind LiveLine.savedIndex = some k ∧
      (∀ j, i < j → j ≤ line → (d.lines[j]?).bind LiveLine.savedIndex = none) ∧ d.getEnvLine line = some k) ∨
    ((∀ j, j ≤ line → (d.lines[j]?).bind LiveLine.savedIndex = none) ∧ d.getEnvLine line = some 0) := by
  have key : ∀ n, n ≤ d.lines.length →
      (∃ i k, i < n ∧ (d.lines[i]?).bind LiveLine.savedIndex = some k ∧
        (∀ j, i < j → j < n → (d.lines[j]?).bind LiveLine.savedIndex = none) ∧
        LiveDocument.envLine (d.lines.take n).reverse = k) ∨
      ((∀ j, j < n → (d.lines[j]?).bind LiveLine.savedIndex = none) ∧
        LiveDocument.envLine (d.lines.take n).reverse = 0) := by
    intro n
    induction n with
    | zero => intro _; exact Or.inr ⟨fun j hj => absurd hj (Nat.not_lt_zero _), rfl⟩
    | succ n ih =>
      intro hn
      have hg : d.lines[n]? = some d.lines[n] := List.getElem?_eq_getElem (by omega)
      rw [List.take_add_one, hg]
      simp only [Option.toList_some, List.reverse_append, List.reverse_cons, List.reverse_nil, List.nil_append,
        List.singleton_append, LiveDocument.envLine]
      cases hs : d.lines[n].savedIndex with
      | some k =>
        refine Or.inl ⟨n, k, by omega, by rw [hg]; exact hs, fun j h1 h2 => by omega, rfl⟩
      | none =>
        have hnone : (d.lines[n]?).bind LiveLine.savedIndex = none := by rw [hg]; exact hs
        rcases ih (by omega) with ⟨i, k, h1, h2, h3, h4⟩ | ⟨h1, h2⟩
        · refine Or.inl ⟨i, k, by omega, h2, fun j hj1 hj2 => ?_, h4⟩
          by_cases hj : j = n
          · subst hj; exact hnone
          · exact h3 j hj1 (by omega)
        · refine Or.inr ⟨fun j hj => ?_, h2⟩
          by_cases hj' : j = n
          · subst hj'; exact hnone
          · exact h1 j (by omega)
  have hget : d.getEnvLine line = some (LiveDocument.envLine (d.lines.take (line + 1)).reverse) := by
    rw [LiveDocument.getEnvLine, if_pos (by omega)]
  rw [hget]
  rcases key (line + 1) (by omega) with ⟨i, k, h1, h2, h3, h4⟩ | ⟨h1, h2⟩
  · exact Or.inl ⟨i, k, by omega, h2, fun j hj1 hj2 => h3 j hj1 (by omega), by rw [h4]⟩
  · exact Or.inr ⟨fun j hj => h1 j (by omega), by rw [h2]⟩

/-- C33: the exception in `C33_splice` is real: a line feed inserted after a carriage return swallows it. -/
theorem C33_carriage_return_lost :
    docText ((LiveDocument.new ['a', '\r', 'b'] 0).change (some ⟨⟨0, 2⟩, ⟨0, 2⟩⟩) ['\n'] 1).1 = ['a', '\n', 'b'] := by
  decide +kernel

/-! ### Concrete case -/

namespace DocDemo

def ops : List DocOp := [.change (some ⟨⟨0, 1⟩, ⟨1, 1⟩⟩) "XY\r\nZ".toList 2, .change (some ⟨⟨7, 0⟩, ⟨9, 0⟩⟩) [] 3]

example : docText (docAfter "ab\r\ncd\nef".toList 1 ops) = "aXY\nZd\nef".toList := by decide +kernel
example : (docAfter "ab\r\ncd\nef".toList 1 ops).lines.map LiveLine.savedIndex = [none, none, some 2] := by
  decide +kernel
example : (docAfter "ab\r\ncd\nef".toList 1 ops).liveVersion = 3 := by decide +kernel
/-- The hypotheses of `C33_splice` hold for a further edit. -/
example : 0 ≤ 2 ∧ 2 < (docAfter "ab\r\ncd\nef".toList 1 ops).lines.length ∧
    ¬ (((docText (docAfter "ab\r\ncd\nef".toList 1 ops)).take
      (docOffset (docAfter "ab\r\ncd\nef".toList 1 ops) ⟨0, 2⟩)).getLast? = some '\r' ∧
      "q".toList.head? = some '\n') := by decide +kernel

end DocDemo

end Acorn
