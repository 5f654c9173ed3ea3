/-
C39: tokenization covers the source.
-/
import Verif.Lemmas.Token
namespace Acorn

open Spec Scan

/-- The tokens tile the lines of the source: between the tokens of a line there is nothing but blanks, each
token is a lexeme of its type with the position and length of its text, and it is the longest one that
starts there. -/
theorem C39_tiles (alnum : Char → Bool) (input : List Char) (k : Nat) :
    ∃ ls, LinesOf input ls ∧ Scanned alnum k ls (scanFrom alnum input k) := by
  refine ⟨Text.lines input, lines_spec input, ?_⟩
  unfold scanFrom
  generalize Text.lines input = ls
  induction ls generalizing k with
  | nil => exact .nil
  | cons l ls ih => exact .line (scanGo_tiles alnum l.length 0 true l (Nat.le_refl _)) (ih (k + 1))

/-- Nothing else tiles the source: the tokens are determined by the lexical grammar. -/
theorem C39_determined {alnum : Char → Bool} (ha : ∀ c, Blank c → alnum c = false) {input : List Char} {k : Nat}
    {ls : List (List Char)} {toks : List Token} (hl : LinesOf input ls) (h : Scanned alnum k ls toks) :
    toks = scanFrom alnum input k := by
  obtain ⟨ls', hl', h'⟩ := C39_tiles alnum input k
  obtain rfl := LinesOf.unique hl hl'
  generalize scanFrom alnum input k = toks' at h'
  clear hl hl'
  induction h generalizing toks' with
  | nil => cases h'; rfl
  | line ht _ ih =>
    cases h' with
    | line ht' hr' => rw [Tiles.unique ha ht ht', ih _ hr']

theorem tiles_text {alnum : Char → Bool} {first : Bool} {pos : Nat} {s : List Char} {toks : List Tok}
    (h : Tiles alnum first pos s toks) : ∀ t ∈ toks, ∃ f text before after, s = before ++ (text ++ after) ∧
      pos + byteLen before = t.start ∧ byteLen text = t.len ∧ Lexeme alnum f text t.ty := by
  induction h with
  | done => simp
  | token hw hl hm ht ih =>
    rename_i f p ws text rest ty toks
    intro t hm
    rcases List.mem_cons.1 hm with rfl | hm
    · exact ⟨f, text, ws, rest, rfl, rfl, rfl, hl⟩
    · obtain ⟨f', text', b, a, e, h1, h2, h3⟩ := ih t hm
      refine ⟨f', text', ws ++ (text ++ b), a, by rw [e]; simp, ?_, h2, h3⟩
      rw [byteLen_append, byteLen_append, ← h1]; omega

/-- Each token lies within its line, which is the line of the source with its number, and its text is a lexeme
of its type; the only tokens without text are the newlines at the end of the lines. -/
theorem C39_text {alnum : Char → Bool} {input : List Char} {k : Nat} {ls : List (List Char)} (hl : LinesOf input ls)
    {t : Token} (ht : t ∈ scanFrom alnum input k) : k ≤ t.lineNo ∧ ls[t.lineNo - k]? = some t.line ∧
      ∃ text, TextAt t.line t.start t.len text ∧
        (text = [] ∧ t.ty = .newLine ∧ t.start = byteLen t.line ∨ ∃ first, Lexeme alnum first text t.ty) := by
  obtain ⟨ls', hl', h⟩ := C39_tiles alnum input k
  obtain rfl := LinesOf.unique hl hl'
  generalize scanFrom alnum input k = toks at h ht
  clear hl hl'
  induction h with
  | nil => cases ht
  | line htl _ ih =>
    rename_i k l ls toks rest _
    rcases List.mem_append.1 ht with ht | ht
    · obtain ⟨x, hx, rfl⟩ := List.mem_map.1 ht
      refine ⟨Nat.le_refl _, by simp [onLine], ?_⟩
      rcases List.mem_append.1 hx with hx | hx
      · obtain ⟨f, text, b, a, e, h1, h2, h3⟩ := tiles_text htl x hx
        exact ⟨text, ⟨b, a, e, by simpa [onLine] using h1, h2⟩, .inr ⟨f, h3⟩⟩
      · obtain rfl := List.mem_singleton.1 hx
        exact ⟨[], ⟨l, [], by simp [onLine], rfl, rfl⟩, .inl ⟨rfl, rfl, rfl⟩⟩
    · obtain ⟨h1, h2, h3⟩ := ih ht
      refine ⟨by omega, ?_, h3⟩
      rw [show t.lineNo - k = (t.lineNo - (k + 1)) + 1 by omega, List.getElem?_cons_succ]
      exact h2

theorem tiles_order {alnum : Char → Bool} {first : Bool} {pos : Nat} {s : List Char} {toks : List Tok}
    (h : Tiles alnum first pos s toks) :
    (∀ t ∈ toks, pos ≤ t.start ∧ t.start + t.len ≤ pos + byteLen s) ∧ toks.Pairwise fun a b => a.start + a.len ≤ b.start := by
  induction h with
  | done => simp
  | token hw hl hm ht ih =>
    obtain ⟨ih1, ih2⟩ := ih
    refine ⟨fun t htm => ?_, .cons (fun t htm => (ih1 t htm).1) ih2⟩
    rw [byteLen_append, byteLen_append]
    rcases List.mem_cons.1 htm with rfl | htm
    · dsimp only; omega
    · have := ih1 t htm; omega

/-- The tokens come in the order of the source and do not overlap. -/
theorem C39_order (alnum : Char → Bool) (input : List Char) (k : Nat) :
    (scanFrom alnum input k).Pairwise fun a b =>
      a.lineNo < b.lineNo ∨ a.lineNo = b.lineNo ∧ a.start + a.len ≤ b.start := by
  obtain ⟨ls, -, h⟩ := C39_tiles alnum input k
  generalize scanFrom alnum input k = toks at h
  suffices (∀ t ∈ toks, k ≤ t.lineNo) ∧ toks.Pairwise fun a b =>
      a.lineNo < b.lineNo ∨ a.lineNo = b.lineNo ∧ a.start + a.len ≤ b.start from this.2
  induction h with
  | nil => simp
  | line htl _ ih =>
    rename_i k l ls toks rest _
    obtain ⟨o1, o2⟩ := tiles_order htl
    have hl : ∀ t ∈ (toks ++ [(⟨.newLine, byteLen l, 0⟩ : Tok)]).map (onLine l k), t.lineNo = k := by
      intro t ht
      obtain ⟨x, -, rfl⟩ := List.mem_map.1 ht
      rfl
    refine ⟨fun t ht => ?_, List.pairwise_append.2 ⟨?_, ih.2, fun a ha b hb => ?_⟩⟩
    · rcases List.mem_append.1 ht with ht | ht
      · exact Nat.le_of_eq (hl t ht).symm
      · exact Nat.le_of_succ_le (ih.1 t ht)
    · rw [List.pairwise_map]
      refine List.Pairwise.imp (R := fun a b : Tok => a.start + a.len ≤ b.start) (fun h => .inr ⟨rfl, h⟩) ?_
      refine List.pairwise_append.2 ⟨o2, by simp, fun a ha b hb => ?_⟩
      obtain rfl := List.mem_singleton.1 hb
      have := (o1 a ha).2
      dsimp only
      omega
    · exact .inl (by rw [hl a ha]; exact ih.1 b hb)

/-- Scanning a part of a source at the right line gives the tokens the whole source has there. -/
theorem C39_start_line (alnum : Char → Bool) (a b : List Char) (k : Nat) (ha : a = [] ∨ a.getLast? = some '\n') :
    scanFrom alnum (a ++ b) k = scanFrom alnum a k ++ scanFrom alnum b (k + (Text.lines a).length) := by
  have split : ∀ a cur, a ≠ [] → a.getLast? = some '\n' → Text.linesGo cur (a ++ b) = Text.linesGo cur a ++ Text.linesGo [] b := by
    intro a
    induction a with
    | nil => intro cur h; exact absurd rfl h
    | cons c a ih =>
      intro cur _ hl
      rw [List.cons_append]
      simp only [Text.linesGo]
      cases a with
      | nil =>
        simp only [List.getLast?_singleton, Option.some.injEq] at hl
        subst hl
        simp [Text.linesGo]
      | cons d a =>
        rw [List.getLast?_cons_cons] at hl
        split
        · rw [ih [] (by simp) hl]; rfl
        · exact ih _ (by simp) hl
  have lines : Text.lines (a ++ b) = Text.lines a ++ Text.lines b := by
    rcases ha with rfl | ha
    · rfl
    · exact split a [] (by rintro rfl; simp at ha) ha
  unfold scanFrom
  rw [lines]
  generalize Text.lines a = ls
  induction ls generalizing k with
  | nil => simp [scanLines]
  | cons l ls ih =>
    simp only [List.cons_append, scanLines, ih, List.append_assoc, List.length_cons]
    rw [show k + 1 + ls.length = k + (ls.length + 1) by omega]

/-- Non-vacuity: `let x1 != 42 // why` over two lines. -/
example : scan Char.isAlphanum "let x1 != 42 // why\n\t∪y".toList =
    [⟨.keyword "let", "let x1 != 42 // why".toList, 0, 0, 3⟩, ⟨.identifier, "let x1 != 42 // why".toList, 0, 4, 2⟩,
      ⟨.notEquals, "let x1 != 42 // why".toList, 0, 7, 2⟩, ⟨.numeral, "let x1 != 42 // why".toList, 0, 10, 2⟩,
      ⟨.newLine, "let x1 != 42 // why".toList, 0, 13, 6⟩, ⟨.newLine, "let x1 != 42 // why".toList, 0, 19, 0⟩,
      ⟨.union, "\t∪y".toList, 1, 1, 3⟩, ⟨.identifier, "\t∪y".toList, 1, 4, 1⟩,
      ⟨.newLine, "\t∪y".toList, 1, 5, 0⟩] := by decide +kernel

example : ∀ c, Blank c → Char.isAlphanum c = false := by
  rintro c (rfl | rfl) <;> rfl

end Acorn
