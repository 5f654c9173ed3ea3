/-
C60: looking up a position finds the token that is there.
-/
import Verif.Lemmas.TokenMap
namespace Acorn

open Scan Spec Hover

variable {ι : Type}

/-- After any series of remarks about tokens of a source, a lookup answers exactly with the token that covers the
position and with what was said about it last. -/
theorem C60_lookup {alnum : Char → Bool} {input : List Char} {n : Nat} {h : List (Token × ι)}
    (hh : ∀ p ∈ h, p.1 ∈ scanFrom alnum input n) (line position : Nat) (key : Key) (v : ι) :
    lookup (trackAll h) line position = some (key, v) ↔
      ∃ t, key = ⟨t.lineNo, t.start, t.len⟩ ∧ CoversByte t line position ∧ LastSaid h t v := by
  constructor
  · intro hl
    obtain ⟨hm, hc⟩ := lookup_sound hl
    obtain ⟨t, b, a, rfl, e, ha⟩ := (mem_trackAll h key v).1 hm
    rw [Key.contains_iff] at hc
    exact ⟨t, rfl, hc, b, a, e, fun p hp he => ha p hp (by rw [he])⟩
  · rintro ⟨t, rfl, hc, b, a, e, ha⟩
    refine lookup_complete (sorted_trackAll h) (apart_trackAll hh) (e := (keyOf t, v)) ?_ ((Key.contains_iff _ _ _).2 hc)
    refine (mem_trackAll h _ v).2 ⟨t, b, a, rfl, e, fun p hp he => ha p hp ?_⟩
    refine (key_inj (hh (t, v) (by rw [e]; simp)) (hh p (by rw [e]; simp [hp])) he.symm ?_).symm
    obtain ⟨-, h1, h2⟩ := hc
    show 0 < t.len
    omega

/-- At most one token of a source covers a position. -/
theorem C60_unique {alnum : Char → Bool} {input : List Char} {n : Nat} {t t' : Token} (ht : t ∈ scanFrom alnum input n)
    (ht' : t' ∈ scanFrom alnum input n) {line position : Nat} (hc : CoversByte t line position)
    (hc' : CoversByte t' line position) : t = t' := by
  unfold CoversByte at hc hc'
  rcases scan_apart ht ht' with h | q | q
  · exact h
  · omega
  · omega

/-- Across nested environments, whose maps hold remarks about tokens of the same source: the answer is what the
outermost environment with a remark about the token at the position said last, and there is none exactly
when no environment consulted for the line has a remark about it. -/
theorem C60_nested {alnum : Char → Bool} {input : List Char} {n : Nat} {e : Env ι} {line position : Nat} {es : List (Env ι)}
    (hes : Consulted line e es) {said : Env ι → List (Token × ι)} (hm : ∀ x ∈ es, x.map = trackAll (said x))
    (hh : ∀ x ∈ es, ∀ p ∈ said x, p.1 ∈ scanFrom alnum input n) (key : Key) (v : ι) :
    findToken e line position = some (key, v) ↔
      ∃ outer x inner t, es = outer ++ x :: inner ∧ key = ⟨t.lineNo, t.start, t.len⟩ ∧ CoversByte t line position ∧
        LastSaid (said x) t v ∧ ∀ y ∈ outer, ∀ w, ¬ LastSaid (said y) t w := by
  induction hes with
  | @last e hstep =>
    rw [← step_none] at hstep
    have hl := C60_lookup (hh e (by simp)) line position key v
    have : findToken e line position = lookup (trackAll (said e)) line position := by
      rw [findToken_eq, hm e (by simp), hstep]
      cases lookup (trackAll (said e)) line position <;> rfl
    rw [this, hl]
    constructor
    · rintro ⟨t, h1, h2, h3⟩
      exact ⟨[], e, [], t, rfl, h1, h2, h3, by simp⟩
    · rintro ⟨outer, x, inner, t, he, h1, h2, h3, -⟩
      obtain rfl : x = e := by
        have : x ∈ [e] := by rw [he]; simp
        simpa using this
      exact ⟨t, h1, h2, h3⟩
  | @inner e c es hstep hc ih =>
    rw [← step_iff] at hstep
    have ih := ih (fun x hx => hm x (List.mem_cons_of_mem _ hx)) (fun x hx => hh x (List.mem_cons_of_mem _ hx))
    have hl := C60_lookup (hh e (by simp)) line position
    rw [findToken_eq, hm e (by simp), hstep]
    split
    · rename_i r hr
      obtain ⟨k', v'⟩ := r
      obtain ⟨t', rfl, hc', hs'⟩ := (hl k' v').1 hr
      have mem : ∀ {x : Env ι} {t : Token} {w : ι}, x ∈ e :: es → LastSaid (said x) t w → t ∈ scanFrom alnum input n := by
        rintro x t w hx ⟨b, a, e', -⟩
        exact hh x hx (t, w) (by rw [e']; simp)
      constructor
      · intro he
        obtain ⟨rfl, rfl⟩ : _ ∧ _ := by simpa using he
        exact ⟨[], e, es, t', rfl, rfl, hc', hs', by simp⟩
      · rintro ⟨outer, x, inner, t, he, rfl, h2, h3, h4⟩
        have ht : t = t' := by
          refine C60_unique (mem ?_ h3) (mem (x := e) (by simp) hs') h2 hc'
          rw [he]; simp
        subst ht
        cases outer with
        | nil =>
          obtain ⟨rfl, -⟩ : e = x ∧ es = inner := by simpa using he
          exact hr.symm.trans ((hl _ _).2 ⟨t, rfl, h2, h3⟩)
        | cons y outer =>
          obtain ⟨rfl, -⟩ : e = y ∧ _ := by simpa using he
          exact absurd hs' (h4 e (by simp) v')
    · rename_i hr
      have hno : ∀ t w, CoversByte t line position → ¬ LastSaid (said e) t w := by
        intro t w h1 h2
        rw [(hl ⟨t.lineNo, t.start, t.len⟩ w).2 ⟨t, rfl, h1, h2⟩] at hr
        cases hr
      rw [Option.bind_some, ih]
      constructor
      · rintro ⟨outer, x, inner, t, rfl, h1, h2, h3, h4⟩
        refine ⟨e :: outer, x, inner, t, rfl, h1, h2, h3, fun y hy w => ?_⟩
        rcases List.mem_cons.1 hy with rfl | hy
        · exact hno t w h2
        · exact h4 y hy w
      · rintro ⟨outer, x, inner, t, he, h1, h2, h3, h4⟩
        cases outer with
        | nil =>
          obtain ⟨rfl, -⟩ : e = x ∧ es = inner := by simpa using he
          exact absurd h3 (hno t v h2)
        | cons y outer =>
          obtain ⟨rfl, rfl⟩ : e = y ∧ es = outer ++ x :: inner := by simpa using he
          exact ⟨outer, x, inner, t, rfl, h1, h2, h3, fun z hz => h4 z (List.mem_cons_of_mem _ hz)⟩

/-- For every environment and line there is such a series of environments. -/
theorem C60_consulted (e : Env ι) (line : Nat) : ∃ es, Consulted line e es := by
  generalize hn : sizeOf e = n
  induction n using Nat.strongRecOn generalizing e with
  | ind n ih =>
    cases h : e.step line with
    | none => exact ⟨[e], .last (step_none.1 h)⟩
    | some c =>
      obtain ⟨es, hes⟩ := ih (sizeOf c) (hn ▸ Env.step_lt h) c rfl
      exact ⟨e :: es, .inner (step_iff.1 h) hes⟩

/-- The range reported for a token of a source, as in error messages, never panics and is the range of its text in
the units of the protocol. -/
theorem C60_range {alnum : Char → Bool} {input : List Char} {n : Nat} {t : Token} (ht : t ∈ scanFrom alnum input n) :
    ∃ r, tokenRange t = some r ∧ ProtocolRange t r := by
  obtain ⟨ls, hl, -⟩ := C39_tiles alnum input n
  obtain ⟨-, -, text, ⟨b, a, e, hb, hx⟩, -⟩ := C39_text hl ht
  refine ⟨_, ?_, b, text, a, e, hb, hx, rfl⟩
  unfold tokenRange
  rw [← hx, ← hb, e, upTo_append, ← byteLen_append, ← List.append_assoc, upTo_append, ← utf16Len_append]
  rfl

/-- Hovering, where the line the editor points at is ASCII: the answer is about the token whose text is at that
position, and the range to highlight is the range of that token.  What is missing is lines with other
characters, see `C60_disagreement_columns`. -/
theorem C60_hover_partial {alnum : Char → Bool} {input : List Char} {n : Nat} {h : List (Token × ι)} {first : Nat}
    {types : List LineType} {blocks : List (Option (Env ι))} (hh : ∀ p ∈ h, p.1 ∈ scanFrom alnum input n) {p : Pos}
    (hstep : ∀ c, ¬ BlockAt (.mk (trackAll h) first types blocks) p.1 c)
    (hascii : ∀ t ∈ scanFrom alnum input n, t.lineNo = p.1 → Ascii t.line) (r : Pos × Pos) (v : ι) :
    hover (.mk (trackAll h) first types blocks) p = some (r, v) ↔
      ∃ t, ProtocolRange t r ∧ Within p r ∧ LastSaid h t v := by
  have key : ∀ t ∈ scanFrom alnum input n, t.lineNo = p.1 → ∀ r, ProtocolRange t r ↔ r = (keyOf t).range := by
    intro t ht hl r
    obtain ⟨r0, -, hr0⟩ := C60_range ht
    have one : ∀ r, ProtocolRange t r → r = (keyOf t).range := by
      rintro r ⟨b, x, a, e, hb, hx, rfl⟩
      have ha := hascii t ht hl
      rw [e] at ha
      have h1 := ascii_lengths (s := b) fun c hc => ha c (by simp [hc])
      have h2 := ascii_lengths (s := x) fun c hc => ha c (by simp [hc])
      simp only [Key.range, keyOf, h1.2, h2.2, ← h1.1, ← h2.1, hb, hx]
    exact ⟨one r, fun e => by rw [e, ← one r0 hr0]; exact hr0⟩
  have mem : ∀ {t : Token} {w : ι}, LastSaid h t w → t ∈ scanFrom alnum input n := by
    rintro t w ⟨b, a, e', -⟩
    exact hh (t, w) (by rw [e']; simp)
  have hf : ∀ k w, findToken (.mk (trackAll h) first types blocks) p.1 p.2 = some (k, w) ↔
      ∃ t, k = ⟨t.lineNo, t.start, t.len⟩ ∧ CoversByte t p.1 p.2 ∧ LastSaid h t w := by
    intro k w
    rw [C60_nested (alnum := alnum) (input := input) (n := n) (.last hstep) (said := fun _ => h) (by simp [Env.map])
      (by simpa using hh)]
    constructor
    · rintro ⟨o, x, i, t, he, h1, h2, h3, -⟩
      exact ⟨t, h1, h2, h3⟩
    · rintro ⟨t, h1, h2, h3⟩
      exact ⟨[], _, [], t, rfl, h1, h2, h3, by simp⟩
  unfold hover
  simp only [Option.map_eq_some_iff, Prod.exists, Prod.mk.injEq]
  constructor
  · rintro ⟨k, w, h1, rfl, rfl⟩
    obtain ⟨t, rfl, h2, h3⟩ := (hf k w).1 h1
    refine ⟨t, (key t (mem h3) h2.1 _).2 rfl, ?_, h3⟩
    exact ⟨h2.1.symm, h2.1.symm, h2.2⟩
  · rintro ⟨t, h1, h2, h3⟩
    have hl : t.lineNo = p.1 := by
      obtain ⟨_, _, _, _, _, _, rfl⟩ := h1
      exact h2.1.symm
    obtain rfl := (key t (mem h3) hl r).1 h1
    exact ⟨_, v, (hf _ _).2 ⟨t, rfl, ⟨hl, h2.2.2⟩, h3⟩, rfl, rfl⟩

/-- The line `∪ x`. -/
def unionLine : List Char := ['∪', ' ', 'x']

/-- The token `x` of that line. -/
def unionX : Token := ⟨.identifier, unionLine, 0, 4, 1⟩

/-- The code disagrees with the full property: it stores byte positions and is asked for UTF-16 positions.  On the line
`∪ x` the only tracked token `x` is at character 2, but hovering there finds nothing, and hovering
two characters beyond the end of the line finds it, with a range beyond the end of the line. -/
theorem C60_disagreement_columns :
    unionX ∈ scan Char.isAlphanum unionLine ∧ ProtocolRange unionX ((0, 2), (0, 3)) ∧
      hover (.mk (trackAll [(unionX, ())]) 0 [] []) (0, 2) = none ∧
      hover (.mk (trackAll [(unionX, ())]) 0 [] []) (0, 4) = some (((0, 4), (0, 5)), ()) := by
  refine ⟨by decide +kernel, ⟨['∪', ' '], ['x'], [], by decide +kernel⟩, ?_, ?_⟩
  · rw [hover, findToken_eq]; rfl
  · rw [hover, findToken_eq]; rfl

/-- Non-vacuity: remarks about tokens of two lines, one of them made twice. -/
example : ∀ p ∈ [((⟨.identifier, "a + b".toList, 0, 4, 1⟩ : Token), "first"), (⟨.plus, "a + b".toList, 0, 2, 1⟩, "plus"),
    (⟨.identifier, "a + b".toList, 0, 4, 1⟩, "second")], p.1 ∈ scanFrom Char.isAlphanum "a + b\nc".toList 0 := by
  decide +kernel

example : lookup (trackAll [((⟨.identifier, "a + b".toList, 0, 4, 1⟩ : Token), "first"), (⟨.plus, "a + b".toList, 0, 2, 1⟩, "plus"),
    (⟨.identifier, "a + b".toList, 0, 4, 1⟩, "second")]) 0 4 = some (⟨0, 4, 1⟩, "second") := by decide +kernel

example : lookup (trackAll [((⟨.identifier, "a + b".toList, 0, 4, 1⟩ : Token), "first"), (⟨.plus, "a + b".toList, 0, 2, 1⟩, "plus")])
    0 3 = none := by decide +kernel

/-- Non-vacuity: a block on line 1 inside the outer environment. -/
example : Consulted 1 (.mk (trackAll []) 0 [.other, .node 0] [some (.mk (trackAll [(unionX, ())]) 1 [.other] [])] : Env Unit)
    [.mk (trackAll []) 0 [.other, .node 0] [some (.mk (trackAll [(unionX, ())]) 1 [.other] [])],
      .mk (trackAll [(unionX, ())]) 1 [.other] []] := .inner (step_iff.1 rfl) (.last (step_none.1 rfl))

example : ∀ t ∈ scanFrom Char.isAlphanum "a + b\nc".toList 0, Ascii t.line := by
  unfold Ascii; decide +kernel

end Acorn
