/-
Lemmas about the tokenizer.
-/
import Verif.Spec.Token
namespace Acorn.Scan

open Spec

theorem byteLen_append (s t : List Char) : byteLen (s ++ t) = byteLen s + byteLen t := by
  simp [byteLen]

theorem byteLen_cons (c : Char) (s : List Char) : byteLen (c :: s) = c.utf8Size + byteLen s := by
  simp [byteLen]

theorem isDigit_iff (c : Char) : isDigit c = true ↔ Digit c := by
  constructor
  · intro h
    simp only [isDigit, Bool.and_eq_true, decide_eq_true_eq, Char.le_def, UInt32.le_iff_toNat_le] at h
    have e : c = Char.ofNat c.toNat := (Char.ofNat_toNat c).symm
    have h1 : 48 ≤ c.toNat := h.1
    have h2 : c.toNat ≤ 57 := h.2
    obtain ⟨k, hk⟩ : ∃ k, c.toNat = 48 + k ∧ k < 10 := ⟨c.toNat - 48, by omega, by omega⟩
    rw [e, hk.1]
    obtain ⟨-, hk⟩ := hk
    match k, hk with
    | 0, _ | 1, _ | 2, _ | 3, _ | 4, _ | 5, _ | 6, _ | 7, _ | 8, _ | 9, _ => unfold Digit; decide
  · intro h
    simp only [Digit, List.mem_cons, List.not_mem_nil, or_false] at h
    rcases h with rfl | rfl | rfl | rfl | rfl | rfl | rfl | rfl | rfl | rfl <;> decide

theorem identifierish_iff (alnum : Char → Bool) (c : Char) : identifierish alnum c = true ↔ WordChar alnum c := by
  simp [identifierish, WordChar]

theorem runLength_spec (p : Char → Bool) (s : List Char) :
    runLength p s ≤ s.length ∧ (∀ c ∈ s.take (runLength p s), p c = true) ∧
      ∀ c t, s.drop (runLength p s) = c :: t → p c = false := by
  induction s with
  | nil => simp [runLength]
  | cons c s ih =>
    simp only [runLength]
    split
    · rename_i h
      refine ⟨by simpa using ih.1, fun x hx => ?_, fun x t hx => ih.2.2 x t (by simpa using hx)⟩
      rw [List.take_succ_cons] at hx
      rcases List.mem_cons.1 hx with rfl | hx
      · exact h
      · exact ih.2.1 x hx
    · rename_i h
      refine ⟨by simp, by simp, fun x t hx => ?_⟩
      simp only [List.drop_zero, List.cons.injEq] at hx
      rw [← hx.1]; simpa using h

theorem keyword_head {c : Char} {s : List Char} (h : String.ofList (c :: s) ∈ keywords) : c ≠ '!' := by
  rintro rfl
  have h2 : ∀ w ∈ keywords, w.toList.head? ≠ some '!' := by decide +kernel
  exact h2 _ h (by simp)

theorem not_digit_of_punctuation {c : Char} {ty : Tk} (h : (c, ty) ∈ punctuation) : ¬ Digit c := by
  have : ∀ p ∈ punctuation, isDigit p.1 = false := by decide +kernel
  intro hd
  have := this _ h
  rw [(isDigit_iff c).2 hd] at this
  cases this

/-- A lexeme with at least two characters whose first character is punctuation or an exclamation mark. -/
theorem two {alnum : Char → Bool} {first : Bool} {c d : Char} {ty : Tk} (h : Lexeme alnum first [c, d] ty)
    (hc : c = '!' ∨ ∃ t, (c, t) ∈ punctuation) : ([c, d], ty) ∈ pairs ∨ c = '/' ∧ d = '/' := by
  generalize hs : [c, d] = s at h
  cases h with
  | punctuation h => simp at hs
  | pair h => exact .inl h
  | docComment => simp at hs
  | comment => simp only [List.cons.injEq] at hs; exact .inr ⟨hs.1, hs.2.1⟩
  | numeral h0 h =>
    subst hs
    have hd := h c (by simp)
    rcases hc with rfl | ⟨t, ht⟩
    · simp [Digit] at hd
    · exact absurd hd (not_digit_of_punctuation ht)
  | keyword hd hw hp hk =>
    simp only [List.cons.injEq] at hs
    rcases hc with rfl | ⟨t, ht⟩
    · rw [← hs.1] at hk; exact absurd rfl (keyword_head hk)
    · rw [hs.1] at ht; exact absurd ht (hp t)
  | identifier hd hw hp hb hk =>
    simp only [List.cons.injEq] at hs
    rcases hc with rfl | ⟨t, ht⟩
    · exact absurd hs.1.symm hb
    · rw [hs.1] at ht; exact absurd ht (hp t)
  | bang => simp at hs
  | invalid => simp at hs

/-- The token and what it leaves over. -/
structure Good (alnum : Char → Bool) (first : Bool) (c : Char) (cs : List Char) (r : Tk × Nat) : Prop where
  le : r.2 ≤ cs.length
  lexeme : Lexeme alnum first (c :: cs.take r.2) r.1
  longest : ∀ d s ty, cs.drop r.2 = d :: s → ¬ Lexeme alnum first (c :: cs.take r.2 ++ [d]) ty

theorem good_simple {alnum : Char → Bool} {first : Bool} {c : Char} {cs : List Char} {ty : Tk} (h : (c, ty) ∈ punctuation)
    (hp : ∀ p ∈ pairs, p.1.head? ≠ some c) (hc : c ≠ '/') : Good alnum first c cs (ty, 0) := by
  refine ⟨Nat.zero_le _, .punctuation h, fun d s ty' _ hl => ?_⟩
  rcases two hl (.inr ⟨ty, h⟩) with h | h
  · exact hp _ h rfl
  · exact hc h.1

theorem good_pair {alnum : Char → Bool} {first : Bool} {c d : Char} {cs : List Char} {t u : Tk} (hc : c ≠ '/')
    (h : ([c, d], t) ∈ pairs) (hu : Lexeme alnum first [c] u) (h1 : c = '!' ∨ ∃ t, (c, t) ∈ punctuation)
    (hd : ∀ p ∈ pairs, p.1.head? = some c → p.1 = [c, d]) : Good alnum first c cs (pair d cs t u) := by
  unfold pair
  split
  · rename_i hf
    have hf : cs.head? = some d := by simpa [follows] using hf
    cases cs with
    | nil => simp at hf
    | cons x xs =>
      simp only [List.head?_cons, Option.some.injEq] at hf
      subst hf
      refine ⟨by simp, .pair h, fun y s ty' _ hl => ?_⟩
      -- no lexeme of three characters starts like a pair
      have h3 : Lexeme alnum first [c, x, y] ty' := hl
      generalize hs : [c, x, y] = s' at h3
      cases h3 with
      | punctuation h => simp at hs
      | pair h =>
        subst hs
        have := hd _ h rfl
        simp at this
      | docComment => simp only [List.cons.injEq] at hs; exact hc hs.1
      | comment => simp only [List.cons.injEq] at hs; exact hc hs.1
      | numeral h0 h =>
        subst hs
        have hd := h c (by simp)
        rcases h1 with rfl | ⟨t, ht⟩
        · simp [Digit] at hd
        · exact absurd hd (not_digit_of_punctuation ht)
      | keyword hd hw hp hk =>
        simp only [List.cons.injEq] at hs
        rcases h1 with rfl | ⟨t, ht⟩
        · rw [← hs.1] at hk; exact absurd rfl (keyword_head hk)
        · rw [hs.1] at ht; exact absurd ht (hp t)
      | identifier hd hw hp hb hk =>
        simp only [List.cons.injEq] at hs
        rcases h1 with rfl | ⟨t, ht⟩
        · exact absurd hs.1.symm hb
        · rw [hs.1] at ht; exact absurd ht (hp t)
      | bang => simp at hs
      | invalid => simp at hs
  · rename_i hf
    have hf : cs.head? ≠ some d := by simpa [follows] using hf
    refine ⟨Nat.zero_le _, hu, fun y s ty' hy hl => ?_⟩
    have hy' : cs = y :: s := by simpa using hy
    subst hy'
    rcases two hl h1 with h | h
    · have := hd _ h rfl
      simp only [List.cons.injEq, and_true, true_and] at this
      subst this
      simp at hf
    · exact hc h.1

theorem good_comment (alnum : Char → Bool) (first : Bool) (cs : List Char) :
    Good alnum first '/' cs (comment first cs) := by
  unfold comment
  split
  · rename_i hf
    have hf : cs.head? = some '/' := by simpa [follows] using hf
    cases cs with
    | nil => simp at hf
    | cons x xs =>
      simp only [List.head?_cons, Option.some.injEq] at hf
      subst hf
      have h1 : ∀ ty, Lexeme alnum first ('/' :: '/' :: xs) ty → Good alnum first '/' ('/' :: xs) (ty, ('/' :: xs).length) := by
        intro ty h
        refine ⟨Nat.le_refl _, by rw [List.take_length]; exact h, fun d s ty hd => ?_⟩
        rw [List.drop_length] at hd; cases hd
      apply h1
      split
      · rename_i hd
        simp only [follows, List.drop_one, List.tail_cons, Bool.and_eq_true, beq_iff_eq] at hd
        cases xs with
        | nil => simp at hd
        | cons y ys =>
          simp only [List.head?_cons, Option.some.injEq] at hd
          rw [hd.1]
          exact .docComment hd.2
      · rename_i hd
        simp only [follows, List.drop_one, List.tail_cons, Bool.and_eq_true, beq_iff_eq, not_and, Bool.not_eq_true] at hd
        refine .comment fun h1 h2 => ?_
        rw [hd h2] at h1; cases h1
  · rename_i hf
    have hf : cs.head? ≠ some '/' := by simpa [follows] using hf
    refine ⟨Nat.zero_le _, .punctuation (by decide), fun y s ty' hy hl => ?_⟩
    have hy' : cs = y :: s := by simpa using hy
    subst hy'
    rcases two hl (.inr ⟨.slash, by decide⟩) with h | h
    · have : ∀ p ∈ pairs, p.1.head? ≠ some '/' := by decide
      exact this _ h rfl
    · rw [h.2] at hf; simp at hf

theorem good_word {alnum : Char → Bool} {first : Bool} {c : Char} {cs : List Char} (hb : ¬ Blank c)
    (hp : ∀ ty, (c, ty) ∉ punctuation) (hbang : c ≠ '!') : Good alnum first c cs (wordOrOther alnum c cs) := by
  have notPair : ∀ {s : List Char} {ty : Tk}, (s, ty) ∈ pairs → s.head? ≠ some c := by
    intro s ty h e
    have : ∀ p ∈ pairs, p.1.head? = some '!' ∨ ∃ q ∈ punctuation, p.1.head? = some q.1 := by decide
    rcases this _ h with h | ⟨q, hq, h⟩
    · rw [e] at h; exact hbang (Option.some.inj h)
    · rw [e] at h; obtain rfl := Option.some.inj h
      exact hp q.2 hq
  have notSlash : c ≠ '/' := fun e => hp .slash (by rw [e]; decide)
  unfold wordOrOther
  split
  · rename_i hd
    have hd' := (isDigit_iff c).1 hd
    obtain ⟨h1, h2, h3⟩ := runLength_spec isDigit cs
    refine ⟨h1, .numeral (by simp) fun x hx => ?_, fun d s ty hd2 hl => ?_⟩
    · rcases List.mem_cons.1 hx with rfl | hx
      · exact hd'
      · exact (isDigit_iff x).1 (h2 x hx)
    · have hnd : ¬ Digit d := fun h => by
        have := h3 d s hd2
        rw [(isDigit_iff d).2 h] at this; cases this
      dsimp only at hl
      generalize hs : c :: List.take (runLength isDigit cs) cs ++ [d] = s' at hl
      cases hl with
      | punctuation h => simp at hs
      | pair h => rw [← hs] at h; exact notPair h (by simp)
      | docComment => simp only [List.cons_append, List.cons.injEq] at hs; exact notSlash hs.1
      | comment => simp only [List.cons_append, List.cons.injEq] at hs; exact notSlash hs.1
      | numeral h0 h => exact hnd (h d (by rw [← hs]; simp))
      | keyword hd3 => simp only [List.cons_append, List.cons.injEq] at hs; rw [← hs.1] at hd3; exact hd3 hd'
      | identifier hd3 => simp only [List.cons_append, List.cons.injEq] at hs; rw [← hs.1] at hd3; exact hd3 hd'
      | bang => simp at hs
      | invalid => simp at hs
  · rename_i hd
    have hd' : ¬ Digit c := fun h => hd ((isDigit_iff c).2 h)
    split
    · rename_i hw
      have hw' := (identifierish_iff alnum c).1 hw
      obtain ⟨h1, h2, h3⟩ := runLength_spec (identifierish alnum) cs
      have hall : ∀ x ∈ c :: cs.take (runLength (identifierish alnum) cs), WordChar alnum x := by
        intro x hx
        rcases List.mem_cons.1 hx with rfl | hx
        · exact hw'
        · exact (identifierish_iff alnum x).1 (h2 x hx)
      have lg : ∀ d s ty, cs.drop (runLength (identifierish alnum) cs) = d :: s →
          ¬ Lexeme alnum first (c :: cs.take (runLength (identifierish alnum) cs) ++ [d]) ty := by
        intro d s ty hd2 hl
        have hnd : ¬ WordChar alnum d := fun h => by
          have := h3 d s hd2
          rw [(identifierish_iff alnum d).2 h] at this; cases this
        generalize hs : c :: List.take (runLength (identifierish alnum) cs) cs ++ [d] = s' at hl
        cases hl with
        | punctuation h => simp at hs
        | pair h => rw [← hs] at h; exact notPair h (by simp)
        | docComment => simp only [List.cons_append, List.cons.injEq] at hs; exact notSlash hs.1
        | comment => simp only [List.cons_append, List.cons.injEq] at hs; exact notSlash hs.1
        | numeral h0 h => exact hd' (h c (by rw [← hs]; simp))
        | keyword _ h => exact hnd (h d (by rw [← hs]; simp))
        | identifier _ h => exact hnd (h d (by rw [← hs]; simp))
        | bang => simp at hs
        | invalid => simp at hs
      refine ⟨h1, ?_, lg⟩
      dsimp only
      split
      · rename_i hk
        exact .keyword hd' hall hp (List.contains_iff_mem.1 hk)
      · rename_i hk
        exact .identifier hd' hall hp hbang (fun h => hk (List.contains_iff_mem.2 h))
    · rename_i hw
      have hw' : ¬ WordChar alnum c := fun h => hw ((identifierish_iff alnum c).2 h)
      refine ⟨Nat.zero_le _, .invalid hd' hw' hb hp, fun d s ty _ hl => ?_⟩
      have hl : Lexeme alnum first [c, d] ty := hl
      generalize hs : [c, d] = s' at hl
      cases hl with
      | punctuation h => simp at hs
      | pair h => rw [← hs] at h; exact notPair h (by simp)
      | docComment => simp at hs
      | comment => simp only [List.cons.injEq] at hs; exact notSlash hs.1
      | numeral h0 h => exact hd' (h c (by rw [← hs]; simp))
      | keyword _ h => exact hw' (h c (by rw [← hs]; simp))
      | identifier _ h => exact hw' (h c (by rw [← hs]; simp))
      | bang => simp at hs
      | invalid => simp at hs

theorem good_classify (alnum : Char → Bool) (first : Bool) {c : Char} (cs : List Char) (hb : ¬ Blank c) :
    Good alnum first c cs (classify alnum first c cs) := by
  unfold classify
  split
  case h_11 => exact good_pair (by decide) (by decide) .bang (.inl rfl) (by decide)
  case h_28 => exact good_pair (by decide) (by decide) (.punctuation (by decide)) (.inr ⟨.minus, by decide⟩) (by decide)
  case h_29 => exact good_pair (by decide) (by decide) (.punctuation (by decide)) (.inr ⟨.lessThan, by decide⟩) (by decide)
  case h_30 => exact good_pair (by decide) (by decide) (.punctuation (by decide)) (.inr ⟨.greaterThan, by decide⟩) (by decide)
  case h_31 => exact good_comment alnum first cs
  case h_32 =>
    refine good_word hb (fun ty h => ?_) (by assumption)
    simp only [punctuation, List.mem_cons, Prod.mk.injEq, List.not_mem_nil, or_false] at h
    grind
  all_goals exact good_simple (by decide) (by decide) (by decide)

theorem Tiles.blank {alnum : Char → Bool} {first : Bool} {pos : Nat} {c : Char} {s : List Char} {toks : List Tok}
    (hc : Blank c) (h : Tiles alnum first (pos + c.utf8Size) s toks) : Tiles alnum first pos (c :: s) toks := by
  have cons : ∀ {ws : List Char}, (∀ x ∈ ws, Blank x) → ∀ x ∈ c :: ws, Blank x := by
    intro ws hw x hx
    rcases List.mem_cons.1 hx with rfl | hx
    · exact hc
    · exact hw x hx
  cases h with
  | done hw => exact .done (cons hw)
  | token hw hl hm ht =>
    rename_i ws text rest ty toks
    have := Tiles.token (pos := pos) (cons hw) hl hm (by rw [byteLen_cons, ← Nat.add_assoc]; exact ht)
    rw [byteLen_cons, ← Nat.add_assoc] at this
    exact this

theorem scanGo_tiles (alnum : Char → Bool) (n : Nat) (pos : Nat) (first : Bool) (s : List Char) (hn : s.length ≤ n) :
    Tiles alnum first pos s (scanGo alnum n pos first s) := by
  induction n generalizing pos first s with
  | zero =>
    have : s = [] := List.length_eq_zero_iff.1 (by omega)
    subst this
    exact .done (by simp)
  | succ n ih =>
    cases s with
    | nil => exact .done (by simp)
    | cons c cs =>
      simp only [scanGo]
      split
      · rename_i hb
        exact Tiles.blank hb (ih _ _ _ (by simpa using hn))
      · rename_i hb
        have hg := good_classify alnum first cs hb
        generalize hr : classify alnum first c cs = r at hg
        have ht := ih (pos + byteLen (c :: cs.take r.2)) false (cs.drop r.2)
          (by simp only [List.length_cons] at hn; rw [List.length_drop]; omega)
        have := Tiles.token (pos := pos) (ws := []) (by simp) hg.lexeme (rest := cs.drop r.2)
          (fun d s ty e => hg.longest d s ty e) (toks := scanGo alnum n (pos + byteLen (c :: cs.take r.2)) false (cs.drop r.2))
          (by simpa [byteLen] using ht)
        simpa [byteLen] using this

theorem lines_spec (s : List Char) : LinesOf s (Text.lines s) := by
  have key : ∀ s cur, '\n' ∉ cur → LinesOf (cur ++ s) (Text.linesGo cur s) := by
    intro s
    induction s with
    | nil =>
      intro cur hc
      simp only [Text.linesGo, List.append_nil]
      split
      · rename_i h
        have : cur = [] := by simpa using h
        subst this; exact .nil
      · rename_i h
        exact .last (by simpa using h) hc
    | cons c s ih =>
      intro cur hc
      simp only [Text.linesGo]
      split
      · rename_i h
        subst h
        have h0 : LinesOf s (Text.linesGo [] s) := ih [] (by simp)
        unfold Text.dropCr
        split
        · rename_i hcr
          obtain ⟨l, rfl⟩ := List.getLast?_eq_some_iff.1 hcr
          rw [List.dropLast_concat, List.append_assoc]
          exact .crlf (fun h => hc (by simp [h])) h0
        · rename_i hcr
          exact .lf hc hcr h0
      · rename_i h
        have := ih (cur ++ [c]) (by simp only [List.mem_append, List.mem_singleton, not_or]; exact ⟨hc, fun e => h e.symm⟩)
        rwa [List.append_assoc] at this
  exact key s [] (by simp)

/-! ### The specification determines the tokens -/

/-- Each nonempty prefix of a lexeme is a lexeme. -/
theorem Lexeme.pre {alnum : Char → Bool} {first : Bool} {text p q : List Char} {ty : Tk} (h : Lexeme alnum first text ty)
    (e : text = p ++ q) (hp : p ≠ []) : ∃ ty', Lexeme alnum first p ty' := by
  cases h with
  | punctuation h =>
    cases p with
    | nil => exact absurd rfl hp
    | cons x p =>
      simp only [List.cons_append, List.cons.injEq] at e
      obtain ⟨rfl, e⟩ := e
      obtain ⟨rfl, -⟩ := List.append_eq_nil_iff.1 e.symm
      exact ⟨_, .punctuation h⟩
  | pair h =>
    cases p with
    | nil => exact absurd rfl hp
    | cons x p =>
      cases p with
      | cons y p =>
        have : ∀ r ∈ pairs, r.1.length = 2 := by decide
        have h2 := this _ h
        rw [e] at h2
        simp only [List.cons_append, List.length_cons, List.length_append] at h2
        have hp0 : p = [] := List.length_eq_zero_iff.1 (by omega)
        have hq0 : q = [] := List.length_eq_zero_iff.1 (by omega)
        subst hp0; subst hq0
        exact ⟨_, .pair (by rw [e] at h; exact h)⟩
      | nil =>
        have : ∀ p ∈ pairs, p.1.head? = some '!' ∨ ∃ q ∈ punctuation, p.1.head? = some q.1 := by decide
        rcases this _ h with h | ⟨r, hr, h⟩
        · rw [e] at h
          simp only [List.cons_append, List.head?_cons, Option.some.injEq] at h
          subst h; exact ⟨_, .bang⟩
        · rw [e] at h
          simp only [List.cons_append, List.head?_cons, Option.some.injEq] at h
          subst h; exact ⟨_, .punctuation hr⟩
  | docComment hf =>
    match p, hp with
    | [x], _ => simp only [List.cons_append, List.cons.injEq] at e; rw [← e.1]; exact ⟨_, .punctuation (ty := .slash) (by decide)⟩
    | [x, y], _ =>
      simp only [List.cons_append, List.cons.injEq] at e; rw [← e.1, ← e.2.1]; exact ⟨_, .comment (by simp)⟩
    | x :: y :: z :: p, _ =>
      simp only [List.cons_append, List.cons.injEq] at e; rw [← e.1, ← e.2.1, ← e.2.2.1]; exact ⟨_, .docComment hf⟩
  | comment hf =>
    match p, hp with
    | [x], _ => simp only [List.cons_append, List.cons.injEq] at e; rw [← e.1]; exact ⟨_, .punctuation (ty := .slash) (by decide)⟩
    | x :: y :: p, _ =>
      simp only [List.cons_append, List.cons.injEq] at e; rw [← e.1, ← e.2.1]
      refine ⟨_, .comment fun h1 h2 => hf h1 ?_⟩
      rw [e.2.2]
      cases p with
      | nil => simp at h2
      | cons z p => exact h2
  | numeral h0 h => exact ⟨_, .numeral hp fun c hc => h c (by rw [e]; simp [hc])⟩
  | keyword hd hw hpu hk =>
    cases p with
    | nil => exact absurd rfl hp
    | cons x p =>
      have e0 := e
      simp only [List.cons_append, List.cons.injEq] at e
      obtain ⟨e1, rfl⟩ := e
      subst e1
      rename_i c1
      have hb := keyword_head hk
      by_cases hk' : String.ofList (c1 :: p) ∈ keywords
      · exact ⟨_, .keyword hd (fun y hy => hw y (by rw [e0]; simp only [List.mem_append]; exact .inl hy)) hpu hk'⟩
      · exact ⟨_, .identifier hd (fun y hy => hw y (by rw [e0]; simp only [List.mem_append]; exact .inl hy)) hpu hb hk'⟩
  | identifier hd hw hpu hb hk =>
    cases p with
    | nil => exact absurd rfl hp
    | cons x p =>
      have e0 := e
      simp only [List.cons_append, List.cons.injEq] at e
      obtain ⟨e1, rfl⟩ := e
      subst e1
      rename_i c1
      by_cases hk' : String.ofList (c1 :: p) ∈ keywords
      · exact ⟨_, .keyword hd (fun y hy => hw y (by rw [e0]; simp only [List.mem_append]; exact .inl hy)) hpu hk'⟩
      · exact ⟨_, .identifier hd (fun y hy => hw y (by rw [e0]; simp only [List.mem_append]; exact .inl hy)) hpu hb hk'⟩
  | bang =>
    cases p with
    | nil => exact absurd rfl hp
    | cons x p =>
      simp only [List.cons_append, List.cons.injEq] at e
      obtain ⟨rfl, e⟩ := e
      obtain ⟨rfl, -⟩ := List.append_eq_nil_iff.1 e.symm
      exact ⟨_, .bang⟩
  | invalid h1 h2 h3 h4 =>
    cases p with
    | nil => exact absurd rfl hp
    | cons x p =>
      simp only [List.cons_append, List.cons.injEq] at e
      obtain ⟨rfl, e⟩ := e
      obtain ⟨rfl, -⟩ := List.append_eq_nil_iff.1 e.symm
      exact ⟨_, .invalid h1 h2 h3 h4⟩

/-- A lexeme is not empty and does not start with a blank. -/
theorem Lexeme.start {alnum : Char → Bool} (ha : ∀ c, Blank c → alnum c = false) {first : Bool} {text : List Char} {ty : Tk}
    (h : Lexeme alnum first text ty) : ∃ c s, text = c :: s ∧ ¬ Blank c := by
  have nd : ∀ c, Digit c → ¬ Blank c := by
    rintro c h (rfl | rfl) <;> simp [Digit] at h
  have nw : ∀ c, WordChar alnum c → ¬ Blank c := by
    intro c h hb
    rcases h with h | h
    · rw [ha c hb] at h; cases h
    · subst h; rcases hb with h | h <;> cases h
  cases h with
  | punctuation h =>
    refine ⟨_, _, rfl, ?_⟩
    have : ∀ p ∈ punctuation, p.1 ≠ ' ' ∧ p.1 ≠ '\t' := by decide
    exact fun hb => hb.elim (this _ h).1 (this _ h).2
  | pair h =>
    have : ∀ p ∈ pairs, ∃ d ∈ ['!', '-', '<', '>'], p.1.head? = some d := by decide
    obtain ⟨d, hd, h⟩ := this _ h
    cases text with
    | nil => simp at h
    | cons x s =>
      simp only [List.head?_cons, Option.some.injEq] at h
      subst h
      refine ⟨_, _, rfl, fun hb => ?_⟩
      rcases hb with rfl | rfl <;> simp at hd
  | docComment => exact ⟨_, _, rfl, by simp [Blank]⟩
  | comment => exact ⟨_, _, rfl, by simp [Blank]⟩
  | numeral h0 h =>
    cases text with
    | nil => exact absurd rfl h0
    | cons x s => exact ⟨_, _, rfl, nd _ (h _ (by simp))⟩
  | keyword _ h => exact ⟨_, _, rfl, nw _ (h _ (by simp))⟩
  | identifier _ h => exact ⟨_, _, rfl, nw _ (h _ (by simp))⟩
  | bang => exact ⟨_, _, rfl, by simp [Blank]⟩
  | invalid _ _ h => exact ⟨_, _, rfl, h⟩

/-- The text determines the type. -/
theorem Lexeme.unique {alnum : Char → Bool} {first : Bool} {text : List Char} {ty ty' : Tk} (h : Lexeme alnum first text ty)
    (h' : Lexeme alnum first text ty') : ty = ty' := by
  have np : ∀ {s : List Char} {t : Tk} {c : Char} {r : List Char}, (s, t) ∈ pairs → s = c :: r → c = '!' ∨ ∃ t, (c, t) ∈ punctuation := by
    intro s t c r h e
    have : ∀ p ∈ pairs, p.1.head? = some '!' ∨ ∃ q ∈ punctuation, p.1.head? = some q.1 := by decide
    rcases this _ h with h | ⟨q, hq, h⟩ <;> rw [e] at h <;> simp only [List.head?_cons, Option.some.injEq] at h
    · exact .inl h
    · rw [h]; exact .inr ⟨_, hq⟩
  have len2 : ∀ {s : List Char} {t : Tk}, (s, t) ∈ pairs → s.length = 2 ∧ s ≠ ['/', '/'] := by
    intro s t h
    have : ∀ p ∈ pairs, p.1.length = 2 ∧ p.1 ≠ ['/', '/'] := by decide
    exact this _ h
  have ps : ∃ t, ('/', t) ∈ punctuation := ⟨.slash, by decide⟩
  have pb : ∀ t, ('!', t) ∉ punctuation := by
    have : ∀ p ∈ punctuation, p.1 ≠ '!' := by decide
    exact fun t h => this _ h rfl
  have dpu : ∀ {t u : Tk} {c : Char}, (c, t) ∈ punctuation → (c, u) ∈ punctuation → t = u := by
    intro t u c h1 h2
    have : ∀ p ∈ punctuation, ∀ q ∈ punctuation, p.1 = q.1 → p.2 = q.2 := by decide
    exact this _ h1 _ h2 rfl
  have dpa : ∀ {t u : Tk} {s : List Char}, (s, t) ∈ pairs → (s, u) ∈ pairs → t = u := by
    intro t u c h1 h2
    have : ∀ p ∈ pairs, ∀ q ∈ pairs, p.1 = q.1 → p.2 = q.2 := by decide
    exact this _ h1 _ h2 rfl
  have db : ¬ Digit '!' := by simp [Digit]
  have dn : ∀ {c t}, (c, t) ∈ punctuation → ¬ Digit c := fun h => not_digit_of_punctuation h
  have kh : ∀ {c s}, String.ofList (c :: s) ∈ keywords → c ≠ '!' := fun h => keyword_head h
  have lenp : ∀ {s : List Char} {t : Tk}, (s, t) ∈ pairs → ∃ c d, s = [c, d] := by
    intro s t h
    have := (len2 h).1
    match s, this with
    | [c, d], _ => exact ⟨c, d, rfl⟩
  cases h with
  | punctuation h =>
    generalize hs : [_] = s at h'
    cases h' with
    | punctuation h2 => cases hs; exact dpu h h2
    | pair h2 => obtain ⟨c, d, rfl⟩ := lenp h2; simp at hs
    | docComment => simp at hs
    | comment => simp at hs
    | numeral _ hd => subst hs; exact absurd (hd _ (by simp)) (dn h)
    | keyword _ _ hp => simp only [List.cons.injEq] at hs; obtain ⟨rfl, -⟩ := hs; exact absurd h (hp _)
    | identifier _ _ hp => simp only [List.cons.injEq] at hs; obtain ⟨rfl, -⟩ := hs; exact absurd h (hp _)
    | bang => cases hs; exact absurd h (pb _)
    | invalid _ _ _ hp => cases hs; exact absurd h (hp _)
  | pair h =>
    obtain ⟨c, d, rfl⟩ := lenp h
    rcases two h' (np h rfl) with h2 | h2
    · exact dpa h h2
    · obtain ⟨rfl, rfl⟩ := h2; exact absurd rfl (len2 h).2
  | docComment hf =>
    rename_i r
    generalize hs : '/' :: '/' :: '/' :: r = s at h'
    cases h' with
    | punctuation h2 => simp at hs
    | pair h2 => obtain ⟨c, d, rfl⟩ := lenp h2; simp at hs
    | docComment => rfl
    | comment h2 =>
      simp only [List.cons.injEq, true_and] at hs
      rw [← hs] at h2; exact absurd rfl (h2 hf)
    | numeral _ hd => subst hs; exact absurd (hd '/' (by simp)) (dn ps.choose_spec)
    | keyword _ _ hp => simp only [List.cons.injEq] at hs; obtain ⟨rfl, -⟩ := hs; exact absurd ps.choose_spec (hp _)
    | identifier _ _ hp => simp only [List.cons.injEq] at hs; obtain ⟨rfl, -⟩ := hs; exact absurd ps.choose_spec (hp _)
    | bang => cases hs
    | invalid _ _ _ hp => cases hs
  | comment hf =>
    rename_i r
    generalize hs : '/' :: '/' :: r = s at h'
    cases h' with
    | punctuation h2 => simp at hs
    | pair h2 =>
      obtain ⟨c, d, rfl⟩ := lenp h2
      simp only [List.cons.injEq] at hs
      obtain ⟨rfl, rfl, -⟩ := hs
      exact absurd rfl (len2 h2).2
    | docComment h2 =>
      simp only [List.cons.injEq, true_and] at hs
      rw [hs] at hf; exact absurd rfl (hf h2)
    | comment h2 => rfl
    | numeral _ hd => subst hs; exact absurd (hd '/' (by simp)) (dn ps.choose_spec)
    | keyword _ _ hp => simp only [List.cons.injEq] at hs; obtain ⟨rfl, -⟩ := hs; exact absurd ps.choose_spec (hp _)
    | identifier _ _ hp => simp only [List.cons.injEq] at hs; obtain ⟨rfl, -⟩ := hs; exact absurd ps.choose_spec (hp _)
    | bang => cases hs
    | invalid _ _ _ hp => cases hs
  | numeral h0 hd =>
    cases h' with
    | punctuation h2 => exact absurd (hd _ (by simp)) (dn h2)
    | pair h2 =>
      obtain ⟨c, d, rfl⟩ := lenp h2
      rcases np h2 rfl with rfl | ⟨t, ht⟩
      · exact absurd (hd _ (by simp)) db
      · exact absurd (hd _ (by simp)) (dn ht)
    | docComment => exact absurd (hd '/' (by simp)) (dn ps.choose_spec)
    | comment => exact absurd (hd '/' (by simp)) (dn ps.choose_spec)
    | numeral => rfl
    | keyword h2 => exact absurd (hd _ (by simp)) h2
    | identifier h2 => exact absurd (hd _ (by simp)) h2
    | bang => exact absurd (hd _ (by simp)) db
    | invalid h2 => exact absurd (hd _ (by simp)) h2
  | keyword hd hw hp hk =>
    rename_i c0 r
    generalize hs : c0 :: r = s at h'
    cases h' with
    | punctuation h2 => simp only [List.cons.injEq] at hs; obtain ⟨rfl, -⟩ := hs; exact absurd h2 (hp _)
    | pair h2 =>
      obtain ⟨c, d, rfl⟩ := lenp h2
      simp only [List.cons.injEq] at hs; obtain ⟨rfl, -⟩ := hs
      rcases np h2 rfl with rfl | ⟨t, ht⟩
      · exact absurd rfl (kh hk)
      · exact absurd ht (hp _)
    | docComment => simp only [List.cons.injEq] at hs; obtain ⟨rfl, -⟩ := hs; exact absurd ps.choose_spec (hp _)
    | comment => simp only [List.cons.injEq] at hs; obtain ⟨rfl, -⟩ := hs; exact absurd ps.choose_spec (hp _)
    | numeral _ h2 => subst hs; exact absurd (h2 _ (by simp)) hd
    | keyword => rfl
    | identifier _ _ _ _ h2 => rw [hs] at hk; exact absurd hk h2
    | bang => simp only [List.cons.injEq] at hs; obtain ⟨rfl, -⟩ := hs; exact absurd rfl (kh hk)
    | invalid _ h2 => simp only [List.cons.injEq] at hs; obtain ⟨rfl, -⟩ := hs; exact absurd (hw _ (by simp)) h2
  | identifier hd hw hp hb hk =>
    rename_i c0 r
    generalize hs : c0 :: r = s at h'
    cases h' with
    | punctuation h2 => simp only [List.cons.injEq] at hs; obtain ⟨rfl, -⟩ := hs; exact absurd h2 (hp _)
    | pair h2 =>
      obtain ⟨c, d, rfl⟩ := lenp h2
      simp only [List.cons.injEq] at hs; obtain ⟨rfl, -⟩ := hs
      rcases np h2 rfl with rfl | ⟨t, ht⟩
      · exact absurd rfl hb
      · exact absurd ht (hp _)
    | docComment => simp only [List.cons.injEq] at hs; obtain ⟨rfl, -⟩ := hs; exact absurd ps.choose_spec (hp _)
    | comment => simp only [List.cons.injEq] at hs; obtain ⟨rfl, -⟩ := hs; exact absurd ps.choose_spec (hp _)
    | numeral _ h2 => subst hs; exact absurd (h2 _ (by simp)) hd
    | keyword _ _ _ h2 => rw [hs] at hk; exact absurd h2 hk
    | identifier => rfl
    | bang => simp only [List.cons.injEq] at hs; obtain ⟨rfl, -⟩ := hs; exact absurd rfl hb
    | invalid _ h2 => simp only [List.cons.injEq] at hs; obtain ⟨rfl, -⟩ := hs; exact absurd (hw _ (by simp)) h2
  | bang =>
    generalize hs : ['!'] = s at h'
    cases h' with
    | punctuation h2 => cases hs; exact absurd h2 (pb _)
    | pair h2 => obtain ⟨c, d, rfl⟩ := lenp h2; simp at hs
    | docComment => simp at hs
    | comment => simp at hs
    | numeral _ hd => subst hs; exact absurd (hd _ (by simp)) db
    | keyword _ _ _ hk => simp only [List.cons.injEq] at hs; obtain ⟨rfl, -⟩ := hs; exact absurd rfl (kh hk)
    | identifier _ _ _ hb => simp only [List.cons.injEq] at hs; obtain ⟨rfl, -⟩ := hs; exact absurd rfl hb
    | bang => rfl
    | invalid => rfl
  | invalid h1 h2 h3 h4 =>
    rename_i c0
    generalize hs : [c0] = s at h'
    cases h' with
    | punctuation h2 => cases hs; exact absurd h2 (h4 _)
    | pair h2 => obtain ⟨c, d, rfl⟩ := lenp h2; simp at hs
    | docComment => simp at hs
    | comment => simp at hs
    | numeral _ hd => subst hs; exact absurd (hd _ (by simp)) h1
    | keyword _ hw => simp only [List.cons.injEq] at hs; obtain ⟨rfl, -⟩ := hs; exact absurd (hw _ (by simp)) h2
    | identifier _ hw => simp only [List.cons.injEq] at hs; obtain ⟨rfl, -⟩ := hs; exact absurd (hw _ (by simp)) h2
    | bang => rfl
    | invalid => rfl

/-- Leading blanks are determined. -/
theorem blanks_unique {ws ws' s s' : List Char} {c c' : Char} (h : ∀ x ∈ ws, Blank x) (h' : ∀ x ∈ ws', Blank x)
    (hc : ¬ Blank c) (hc' : ¬ Blank c') (e : ws ++ c :: s = ws' ++ c' :: s') : ws = ws' ∧ c :: s = c' :: s' := by
  induction ws generalizing ws' with
  | nil =>
    cases ws' with
    | nil => exact ⟨rfl, e⟩
    | cons x ws' =>
      simp only [List.nil_append, List.cons_append, List.cons.injEq] at e
      rw [e.1] at hc; exact absurd (h' x (by simp)) hc
  | cons y ws ih =>
    cases ws' with
    | nil =>
      simp only [List.nil_append, List.cons_append, List.cons.injEq] at e
      rw [← e.1] at hc'; exact absurd (h y (by simp)) hc'
    | cons x ws' =>
      simp only [List.cons_append, List.cons.injEq] at e
      obtain ⟨rfl, e⟩ := e
      obtain ⟨rfl, e'⟩ := ih (fun x hx => h x (by simp [hx])) (fun x hx => h' x (by simp [hx])) e
      exact ⟨rfl, e'⟩

theorem Tiles.unique {alnum : Char → Bool} (ha : ∀ c, Blank c → alnum c = false) {first : Bool} {pos : Nat} {s : List Char}
    {a b : List Tok} (h : Tiles alnum first pos s a) (h' : Tiles alnum first pos s b) : a = b := by
  induction h generalizing b with
  | done hw =>
    cases h' with
    | done => rfl
    | token hw' hl =>
      obtain ⟨c, r, rfl, hc⟩ := Lexeme.start ha hl
      exact absurd (hw c (by simp)) hc
  | token hw hl hm ht ih =>
    rename_i f p ws text rest ty toks
    obtain ⟨c, r, hcr, hc⟩ := Lexeme.start ha hl
    generalize hs : ws ++ (text ++ rest) = s at h'
    cases h' with
    | done hw' => subst hs; subst hcr; exact absurd (hw' c (by simp)) hc
    | token hw' hl' hm' ht' =>
      rename_i ws' text' rest' ty' toks'
      obtain ⟨c', r', hcr', hc'⟩ := Lexeme.start ha hl'
      have hs' := hs
      rw [hcr, hcr', List.cons_append, List.cons_append] at hs'
      obtain ⟨rfl, e⟩ := blanks_unique hw hw' hc hc' hs'
      rw [← List.cons_append, ← List.cons_append, ← hcr, ← hcr'] at e
      have longer : ∀ {t u x y : List Char} {T : Tk}, Lexeme alnum f u T →
          (∀ c s T', x = c :: s → ¬ Lexeme alnum f (t ++ [c]) T') → t ++ x = u ++ y → t.length < u.length → False := by
        intro t u x y T hu hmax e hlt
        obtain ⟨q, hq⟩ : ∃ q, u = t ++ q := by
          rcases List.append_eq_append_iff.1 e with ⟨z, rfl, -⟩ | ⟨z, rfl, -⟩
          · exact ⟨z, rfl⟩
          · rw [List.length_append] at hlt; omega
        subst hq
        rw [List.append_assoc] at e
        have e := List.append_cancel_left e
        cases q with
        | nil => simp at hlt
        | cons d q =>
          obtain ⟨T', hT⟩ := Lexeme.pre hu (p := t ++ [d]) (q := q) (by simp) (by simp)
          exact hmax d (q ++ y) T' e hT
      have hlen : text.length = text'.length := by
        rcases Nat.lt_trichotomy text.length text'.length with h | h | h
        · exact (longer hl' hm e h).elim
        · exact h
        · exact (longer hl hm' e.symm h).elim
      obtain ⟨rfl, rfl⟩ := List.append_inj e hlen
      obtain rfl := Lexeme.unique hl hl'
      rw [ih ht']

theorem LinesOf.unique {s : List Char} {a b : List (List Char)} (h : LinesOf s a) (h' : LinesOf s b) : a = b := by
  have one : ∀ {l l' s s' : List Char}, '\n' ∉ l → '\n' ∉ l' → l ++ '\n' :: s = l' ++ '\n' :: s' → l = l' ∧ s = s' := by
    intro l l' s s' h h' e
    induction l generalizing l' with
    | nil =>
      cases l' with
      | nil => simpa using e
      | cons x l' => simp only [List.nil_append, List.cons_append, List.cons.injEq] at e; exact absurd (by rw [e.1]; simp) h'
    | cons y l ih =>
      cases l' with
      | nil => simp only [List.nil_append, List.cons_append, List.cons.injEq] at e; exact absurd (by rw [e.1]; simp) h
      | cons x l' =>
        simp only [List.cons_append, List.cons.injEq] at e
        obtain ⟨rfl, e⟩ := e
        obtain ⟨rfl, rfl⟩ := ih (fun hm => h (by simp [hm])) (fun hm => h' (by simp [hm])) e
        exact ⟨rfl, rfl⟩
  have cr : ∀ {l s : List Char}, l ++ '\r' :: '\n' :: s = (l ++ ['\r']) ++ '\n' :: s := by simp
  have ncr : ∀ {l : List Char}, '\n' ∉ l → '\n' ∉ l ++ ['\r'] := by
    intro l h; simpa using h
  induction h generalizing b with
  | nil =>
    generalize hs : ([] : List Char) = s at h'
    cases h' with
    | nil => rfl
    | last h => exact absurd hs.symm h
    | lf => simp at hs
    | crlf => simp at hs
  | last h0 hn =>
    rename_i l
    generalize hs : l = s at h'
    cases h' with
    | nil => exact absurd hs h0
    | last => rfl
    | lf => rw [hs] at hn; simp at hn
    | crlf => rw [hs] at hn; simp at hn
  | lf hn hl _ ih =>
    rename_i l s ls _
    generalize hs : l ++ '\n' :: s = t at h'
    cases h' with
    | nil => simp at hs
    | last _ h => rw [← hs] at h; simp at h
    | lf hn' hl' h => obtain ⟨rfl, rfl⟩ := one hn hn' hs; rw [ih h]
    | crlf hn' h =>
      rw [cr] at hs
      obtain ⟨rfl, -⟩ := one hn (ncr hn') hs
      simp at hl
  | crlf hn _ ih =>
    rename_i l s ls _
    generalize hs : l ++ '\r' :: '\n' :: s = t at h'
    cases h' with
    | nil => simp at hs
    | last _ h => rw [← hs] at h; simp at h
    | lf hn' hl' h =>
      rw [cr] at hs
      obtain ⟨rfl, -⟩ := one (ncr hn) hn' hs
      simp at hl'
    | crlf hn' h =>
      rw [cr, cr] at hs
      obtain ⟨e, rfl⟩ := one (ncr hn) (ncr hn') hs
      rw [List.append_cancel_right e, ih h]

end Acorn.Scan
