/-
Lemmas about the token map.
-/
import Verif.Spec.TokenMap
import Verif.Props.Token
namespace Acorn.Hover

open Scan Spec

variable {ι : Type}

theorem Key.lt_iff (a b : Key) : a.lt b = true ↔ a.line < b.line ∨ a.line = b.line ∧ (a.start < b.start ∨ a.start = b.start ∧ a.len < b.len) := by
  simp [Key.lt]

theorem Key.lt_trans {a b c : Key} (h : a.lt b = true) (h' : b.lt c = true) : a.lt c = true := by
  rw [Key.lt_iff] at *; omega

theorem Key.lt_irrefl (a : Key) : a.lt a = false := by
  rw [Bool.eq_false_iff, ne_eq, Key.lt_iff]; omega

theorem Key.lt_total {a b : Key} (h : a.lt b = false) (hn : a ≠ b) : b.lt a = true := by
  rw [Bool.eq_false_iff, ne_eq, Key.lt_iff] at h
  rw [Key.lt_iff]
  obtain ⟨l, s, n⟩ := a
  obtain ⟨l', s', n'⟩ := b
  simp only [ne_eq, Key.mk.injEq, not_and] at hn h ⊢
  rcases Nat.lt_trichotomy l l' with q | q | q <;> rcases Nat.lt_trichotomy s s' with q' | q' | q' <;>
    rcases Nat.lt_trichotomy n n' with q'' | q'' | q'' <;> first | omega | exact absurd q'' (hn q q')

theorem Key.contains_iff (k : Key) (line position : Nat) :
    k.contains line position = true ↔ k.line = line ∧ k.start ≤ position ∧ position < k.start + k.len := by
  simp [Key.contains, and_assoc]

/-- The entries are in order. -/
def Sorted (m : Map ι) : Prop := m.Pairwise fun a b => a.1.lt b.1 = true

theorem mem_insertKey {k : Key} {v : ι} {m : Map ι} (hs : Sorted m) {e : Key × ι} :
    e ∈ insertKey k v m ↔ e = (k, v) ∨ e ∈ m ∧ e.1 ≠ k := by
  induction m with
  | nil => simp [insertKey]
  | cons x m ih =>
    obtain ⟨k', v'⟩ := x
    obtain ⟨h1, h2⟩ := List.pairwise_cons.1 hs
    have gt : ∀ q : Key, q.lt k' = true ∨ q = k' → ∀ e ∈ m, e.1 ≠ q := by
      rintro q hq e he rfl
      have := h1 e he
      rcases hq with hq | hq
      · have := Key.lt_trans hq this
        rw [Key.lt_irrefl] at this; cases this
      · rw [hq, Key.lt_irrefl] at this; cases this
    simp only [insertKey]
    split
    · rename_i hlt
      simp only [List.mem_cons]
      refine or_congr_right ⟨fun h => ⟨h, ?_⟩, fun h => h.1⟩
      rcases h with rfl | h
      · rintro rfl; simp only [Key.lt_irrefl] at hlt; cases hlt
      · exact gt k (.inl hlt) e h
    · split
      · rename_i heq
        subst heq
        simp only [List.mem_cons]
        refine or_congr_right ⟨fun h => ⟨.inr h, gt k (.inr rfl) e h⟩, ?_⟩
        rintro ⟨rfl | h, h'⟩
        · exact absurd rfl h'
        · exact h
      · rename_i hne
        simp only [List.mem_cons, ih h2]
        constructor
        · rintro (rfl | rfl | h)
          · exact .inr ⟨.inl rfl, fun h => hne h.symm⟩
          · exact .inl rfl
          · exact .inr ⟨.inr h.1, h.2⟩
        · rintro (rfl | ⟨rfl | h, h'⟩)
          · exact .inr (.inl rfl)
          · exact .inl rfl
          · exact .inr (.inr ⟨h, h'⟩)

theorem sorted_insertKey {k : Key} {v : ι} {m : Map ι} (hs : Sorted m) : Sorted (insertKey k v m) := by
  induction m with
  | nil => simp [insertKey, Sorted]
  | cons x m ih =>
    obtain ⟨k', v'⟩ := x
    obtain ⟨h1, h2⟩ := List.pairwise_cons.1 hs
    simp only [insertKey]
    split
    · rename_i hlt
      refine List.pairwise_cons.2 ⟨fun e he => ?_, hs⟩
      rcases List.mem_cons.1 he with rfl | he
      · exact hlt
      · exact Key.lt_trans hlt (h1 e he)
    · split
      · rename_i heq
        subst heq
        exact List.pairwise_cons.2 ⟨h1, h2⟩
      · rename_i hnl hne
        refine List.pairwise_cons.2 ⟨fun e he => ?_, ih h2⟩
        rcases (mem_insertKey h2).1 he with rfl | he
        · exact Key.lt_total (by simpa using hnl) hne
        · exact h1 e he.1

theorem trackAll_append (h : List (Token × ι)) (t : Token) (v : ι) :
    trackAll (h ++ [(t, v)]) = insertKey (keyOf t) v (trackAll h) := by
  simp [trackAll, track]

theorem snoc_induction {α : Type} {P : List α → Prop} (h0 : P []) (h1 : ∀ l a, P l → P (l ++ [a])) (l : List α) : P l := by
  rw [← l.reverse_reverse]
  induction l.reverse with
  | nil => exact h0
  | cons a l ih => rw [List.reverse_cons]; exact h1 _ _ ih

theorem sorted_trackAll (h : List (Token × ι)) : Sorted (trackAll h) := by
  induction h using snoc_induction with
  | h0 => exact .nil
  | h1 h p ih => obtain ⟨t, v⟩ := p; rw [trackAll_append]; exact sorted_insertKey ih

theorem mem_trackAll (h : List (Token × ι)) (k : Key) (v : ι) : (k, v) ∈ trackAll h ↔
    ∃ t before after, keyOf t = k ∧ h = before ++ (t, v) :: after ∧ ∀ p ∈ after, keyOf p.1 ≠ k := by
  induction h using snoc_induction with
  | h0 => simp [trackAll]
  | h1 h p ih =>
    obtain ⟨t', v'⟩ := p
    rw [trackAll_append, mem_insertKey (sorted_trackAll h), ih]
    constructor
    · rintro (e | ⟨⟨t, b, a, hk, rfl, ha⟩, hn⟩)
      · simp only [Prod.mk.injEq] at e
        obtain ⟨rfl, rfl⟩ := e
        exact ⟨t', h, [], rfl, rfl, by simp⟩
      · refine ⟨t, b, a ++ [(t', v')], hk, by simp, fun p hp => ?_⟩
        rcases List.mem_append.1 hp with hp | hp
        · exact ha p hp
        · obtain rfl := List.mem_singleton.1 hp
          exact fun e => hn e.symm
    · rintro ⟨t, b, a, hk, e, ha⟩
      rcases List.eq_nil_or_concat a with rfl | ⟨a', q, rfl⟩
      · obtain ⟨hb, e'⟩ := List.append_inj' e rfl
        simp only [List.cons.injEq, and_true, Prod.mk.injEq] at e'
        obtain ⟨rfl, rfl⟩ := e'
        exact .inl (by rw [hk])
      · rw [List.concat_eq_append] at e ha
        rw [show b ++ (t, v) :: (a' ++ [q]) = (b ++ (t, v) :: a') ++ [q] by simp] at e
        obtain ⟨rfl, e'⟩ := List.append_inj' e rfl
        obtain rfl : (t', v') = q := by simpa using e'
        refine .inr ⟨⟨t, b, a', hk, rfl, fun p hp => ha p (List.mem_append_left _ hp)⟩, fun e => ?_⟩
        exact ha (t', v') (by simp) e.symm

theorem getLast_sorted {m : Map ι} (hs : Sorted m) {e : Key × ι} (h : m.getLast? = some e) {e' : Key × ι} (he : e' ∈ m) :
    e' = e ∨ e'.1.lt e.1 = true := by
  rcases List.eq_nil_or_concat m with rfl | ⟨m', q, rfl⟩
  · simp at he
  · rw [List.concat_eq_append] at *
    obtain rfl : q = e := by simpa using h
    rcases List.mem_append.1 he with he | he
    · exact .inr ((List.pairwise_append.1 hs).2.2 e' he q (by simp))
    · exact .inl (List.mem_singleton.1 he)

/-- No two keys of the map overlap. -/
def Apart (m : Map ι) : Prop := ∀ a ∈ m, ∀ b ∈ m, a.1.lt b.1 = true → a.1.line = b.1.line → a.1.start + a.1.len ≤ b.1.start ∨ a.1.len = 0

theorem lookup_sound {m : Map ι} {line position : Nat} {e : Key × ι} (h : lookup m line position = some e) :
    e ∈ m ∧ e.1.contains line position = true := by
  unfold lookup at h
  split at h
  · rename_i x hx
    split at h
    · rename_i hc
      obtain rfl : x = e := by simpa using h
      exact ⟨(List.mem_filter.1 (List.mem_of_getLast? hx)).1, hc⟩
    · cases h
  · cases h

theorem lookup_complete {m : Map ι} (hs : Sorted m) (ha : Apart m) {line position : Nat} {e : Key × ι} (he : e ∈ m)
    (hc : e.1.contains line position = true) : lookup m line position = some e := by
  have hc' := (Key.contains_iff _ _ _).1 hc
  have hf : e ∈ m.filter fun e => e.1.lt ⟨line, position + 1, 0⟩ := by
    refine List.mem_filter.2 ⟨he, ?_⟩
    rw [Key.lt_iff]; dsimp only; omega
  unfold lookup
  cases hl : (m.filter fun e => e.1.lt ⟨line, position + 1, 0⟩).getLast? with
  | none => rw [List.getLast?_eq_none_iff] at hl; rw [hl] at hf; cases hf
  | some x =>
    have hx := List.mem_filter.1 (List.mem_of_getLast? hl)
    have hxl := (Key.lt_iff _ _).1 hx.2
    rcases getLast_sorted (hs.filter _) hl hf with rfl | hlt
    · simp [hc]
    · have hlt' := (Key.lt_iff _ _).1 hlt
      dsimp only at hxl
      have := ha e he x hx.1 hlt (by omega)
      omega

/-- Two different tokens of a source do not overlap. -/
theorem scan_apart {alnum : Char → Bool} {input : List Char} {k : Nat} {a b : Token} (ha : a ∈ scanFrom alnum input k)
    (hb : b ∈ scanFrom alnum input k) : a = b ∨ (a.lineNo < b.lineNo ∨ a.lineNo = b.lineNo ∧ a.start + a.len ≤ b.start) ∨
      (b.lineNo < a.lineNo ∨ b.lineNo = a.lineNo ∧ b.start + b.len ≤ a.start) := by
  have ho := C39_order alnum input k
  generalize scanFrom alnum input k = toks at *
  induction ho with
  | nil => cases ha
  | cons h _ ih =>
    rcases List.mem_cons.1 ha with rfl | ha' <;> rcases List.mem_cons.1 hb with rfl | hb'
    · exact .inl rfl
    · exact .inr (.inl (h _ hb'))
    · exact .inr (.inr (h _ ha'))
    · exact ih ha' hb'

theorem apart_trackAll {alnum : Char → Bool} {input : List Char} {k : Nat} {h : List (Token × ι)}
    (hh : ∀ p ∈ h, p.1 ∈ scanFrom alnum input k) : Apart (trackAll h) := by
  rintro ⟨ka, va⟩ hma ⟨kb, vb⟩ hmb hlt hl
  obtain ⟨ta, ba, aa, rfl, ea, -⟩ := (mem_trackAll h ka va).1 hma
  obtain ⟨tb, bb, ab, rfl, eb, -⟩ := (mem_trackAll h kb vb).1 hmb
  have h1 := hh (ta, va) (by rw [ea]; simp)
  have h2 := hh (tb, vb) (by rw [eb]; simp)
  rw [Key.lt_iff] at hlt
  dsimp only [keyOf] at *
  rcases scan_apart h1 h2 with rfl | q | q
  · omega
  · omega
  · omega

theorem key_inj {alnum : Char → Bool} {input : List Char} {k : Nat} {a b : Token} (ha : a ∈ scanFrom alnum input k)
    (hb : b ∈ scanFrom alnum input k) (h : keyOf a = keyOf b) (hl : 0 < a.len) : a = b := by
  simp only [keyOf, Key.mk.injEq] at h
  rcases scan_apart ha hb with rfl | q | q
  · rfl
  · omega
  · omega

theorem upTo_append (before after : List Char) : upTo (byteLen before) (before ++ after) = some before := by
  induction before with
  | nil => simp [upTo, byteLen]
  | cons c s ih =>
    have := c.utf8Size_pos
    rw [byteLen_cons, List.cons_append]
    obtain ⟨n, hn⟩ : ∃ n, c.utf8Size + byteLen s = n + 1 := ⟨c.utf8Size + byteLen s - 1, by omega⟩
    rw [hn, upTo, ← hn, if_neg (by omega), Nat.add_sub_cancel_left, ih]
    rfl

theorem utf16Len_append (s t : List Char) : utf16Len (s ++ t) = utf16Len s + utf16Len t := by
  simp [utf16Len]

theorem ascii_lengths {s : List Char} (h : Ascii s) : byteLen s = s.length ∧ utf16Len s = s.length := by
  induction s with
  | nil => simp [byteLen, utf16Len]
  | cons c s ih =>
    obtain ⟨h1, h2⟩ := ih fun x hx => h x (List.mem_cons_of_mem _ hx)
    have hc := h c (by simp)
    have e1 : c.utf8Size = 1 := by
      unfold Char.utf8Size
      have : c.val ≤ 0x7f := by
        rw [UInt32.le_iff_toNat_le]
        rw [UInt32.lt_iff_toNat_lt] at hc
        simp at hc ⊢; omega
      simp [this]
    have e2 : utf16Size c = 1 := by
      unfold utf16Size
      rw [if_pos]
      rw [UInt32.lt_iff_toNat_lt] at hc ⊢
      simp at hc ⊢; omega
    constructor
    · rw [byteLen_cons, h1, e1, List.length_cons]; omega
    · simp only [utf16Len, List.map_cons, List.sum_cons, e2, List.length_cons]
      simp only [utf16Len] at h2
      omega

theorem findToken_eq (e : Env ι) (line position : Nat) : findToken e line position =
    match lookup e.map line position with
    | some r => some r
    | none => (e.step line).bind fun c => findToken c line position := by
  rw [findToken]
  split
  · rename_i r hr; rw [hr]
  · rename_i hr
    rw [hr]
    dsimp only
    split
    · rename_i c hc; rw [hc]; rfl
    · rename_i hc; rw [hc]; rfl

theorem step_iff {e c : Env ι} {line : Nat} : e.step line = some c ↔ BlockAt e line c := by
  obtain ⟨m, first, types, blocks⟩ := e
  simp only [Env.step, lineType]
  constructor
  · intro h
    split at h
    · rename_i i hl
      split at hl
      · cases hl
      · obtain ⟨o, ho, rfl⟩ := Option.bind_eq_some_iff.1 h
        exact ⟨m, first, types, blocks, line - first, i, rfl, by omega, hl, ho⟩
    · cases h
  · rintro ⟨m', first', types', blocks', j, i, e, rfl, ht, hb⟩
    cases e
    rw [if_neg (by omega), Nat.add_sub_cancel_left, ht]
    simp [hb]

theorem step_none {e : Env ι} {line : Nat} : e.step line = none ↔ ∀ c, ¬ BlockAt e line c := by
  cases h : e.step line with
  | none => simp [← step_iff, h]
  | some c => simp only [reduceCtorEq, false_iff]; exact fun hn => hn c (step_iff.1 h)

end Acorn.Hover
