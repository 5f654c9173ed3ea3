import Verif.Spec.GoalPartition
import Verif.Lemmas.Text
/-
Lemmas about bucket filters.
-/
namespace Acorn
open Spec Text

theorem parseDigits_iff (ds : List Char) (acc n : Nat) (ha : acc ≤ 255) :
    parseDigits acc ds = some n ↔
      (∀ c ∈ ds, 48 ≤ c.toNat ∧ c.toNat ≤ 57) ∧ ds.foldl (fun a c => a * 10 + (c.toNat - 48)) acc = n ∧ n ≤ 255 := by
  induction ds generalizing acc with
  | nil => simp only [parseDigits, Option.some.injEq, List.foldl_nil]; simp; rintro rfl; exact ha
  | cons c ds ih =>
    have grow : ∀ (ds : List Char) (a : Nat), a ≤ ds.foldl (fun a c => a * 10 + (c.toNat - 48)) a := by
      intro ds
      induction ds with
      | nil => intro a; exact Nat.le_refl _
      | cons c ds ih => intro a; exact Nat.le_trans (m := a * 10 + (c.toNat - 48)) (by omega) (ih _)
    rw [parseDigits]
    split
    · rename_i hc
      simp only [Bool.and_eq_true, decide_eq_true_eq] at hc
      dsimp only
      split
      · rename_i hn
        rw [ih _ hn, List.foldl_cons]
        simp only [List.mem_cons, forall_eq_or_imp, hc, true_and, and_true]
      · rename_i hn
        simp only [reduceCtorEq, List.foldl_cons, false_iff, not_and]
        intro _ he
        have := grow ds (acc * 10 + (c.toNat - 48))
        rw [he] at this
        omega
    · rename_i hc
      simp only [Bool.and_eq_true, decide_eq_true_eq] at hc
      simp only [List.mem_cons, forall_eq_or_imp, reduceCtorEq, false_iff]
      exact fun h => hc h.1.1

theorem digit_not_ws {c : Char} (h : 48 ≤ c.toNat ∧ c.toNat ≤ 57) : isWhitespace c = false := by
  have h1 := h.1
  have h2 := h.2
  simp only [isWhitespace, Bool.or_eq_false_iff, Bool.and_eq_false_iff, decide_eq_false_iff_not, beq_eq_false_iff_ne]
  refine ⟨⟨⟨⟨⟨⟨⟨⟨⟨⟨?_, ?_⟩, ?_⟩, ?_⟩, ?_⟩, ?_⟩, ?_⟩, ?_⟩, ?_⟩, ?_⟩, ?_⟩ <;> omega

theorem parseBucket_iff {s : List Char} {n : Nat} : parseBucket s = some n ↔ BucketText s n := by
  simp only [parseBucket, Option.bind_eq_some_iff]
  constructor
  · rintro ⟨b, hb, hn⟩
    split at hn
    · cases hn
    · rename_i hlt
      cases hn
      have hlt : n < 100 := by simpa [goalBucketCount] using hlt
      obtain ⟨p, q, hs, hp, hq⟩ := trim_split s
      simp only [parseU8] at hb
      by_cases hplus : (trim s).head? = some '+'
      · rw [if_pos hplus] at hb
        split at hb
        · cases hb
        · rename_i hne
          obtain ⟨h1, h2, -⟩ := (parseDigits_iff _ _ _ (by decide)).mp hb
          refine ⟨p, ['+'], (trim s).tail, q, ?_, hp, hq, Or.inr rfl, by simpa using hne, h1, h2, hlt⟩
          cases ht : trim s with
          | nil => rw [ht] at hplus; cases hplus
          | cons c t =>
            rw [ht] at hplus
            simp only [List.head?_cons, Option.some.injEq] at hplus
            subst hplus
            rw [ht] at hs
            rw [hs]
            simp
      · rw [if_neg hplus] at hb
        split at hb
        · cases hb
        · rename_i hne
          obtain ⟨h1, h2, -⟩ := (parseDigits_iff _ _ _ (by decide)).mp hb
          exact ⟨p, [], trim s, q, by simpa using hs, hp, hq, Or.inl rfl, by simpa using hne, h1, h2, hlt⟩
  · rintro ⟨p, plus, ds, q, rfl, hp, hq, hplus, hne, hd, hf, hlt⟩
    refine ⟨n, ?_, by rw [if_neg]; simpa [goalBucketCount] using hlt⟩
    have hall : ∀ c ∈ plus ++ ds, isWhitespace c = false := by
      intro c hc
      rcases List.mem_append.mp hc with hc | hc
      · rcases hplus with rfl | rfl
        · simp at hc
        · simp only [List.mem_singleton] at hc
          subst hc
          decide
      · exact digit_not_ws (hd c hc)
    have ht : trim (p ++ plus ++ ds ++ q) = plus ++ ds := by
      rw [List.append_assoc p, trim_pad hp hq, trim_self hall]
    have hparse : parseDigits 0 ds = some n := (parseDigits_iff _ _ _ (by decide)).mpr ⟨hd, hf, by omega⟩
    have hemp : ds.isEmpty = false := by simpa using hne
    rw [ht, parseU8]
    rcases hplus with rfl | rfl
    · have : ds.head? ≠ some '+' := by
        cases ds with
        | nil => simp
        | cons c ds =>
          simp only [List.head?_cons, ne_eq, Option.some.injEq]
          rintro rfl
          have := hd '+' (by simp)
          revert this
          decide
      simp [this, hemp, hparse]
    · simp [hemp, hparse]

theorem Spec.BucketText.trim {s : List Char} {n : Nat} : BucketText (Text.trim s) n ↔ BucketText s n := by
  rw [← parseBucket_iff, ← parseBucket_iff, parseBucket, parseBucket, trim_trim]

theorem Spec.BucketText.pad {p s q : List Char} {n : Nat} (hp : Ws p) (hq : Ws q) :
    BucketText (p ++ s ++ q) n ↔ BucketText s n := by
  rw [← parseBucket_iff, ← parseBucket_iff, parseBucket, parseBucket, trim_pad hp hq]

theorem Spec.BucketText.chars {s : List Char} {n : Nat} (h : BucketText s n) :
    '-' ∉ s ∧ ',' ∉ s := by
  obtain ⟨p, plus, ds, q, rfl, hp, hq, hplus, -, hd, -, -⟩ := h
  have key : ∀ c, isWhitespace c = false → c ≠ '+' → ¬ (48 ≤ c.toNat ∧ c.toNat ≤ 57) →
      c ∉ p ++ plus ++ ds ++ q := by
    intro c h1 h2 h3 hm
    simp only [List.mem_append] at hm
    rcases hm with ((hm | hm) | hm) | hm
    · rw [hp c hm] at h1; cases h1
    · rcases hplus with rfl | rfl
      · simp at hm
      · exact h2 (by simpa using hm)
    · exact h3 (hd c hm)
    · rw [hq c hm] at h1; cases h1
  exact ⟨key '-' (by decide) (by decide) (by decide), key ',' (by decide) (by decide) (by decide)⟩

theorem Spec.RangeText.no_comma {s : List Char} {r : BucketRange} (h : RangeText s r) : ',' ∉ s := by
  rcases h with ⟨-, h⟩ | ⟨-, a, b, rfl, ha, hb⟩
  · exact h.chars.2
  · simp [ha.chars.2, hb.chars.2]

theorem Spec.BucketText.nonempty {s : List Char} {n : Nat} (h : BucketText s n) : s ≠ [] := by
  obtain ⟨p, plus, ds, q, rfl, -, -, -, hne, -⟩ := h
  simp [hne]

theorem parseRange_iff {s : List Char} {r : BucketRange} : parseRange s = some r ↔ RangeText s r := by
  obtain ⟨p, q, hs, hp, hq⟩ := trim_split s
  constructor
  · intro h
    simp only [parseRange] at h
    split at h
    · cases h
    · simp only [Option.bind_eq_some_iff, Prod.exists] at h
      obtain ⟨a, b, hab, h⟩ := h
      split at h
      · cases h
      · rename_i hle
        cases h
        split at hab
        · rename_i x y hxy
          simp only [Option.bind_eq_some_iff, Option.some.injEq, Prod.mk.injEq] at hab
          obtain ⟨a', ha, b', hb, rfl, rfl⟩ := hab
          obtain ⟨he, -⟩ := splitOnce_eq hxy
          refine Or.inr ⟨by simpa using hle, p ++ x, y ++ q, ?_, ?_, ?_⟩
          · rw [he] at hs
            rw [hs]
            simp
          · have := (BucketText.pad (s := x) (n := a') hp (q := []) (by simp [Ws])).mpr (parseBucket_iff.mp ha)
            simpa using this
          · have := (BucketText.pad (s := y) (n := b') (p := []) (by simp [Ws]) hq).mpr (parseBucket_iff.mp hb)
            simpa using this
        · simp only [Option.bind_eq_some_iff, Option.some.injEq, Prod.mk.injEq] at hab
          obtain ⟨a', ha, rfl, rfl⟩ := hab
          exact Or.inl ⟨rfl, BucketText.trim.mp (parseBucket_iff.mp ha)⟩
  · rintro (⟨he, h⟩ | ⟨hle, a, b, rfl, ha, hb⟩)
    · have ht := BucketText.trim.mpr h
      simp only [parseRange]
      rw [if_neg (by simpa using ht.nonempty), splitOnce_none ht.chars.1]
      dsimp only
      rw [parseBucket_iff.mpr ht]
      obtain ⟨st, en⟩ := r
      dsimp only at he
      subst he
      simp
    · have hd : isWhitespace '-' = false := by decide
      have ht : Text.trim (a ++ '-' :: b) = trimStart a ++ '-' :: trimEnd b := trim_stop hd
      have hna : '-' ∉ trimStart a := fun hm => ha.chars.1 ((List.dropWhile_sublist _).subset hm)
      have h1 : parseBucket (trimStart a) = some r.start := by
        obtain ⟨x, hx, hw⟩ := dropWhile_split a
        have := (BucketText.pad (s := trimStart a) (n := r.start) hw (q := []) (by simp [Ws])).mp
          (by rw [List.append_nil, trimStart, ← hx]; exact ha)
        exact parseBucket_iff.mpr this
      have h2 : parseBucket (trimEnd b) = some r.stop := by
        obtain ⟨x, hx, hw⟩ := dropWhile_split b.reverse
        have hb' : b = trimEnd b ++ x.reverse := by
          rw [trimEnd, ← List.reverse_append, ← hx, List.reverse_reverse]
        have := (BucketText.pad (s := trimEnd b) (n := r.stop) (p := []) (by simp [Ws]) (q := x.reverse)
          (fun c hc => hw c (List.mem_reverse.mp hc))).mp (by rw [List.nil_append, ← hb']; exact hb)
        exact parseBucket_iff.mpr this
      simp only [parseRange]
      rw [ht, if_neg (by simp), splitOnce_some hna]
      dsimp only
      rw [h1, h2]
      simp [hle]

theorem parseRange_trim (s t : List Char) (h : trim s = trim t) : parseRange s = parseRange t := by
  simp only [parseRange, h]

theorem Spec.RangeText.of_trim {s t : List Char} {r : BucketRange} (h : Text.trim s = Text.trim t)
    (hs : RangeText s r) : RangeText t r := by
  rw [← parseRange_iff] at hs ⊢
  rw [← parseRange_trim s t h]
  exact hs

theorem Spec.FilterText.nonempty {s : List Char} {f : BucketFilter} (h : FilterText s f) : s ≠ [] := by
  cases h with
  | one h =>
    rcases h with ⟨-, h⟩ | ⟨-, a, b, rfl, -, -⟩
    · exact h.nonempty
    · simp
  | more => simp

theorem trim_cons_ws {c : Char} (hc : isWhitespace c = true) (s : List Char) : trim (c :: s) = trim s := by
  have := trim_pad (p := [c]) (s := s) (q := []) (by simpa [Ws] using hc) (by simp [Ws])
  simpa using this

theorem trim_snoc_ws {c : Char} (hc : isWhitespace c = true) (s : List Char) : trim (s ++ [c]) = trim s := by
  have := trim_pad (p := []) (s := s) (q := [c]) (by simp [Ws]) (by simpa [Ws] using hc)
  simpa using this

theorem Spec.FilterText.cons_ws {c : Char} (hc : isWhitespace c = true) {s : List Char} {f : BucketFilter} :
    FilterText (c :: s) f ↔ FilterText s f := by
  constructor
  · intro h
    generalize he : c :: s = x at h
    cases h with
    | one h =>
      subst he
      exact .one (h.of_trim (trim_cons_ws hc s))
    | @more s1 t r f h ht =>
      cases s1 with
      | nil =>
        simp only [List.nil_append, List.cons.injEq] at he
        rw [he.1] at hc
        exact absurd hc (by decide)
      | cons c' s1 =>
        simp only [List.cons_append, List.cons.injEq] at he
        obtain ⟨rfl, rfl⟩ := he
        exact .more (h.of_trim (trim_cons_ws hc s1)) ht
  · intro h
    cases h with
    | one h => exact .one (h.of_trim (trim_cons_ws hc s).symm)
    | @more s1 t r f h ht =>
      have := FilterText.more (h.of_trim (trim_cons_ws hc s1).symm) ht
      exact this

theorem Spec.FilterText.snoc_ws {c : Char} (hc : isWhitespace c = true) {s : List Char} {f : BucketFilter} :
    FilterText (s ++ [c]) f ↔ FilterText s f := by
  constructor
  · intro h
    generalize he : s ++ [c] = x at h
    induction h generalizing s with
    | one h =>
      subst he
      exact .one (h.of_trim (trim_snoc_ws hc s))
    | @more s1 t r f h ht ih =>
      rcases List.eq_nil_or_concat t with rfl | ⟨t', d, ht'⟩
      · exact absurd rfl ht.nonempty
      · rw [List.concat_eq_append] at ht'
        subst ht'
        have e : s1 ++ ',' :: t' ++ [d] = s ++ [c] := by rw [he]; simp
        obtain ⟨e1, e2⟩ := List.append_inj' e rfl
        simp only [List.cons.injEq, and_true] at e2
        subst e2
        rw [← e1]
        exact .more h (ih rfl)
  · intro h
    induction h with
    | @one s r h => exact .one (h.of_trim (trim_snoc_ws hc s).symm)
    | @more s1 t r f h ht ih =>
      have := FilterText.more h ih
      simpa using this

theorem Spec.FilterText.trim {s : List Char} {f : BucketFilter} : FilterText (Text.trim s) f ↔ FilterText s f := by
  obtain ⟨p, q, hs, hp, hq⟩ := trim_split s
  have h1 : ∀ (p : List Char) (x : List Char), Ws p → (FilterText (p ++ x) f ↔ FilterText x f) := by
    intro p
    induction p with
    | nil => intro x _; exact Iff.rfl
    | cons c p ih =>
      intro x hw
      rw [List.cons_append, FilterText.cons_ws (hw c (by simp)), ih x fun d hd => hw d (by simp [hd])]
  have h2 : ∀ (q : List Char) (x : List Char), Ws q → (FilterText (x ++ q) f ↔ FilterText x f) := by
    intro q
    induction q with
    | nil => intro x _; rw [List.append_nil]
    | cons c q ih =>
      intro x hw
      have e : x ++ c :: q = (x ++ [c]) ++ q := by simp
      rw [e, ih _ fun d hd => hw d (by simp [hd]), FilterText.snoc_ws (hw c (by simp))]
  have h3 := h2 q (p ++ Text.trim s) hq
  rw [← hs, h1 p _ hp] at h3
  exact h3.symm

theorem parseRanges_iff {f : BucketFilter} (s : List Char) : parseRanges (splitChar ',' s) = some f ↔ FilterText s f := by
  constructor
  · generalize hps : splitChar ',' s = ps
    intro h
    induction ps generalizing s f with
    | nil => exact absurd hps (splitChar_ne_nil _ _)
    | cons p ps ih =>
      simp only [parseRanges, Option.bind_eq_some_iff, Option.some.injEq] at h
      obtain ⟨r, hr, rs, hrs, rfl⟩ := h
      rcases splitChar_eq hps with ⟨rfl, rfl⟩ | ⟨t, rfl, ht⟩
      · cases hrs
        exact .one (parseRange_iff.mp hr)
      · exact .more (parseRange_iff.mp hr) (ih t ht hrs)
  · intro h
    induction h with
    | one h => rw [splitChar_one h.no_comma, parseRanges, parseRange_iff.mpr h]; rfl
    | more h _ ih => rw [splitChar_more h.no_comma, parseRanges, parseRange_iff.mpr h, ih]; rfl

theorem showU8_text {n : Nat} (h : n < 100) : BucketText (showU8 n) n := by
  have key : ∀ m : Fin 100, (∀ c ∈ showU8 m.1, 48 ≤ c.toNat ∧ c.toNat ≤ 57) ∧ showU8 m.1 ≠ [] ∧
      (showU8 m.1).foldl (fun a c => a * 10 + (c.toNat - 48)) 0 = m.1 := by decide +kernel
  obtain ⟨h1, h2, h3⟩ := key ⟨n, h⟩
  exact ⟨[], [], showU8 n, [], by simp, by simp, by simp, Or.inl rfl, h2, h1, h3, h⟩

theorem show_text {f : BucketFilter} (h : FilterValid f) : FilterText f.show f := by
  obtain ⟨hne, hv⟩ := h
  have hr : ∀ r : BucketRange, r.start ≤ r.stop ∧ r.stop < 100 → RangeText r.show r := by
    rintro ⟨a, b⟩ ⟨h1, h2⟩
    simp only [BucketRange.show]
    dsimp only at h1 h2
    split
    · rename_i h; subst h; exact Or.inl ⟨rfl, showU8_text h2⟩
    · exact Or.inr ⟨h1, _, _, rfl, showU8_text (by omega), showU8_text h2⟩
  induction f with
  | nil => exact absurd rfl hne
  | cons r rs ih =>
    cases rs with
    | nil => exact .one (hr r (hv r (by simp)))
    | cons r' rs =>
      exact .more (hr r (hv r (by simp))) (ih (by simp) fun x hx => hv x (by simp [hx]))

theorem Spec.FilterText.valid {s : List Char} {f : BucketFilter} (h : FilterText s f) : FilterValid f := by
  have hr : ∀ {s : List Char} {r : BucketRange}, RangeText s r → r.start ≤ r.stop ∧ r.stop < 100 := by
    rintro s r (⟨he, p, plus, ds, q, -, -, -, -, -, -, -, hlt⟩ | ⟨hle, a, b, -, -, p, plus, ds, q, -, -, -, -, -, -, -, hlt⟩)
    · exact ⟨by omega, by omega⟩
    · exact ⟨hle, hlt⟩
  induction h with
  | one h => exact ⟨by simp, by simpa using hr h⟩
  | more h _ ih =>
    refine ⟨by simp, ?_⟩
    intro x hx
    rcases List.mem_cons.mp hx with rfl | hx
    · exact hr h
    · exact ih.2 x hx

end Acorn
