/-
The enumeration of boolean reductions, and their grouping into sets.
-/
import Verif.Lemmas.BoolReductionAt
namespace Acorn
namespace Spec
open Term

universe u

/-! ### Enumeration agrees with replay -/

theorem mem_append_left_right {α : Type} {a : α} {x y : List α} (h : a ∈ x ++ y) : a ∈ x ∨ a ∈ y :=
  List.mem_append.1 h

theorem mem_ite_nil {α : Type} {a : α} {p : Prop} [Decidable p] {x : List α} :
    a ∈ (if p then x else []) ↔ p ∧ a ∈ x := by
  by_cases h : p <;> simp [h]

section
variable {K : KCtx} {Γ : LCtx} {n fuel : Nat} {l : Literal}

theorem findIteSplit_eq {k : BoolKind} {r : List Literal} {Γ' : LCtx}
    (h : (k, r, Γ') ∈ findIteSplit Γ l) : boolReplace fuel K Γ n l k = some (r, Γ') := by
  simp only [findIteSplit] at h
  rcases mem_append_left_right h with h | h
  · split at h
    · rename_i T c x y es
      simp only [List.mem_cons, Prod.mk.injEq, List.not_mem_nil, or_false] at h
      rcases h with ⟨rfl, rfl, rfl⟩ | ⟨rfl, rfl, rfl⟩ <;> simp [boolReplace, es]
    · cases h
  · split at h
    · rename_i T c x y es
      simp only [List.mem_cons, Prod.mk.injEq, List.not_mem_nil, or_false] at h
      rcases h with ⟨rfl, rfl, rfl⟩ | ⟨rfl, rfl, rfl⟩ <;> simp [boolReplace, es]
    · cases h

theorem findBoolEq_eq {k : BoolKind} {r : List Literal} {Γ' : LCtx}
    (hb : getType K Γ l.left = some .boolTy) (hr : l.right.isTrue = false)
    (h : (k, r, Γ') ∈ findBoolEq Γ l) : boolReplace fuel K Γ n l k = some (r, Γ') := by
  simp only [findBoolEq] at h
  split at h
  · rename_i hp
    simp only [List.mem_cons, Prod.mk.injEq, List.not_mem_nil, or_false] at h
    rcases h with ⟨rfl, rfl, rfl⟩ | ⟨rfl, rfl, rfl⟩ <;> simp [boolReplace, hb, hr, hp]
  · rename_i hp
    simp only [List.mem_cons, Prod.mk.injEq, List.not_mem_nil, or_false] at h
    rcases h with ⟨rfl, rfl, rfl⟩ | ⟨rfl, rfl, rfl⟩ <;> simp [boolReplace, hb, hr, hp]

theorem findSigned_eq {k : BoolKind} {r : List Literal} {Γ' : LCtx}
    (hs : signedBool K Γ l = true)
    (h : (k, r, Γ') ∈ findSigned Γ n l) : boolReplace fuel K Γ n l k = some (r, Γ') := by
  unfold findSigned at h
  split at h
  · rename_i x es
    simp only [List.mem_cons, Prod.mk.injEq, List.not_mem_nil, or_false] at h
    obtain ⟨rfl, rfl, rfl⟩ := h
    simp [boolReplace, hs, es]
  · split at h
    · rename_i T x y es
      simp only [List.mem_cons, Prod.mk.injEq, List.not_mem_nil, or_false] at h
      obtain ⟨rfl, rfl, rfl⟩ := h
      simp [boolReplace, hs, es]
    · split at h
      · cases h
      · rename_i hex
        simp only at h
        split at h
        · rename_i q eq
          split at eq
          · rename_i hp
            split at eq
            · rename_i t Γ1 eo
              cases eq
              simp only [List.mem_cons, Prod.mk.injEq, List.not_mem_nil, or_false] at h
              obtain ⟨rfl, rfl, rfl⟩ := h
              simp [boolReplace, hs, hp, eo]
            · split at eq
              · rename_i t eo
                cases eq
                simp only [List.mem_cons, Prod.mk.injEq, List.not_mem_nil, or_false] at h
                obtain ⟨rfl, rfl, rfl⟩ := h
                simp only [hp, Bool.and_true] at hex
                simp only [boolReplace, hs, hp, eo, Bool.not_true, Bool.false_or]
                rw [if_neg hex]
                rfl
              · cases eq
          · rename_i hp
            split at eq
            · rename_i t eo
              cases eq
              simp only [List.mem_cons, Prod.mk.injEq, List.not_mem_nil, or_false] at h
              obtain ⟨rfl, rfl, rfl⟩ := h
              simp [boolReplace, hs, hp, eo]
            · split at eq
              · rename_i t Γ1 eo
                cases eq
                simp only [List.mem_cons, Prod.mk.injEq, List.not_mem_nil, or_false] at h
                obtain ⟨rfl, rfl, rfl⟩ := h
                simp [boolReplace, hs, hp, eo]
              · cases eq
        · split at h
          · rename_i x y es
            split at h
            · rename_i hp
              simp only [List.mem_cons, Prod.mk.injEq, List.not_mem_nil, or_false] at h
              rcases h with ⟨rfl, rfl, rfl⟩ | ⟨rfl, rfl, rfl⟩ <;> simp [boolReplace, hs, hp, es]
            · rename_i hp
              simp only [List.mem_cons, Prod.mk.injEq, List.not_mem_nil, or_false] at h
              obtain ⟨rfl, rfl, rfl⟩ := h
              simp [boolReplace, hs, hp, es]
          · split at h
            · rename_i x y es
              split at h
              · rename_i hp
                simp only [List.mem_cons, Prod.mk.injEq, List.not_mem_nil, or_false] at h
                obtain ⟨rfl, rfl, rfl⟩ := h
                simp [boolReplace, hs, hp, es]
              · rename_i hp
                simp only [List.mem_cons, Prod.mk.injEq, List.not_mem_nil, or_false] at h
                rcases h with ⟨rfl, rfl, rfl⟩ | ⟨rfl, rfl, rfl⟩ <;> simp [boolReplace, hs, hp, es]
            · cases h

/-- Each enumerated replacement is the one computed for its kind. -/
theorem findReplacements_eq {rs : List (BoolKind × List Literal × LCtx)}
    (e : findReplacements fuel K Γ n l = some rs) {k : BoolKind} {r : List Literal} {Γ' : LCtx}
    (h : (k, r, Γ') ∈ rs) : boolReplace fuel K Γ n l k = some (r, Γ') := by
  unfold findReplacements at e
  split at e
  · rename_i hs
    simp only [Bool.and_eq_true, Bool.or_eq_true, decide_eq_true_eq] at hs
    have e := Option.some.inj e
    subst e
    rw [mem_ite_nil] at h
    obtain ⟨hf, h⟩ := h
    simp only [List.mem_cons, Prod.mk.injEq, List.not_mem_nil, or_false] at h
    obtain ⟨rfl, rfl, rfl⟩ := h
    simp only [boolReplace, falseLiteral, hs.1, Bool.true_and]
    rw [if_pos]
    cases ht : l.left.isTrue with
    | true => simpa [ht] using hf
    | false =>
      rw [ht] at hs
      have := hs.2.resolve_left (by simp)
      simp only [ht, Bool.false_eq_true, ↓reduceIte, Bool.not_not] at hf
      simp [this, hf]
  · simp only [Option.bind_eq_bind, Option.bind_eq_some_iff] at e
    obtain ⟨a, ea, b, eb, ty, ety, e⟩ := e
    have e := Option.some.inj e
    subst e
    simp only [List.mem_append] at h
    rcases h with (((h | h) | h) | h) | h
    · rw [mem_ite_nil] at h
      obtain ⟨hne, h⟩ := h
      simp only [List.mem_cons, Prod.mk.injEq, List.not_mem_nil, or_false] at h
      obtain ⟨rfl, rfl, rfl⟩ := h
      simp [boolReplace, ea, hne]
    · rw [mem_ite_nil] at h
      obtain ⟨hne, h⟩ := h
      simp only [List.mem_cons, Prod.mk.injEq, List.not_mem_nil, or_false] at h
      obtain ⟨rfl, rfl, rfl⟩ := h
      simp [boolReplace, eb, hne]
    · exact findIteSplit_eq h
    · split at h
      · rename_i t et
        simp only [List.mem_cons, Prod.mk.injEq, List.not_mem_nil, or_false] at h
        obtain ⟨rfl, rfl, rfl⟩ := h
        simp [boolReplace, et]
      · cases h
    · by_cases hb : ty = .boolTy
      · subst hb
        rw [if_neg (by simp)] at h
        by_cases hr : l.right.isTrue = true
        · rw [if_pos hr] at h
          exact findSigned_eq (signedBool_iff.2 ⟨ety, hr⟩) h
        · rw [if_neg hr] at h
          exact findBoolEq_eq ety (by simpa using hr) h
      · rw [if_pos hb] at h
        cases h

end

/-! ### Grouping -/

/-- A list in which the kinds that come in pairs are next to each other and belong to the same literal. -/
inductive Grouped {α : Type} : List (BoolKind × Nat × α) → Prop
  | nil : Grouped []
  | one {k i t l} : isHalf k = false → Grouped l → Grouped ((k, i, t) :: l)
  | two {k k' i t t' l} : k.paired k' = true → Grouped l → Grouped ((k, i, t) :: (k', i, t') :: l)

theorem Grouped.append {α : Type} {a b : List (BoolKind × Nat × α)} (ha : Grouped a) (hb : Grouped b) :
    Grouped (a ++ b) := by
  induction ha with
  | nil => exact hb
  | one h _ ih => exact .one h ih
  | two h _ ih => exact .two h ih

theorem Grouped.single {α : Type} {k : BoolKind} {i : Nat} {t : α} (h : isHalf k = false) :
    Grouped [(k, i, t)] := .one h .nil

theorem Grouped.pair {α : Type} {k k' : BoolKind} {i : Nat} {t t' : α} (h : k.paired k' = true) :
    Grouped [(k, i, t), (k', i, t')] := .two h .nil

theorem Grouped.flatten {α : Type} {a : List (List (BoolKind × Nat × α))} (h : ∀ l ∈ a, Grouped l) :
    Grouped a.flatten := by
  induction a with
  | nil => exact .nil
  | cons x a ih =>
    simp only [List.flatten_cons]
    exact (h x (by simp)).append (ih fun l hl => h l (by simp [hl]))

/-- Annotate replacements with a literal index. -/
def tag (i : Nat) (rs : List (BoolKind × List Literal × LCtx)) :
    List (BoolKind × Nat × (List Literal × LCtx)) := rs.map fun (k, r) => (k, i, r)

theorem tag_ite {i : Nat} {p : Prop} [Decidable p] {x y : List (BoolKind × List Literal × LCtx)}
    (hx : p → Grouped (tag i x)) (hy : ¬ p → Grouped (tag i y)) :
    Grouped (tag i (if p then x else y)) := by
  by_cases h : p
  · rw [if_pos h]; exact hx h
  · rw [if_neg h]; exact hy h

theorem findReplacements_grouped {K : KCtx} {Γ : LCtx} {n fuel : Nat} {l : Literal}
    {rs : List (BoolKind × List Literal × LCtx)} (e : findReplacements fuel K Γ n l = some rs) (i : Nat) :
    Grouped (tag i rs) := by
  have app : ∀ a b, tag i (a ++ b) = tag i a ++ tag i b := by intro a b; simp [tag]
  unfold findReplacements at e
  split at e
  · cases e
    refine tag_ite ?_ (fun _ => ?_)
    · exact fun _ => .single rfl
    · exact .nil
  · simp only [Option.bind_eq_bind, Option.bind_eq_some_iff] at e
    obtain ⟨a, ea, b, eb, ty, ety, e⟩ := e
    cases e
    rw [app, app, app, app]
    refine .append (.append (.append (.append ?_ ?_) ?_) ?_) ?_
    · split
      · exact .single rfl
      · exact .nil
    · split
      · exact .single rfl
      · exact .nil
    · rw [findIteSplit, app]
      refine .append ?_ ?_
      · split
        · exact .pair rfl
        · exact .nil
      · split
        · exact .pair rfl
        · exact .nil
    · split
      · exact .single rfl
      · exact .nil
    · split
      · exact .nil
      · split
        · unfold findSigned
          split
          · exact .single rfl
          · split
            · exact .single rfl
            · split
              · exact .nil
              · simp only
                split
                · rename_i q eq
                  split at eq
                  · split at eq
                    · cases eq; exact .single rfl
                    · split at eq
                      · cases eq; exact .single rfl
                      · cases eq
                  · split at eq
                    · cases eq; exact .single rfl
                    · split at eq
                      · cases eq; exact .single rfl
                      · cases eq
                · split
                  · split
                    · exact .pair rfl
                    · exact .single rfl
                  · split
                    · split
                      · exact .single rfl
                      · exact .pair rfl
                    · exact .nil
        · unfold findBoolEq
          split
          · exact .pair rfl
          · exact .pair rfl

theorem mapM_cons_some {α β : Type} {f : α → Option β} {a : α} {l : List α} {r : List β}
    (e : (a :: l).mapM f = some r) : ∃ b l', f a = some b ∧ l.mapM f = some l' ∧ r = b :: l' := by
  rw [List.mapM_cons] at e
  simp only [Option.bind_eq_bind, Option.bind_eq_some_iff] at e
  obtain ⟨b, hb, l', hl, e⟩ := e
  cases e
  exact ⟨b, l', hb, hl, rfl⟩

theorem mapM_mem {α β : Type} {f : α → Option β} {l : List α} : ∀ {r : List β},
    l.mapM f = some r → ∀ b ∈ r, ∃ a ∈ l, f a = some b := by
  induction l with
  | nil => intro r e b hb; rw [List.mapM_nil] at e; cases e; cases hb
  | cons a l ih =>
    intro r e b hb
    obtain ⟨b0, l', h1, h2, rfl⟩ := mapM_cons_some e
    rcases List.mem_cons.1 hb with rfl | hb
    · exact ⟨a, by simp, h1⟩
    · obtain ⟨a', ha', h3⟩ := ih h2 b hb
      exact ⟨a', by simp [ha'], h3⟩

theorem Grouped.mapM {α β : Type} {f : BoolKind × Nat × α → Option (BoolKind × Nat × β)}
    (hf : ∀ k i a b, f (k, i, a) = some b → b.1 = k ∧ b.2.1 = i) {l : List (BoolKind × Nat × α)}
    (h : Grouped l) : ∀ {r : List (BoolKind × Nat × β)}, l.mapM f = some r → Grouped r := by
  induction h with
  | nil => intro r e; rw [List.mapM_nil] at e; cases e; exact .nil
  | one hk _ ih =>
    intro r e
    obtain ⟨⟨k1, i1, b1⟩, l', h1, h2, rfl⟩ := mapM_cons_some e
    obtain ⟨e1, e2⟩ := hf _ _ _ _ h1
    simp only at e1 e2
    subst e1 e2
    exact .one hk (ih h2)
  | two hk _ ih =>
    intro r e
    obtain ⟨⟨k1, i1, b1⟩, l', h1, h2, rfl⟩ := mapM_cons_some e
    obtain ⟨⟨k2, i2, b2⟩, l'', h3, h4, rfl⟩ := mapM_cons_some h2
    obtain ⟨e1, e2⟩ := hf _ _ _ _ h1
    obtain ⟨e3, e4⟩ := hf _ _ _ _ h3
    simp only at e1 e2 e3 e4
    subst e1 e2 e3 e4
    exact .two hk (ih h4)

theorem paired_half {k k' : BoolKind} (h : k.paired k' = true) : isHalf k = true ∧ isHalf k' = true := by
  cases k <;> cases k' <;> simp [BoolKind.paired] at h <;> exact ⟨rfl, rfl⟩

/-- What the sets of a grouped list are. -/
theorem boolReductionSets_spec {norm : Trace → Option Clause} {l : List (BoolKind × Nat × Trace)}
    (h : Grouped l) : ∀ s ∈ boolReductionSets norm (l.map fun (k, _, t) => (k, t)),
      (∃ k i t c, (k, i, t) ∈ l ∧ isHalf k = false ∧ norm t = some c ∧ s = [c]) ∨
      (∃ k k' i t t' c c', (k, i, t) ∈ l ∧ (k', i, t') ∈ l ∧ k.paired k' = true ∧
        norm t = some c ∧ norm t' = some c' ∧ s = [c, c']) := by
  induction h with
  | nil => intro s hs; simp [boolReductionSets] at hs
  | @one k i t l hk hl ih =>
    intro s hs
    have ih' : s ∈ boolReductionSets norm (l.map fun (k, _, t) => (k, t)) →
        (∃ k' i' t' c, (k', i', t') ∈ (k, i, t) :: l ∧ isHalf k' = false ∧ norm t' = some c ∧ s = [c]) ∨
        (∃ k1 k' i' t1 t' c c', (k1, i', t1) ∈ (k, i, t) :: l ∧ (k', i', t') ∈ (k, i, t) :: l ∧
          k1.paired k' = true ∧ norm t1 = some c ∧ norm t' = some c' ∧ s = [c, c']) := by
      intro hs
      rcases ih s hs with ⟨k', i', t', c, h1, h2⟩ | ⟨k1, k', i', t1, t', c, c', h1, h2, h3⟩
      · exact Or.inl ⟨k', i', t', c, by simp [h1], h2⟩
      · exact Or.inr ⟨k1, k', i', t1, t', c, c', by simp [h1], by simp [h2], h3⟩
    have hd : s ∈ (if !k.isSecondHalf then
        match norm t with
        | some c => [[c]]
        | none => []
      else []) → ∃ k' i' t' c, (k', i', t') ∈ (k, i, t) :: l ∧ isHalf k' = false ∧
        norm t' = some c ∧ s = [c] := by
      intro hs
      split at hs
      · split at hs
        · rename_i c ec
          simp only [List.mem_cons, List.not_mem_nil, or_false] at hs
          exact ⟨k, i, t, c, by simp, hk, ec, hs⟩
        · cases hs
      · cases hs
    cases l with
    | nil =>
      simp only [List.map_cons, List.map_nil, boolReductionSets] at hs
      exact Or.inl (hd hs)
    | cons x l =>
      obtain ⟨k', i', t'⟩ := x
      simp only [List.map_cons, boolReductionSets] at hs
      have hp : k.paired k' = false := by
        cases hp : k.paired k' with
        | false => rfl
        | true => rw [(paired_half hp).1] at hk; cases hk
      rw [hp] at hs
      simp only [Bool.false_eq_true, ↓reduceIte] at hs
      rcases mem_append_left_right hs with hs | hs
      · exact Or.inl (hd hs)
      · exact ih' hs
  | @two k k' i t t' l hk hl ih =>
    intro s hs
    simp only [List.map_cons, boolReductionSets, hk, ↓reduceIte] at hs
    rcases mem_append_left_right hs with hs | hs
    · split at hs
      · rename_i c c' ec ec'
        simp only [List.mem_cons, List.not_mem_nil, or_false] at hs
        exact Or.inr ⟨k, k', i, t, t', c, c', by simp, by simp, hk, ec, ec', hs⟩
      · cases hs
    · rcases ih s hs with ⟨k1, i1, t1, c, h1, h2⟩ | ⟨k1, k2, i', t1, t2, c, c', h1, h2, h3⟩
      · exact Or.inl ⟨k1, i1, t1, c, by simp [h1], h2⟩
      · exact Or.inr ⟨k1, k2, i', t1, t2, c, c', by simp [h1], by simp [h2], h3⟩

/-! ### The enumeration of a clause -/

theorem findBoolReductions_spec {K : KCtx} {fuel : Nat} {c : Clause}
    {rs : List (BoolKind × Nat × Trace)} (e : c.findBoolReductions fuel K = some rs) :
    Grouped rs ∧ ∀ k i t, (k, i, t) ∈ rs → c.boolReductionAt fuel K k i = some t := by
  simp only [Clause.findBoolReductions, Option.bind_eq_bind, Option.pure_def,
    Option.bind_eq_some_iff] at e
  obtain ⟨found, ef, e⟩ := e
  cases e
  constructor
  · refine Grouped.flatten fun l hl => ?_
    obtain ⟨i, hi, el⟩ := mapM_mem ef l hl
    simp only [Option.bind_eq_some_iff] at el
    obtain ⟨lit, e1, rs, e2, e3⟩ := el
    have g := findReplacements_grouped e2 i
    refine g.mapM (f := fun (k, i, r) => do
      let t ← normalizeBoolReduction (replaceLit c.lits i r.1) r.2 c.ctx.length
      return (k, i, t)) ?_ ?_
    · intro k i a b hb
      simp only [Option.bind_eq_bind, Option.pure_def, Option.bind_eq_some_iff] at hb
      obtain ⟨t, _, hb⟩ := hb
      cases hb
      exact ⟨rfl, rfl⟩
    · rw [tag, List.mapM_map]
      exact e3
  · intro k i t hm
    obtain ⟨l, hl, hm⟩ := List.mem_flatten.1 hm
    obtain ⟨i', hi, el⟩ := mapM_mem ef l hl
    simp only [Option.bind_eq_some_iff] at el
    obtain ⟨lit, e1, rs, e2, e3⟩ := el
    obtain ⟨⟨k', r, Γ'⟩, hr, e4⟩ := mapM_mem e3 _ hm
    simp only [Option.bind_eq_some_iff, Option.some.injEq, Prod.mk.injEq] at e4
    obtain ⟨t', e5, rfl, rfl, rfl⟩ := e4
    have := findReplacements_eq e2 hr
    simp [Clause.boolReductionAt, e1, this, e5]

theorem boolReductionAt_parts {K : KCtx} {fuel : Nat} {c : Clause} {k : BoolKind} {i : Nat} {t : Trace}
    (e : c.boolReductionAt fuel K k i = some t) : ∃ l r Γ', c.lits[i]? = some l ∧
      boolReplace fuel K c.ctx c.lits.length l k = some (r, Γ') ∧
      normalizeBoolReduction (replaceLit c.lits i r) Γ' c.ctx.length = some t := by
  simp only [Clause.boolReductionAt, Option.bind_eq_bind, Option.bind_eq_some_iff, Prod.exists] at e
  obtain ⟨l, e1, r, Γ', e2, e3⟩ := e
  exact ⟨l, r, Γ', e1, e2, e3⟩

end Spec
end Acorn
