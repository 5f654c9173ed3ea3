/-
Trees built by insertions: lemmas for C28.
-/
import Verif.Lemmas.PdtTyped
namespace Acorn
namespace Pdt

open Spec Term

variable {α σ : Type}

/-- A tree built by inserting the values with their keys in order. -/
structure Built (p : Tree α) (L : List (Key × α × LCtx)) : Prop where
  values : p.values = L.map fun e => e.2.1
  metadata : p.metadata = L.map fun e => e.2.2
  trie : ∀ k id, p.trie.get? k = some id ↔
    (L[id]?.map Prod.fst = some k ∧ ∀ j, id < j → L[j]?.map Prod.fst ≠ some k)

theorem Built.empty : Built (Tree.empty : Tree α) [] :=
  ⟨rfl, rfl, fun k id => by simp [Tree.empty]⟩

theorem Built.put {p : Tree α} {L : List (Key × α × LCtx)} (h : Built p L) (k : Key) (v : α) (Γ : LCtx) :
    Built (p.put k v Γ) (L ++ [(k, v, Γ)]) := by
  have hlen : p.values.length = L.length := by rw [h.values]; simp
  refine ⟨by simp [Tree.put, h.values], by simp [Tree.put, h.metadata], fun k' id => ?_⟩
  simp only [Tree.put, AMap.get?_insert, hlen]
  have old : ∀ j, j < L.length → (L ++ [(k, v, Γ)])[j]? = L[j]? := fun j hj => List.getElem?_append_left hj
  have new : (L ++ [(k, v, Γ)])[L.length]? = some (k, v, Γ) := by simp
  by_cases e : k' = k
  · subst e
    rw [if_pos rfl, Option.some.injEq]
    constructor
    · rintro rfl
      refine ⟨by rw [new]; rfl, fun j hj => ?_⟩
      rw [List.getElem?_eq_none (by simp; omega)]; simp
    · rintro ⟨h1, h2⟩
      rcases Nat.lt_trichotomy id L.length with hl | hl | hl
      · have := h2 L.length hl; rw [new] at this; simp at this
      · exact hl.symm
      · rw [List.getElem?_eq_none (by simp; omega)] at h1; simp at h1
  · rw [if_neg e, h.trie]
    constructor
    · rintro ⟨h1, h2⟩
      have hl : id < L.length := by
        cases hx : L[id]? with
        | none => rw [hx] at h1; simp at h1
        | some x => exact (List.getElem?_eq_some_iff.1 hx).1
      refine ⟨by rw [old id hl]; exact h1, fun j hj => ?_⟩
      rcases Nat.lt_trichotomy j L.length with hl | hl | hl
      · rw [old j hl]; exact h2 j hj
      · subst hl; rw [new]; simp; exact fun h => e h.symm
      · rw [List.getElem?_eq_none (by simp; omega)]; simp
    · rintro ⟨h1, h2⟩
      have hl : id < L.length := by
        rcases Nat.lt_trichotomy id L.length with hl | hl | hl
        · exact hl
        · subst hl; rw [new] at h1; simp at h1; exact absurd h1.symm e
        · rw [List.getElem?_eq_none (by simp; omega)] at h1; simp at h1
      refine ⟨by rw [← old id hl]; exact h1, fun j hj => ?_⟩
      by_cases hj' : j < L.length
      · rw [← old j hj']; exact h2 j hj
      · rw [List.getElem?_eq_none (by omega)]; simp

/-- What a stored id means. -/
theorem Built.entry {p : Tree α} {L : List (Key × α × LCtx)} (h : Built p L) {k : Key} {id : Nat}
    (hm : (k, id) ∈ p.trie.entries) : ∃ L1 L2 v P, L = L1 ++ (k, v, P) :: L2 ∧ (∀ e ∈ L2, e.1 ≠ k) ∧
      p.values[id]? = some v ∧ p.metadata[id]? = some P := by
  obtain ⟨h1, h2⟩ := (h.trie k id).1 (AMap.get?_eq_some.2 hm)
  rw [Option.map_eq_some_iff] at h1
  obtain ⟨⟨k', v, P⟩, hx, rfl⟩ := h1
  refine ⟨L.take id, L.drop (id + 1), v, P, ?_, fun e he => ?_, ?_, ?_⟩
  · obtain ⟨hl, hx⟩ := List.getElem?_eq_some_iff.1 hx
    rw [← hx, List.getElem_cons_drop, List.take_append_drop]
  · obtain ⟨i, hi⟩ := List.getElem?_of_mem he
    rw [List.getElem?_drop] at hi
    intro hk
    exact h2 (id + 1 + i) (by omega) (by rw [hi, ← hk]; rfl)
  · rw [h.values, List.getElem?_map, hx]; rfl
  · rw [h.metadata, List.getElem?_map, hx]; rfl

/-- The last insertion for a key is stored. -/
theorem Built.stored {p : Tree α} {L1 L2 : List (Key × α × LCtx)} {k : Key} {v : α} {P : LCtx}
    (h : Built p (L1 ++ (k, v, P) :: L2)) (h2 : ∀ e ∈ L2, e.1 ≠ k) :
    (k, L1.length) ∈ p.trie.entries ∧ p.values[L1.length]? = some v ∧ p.metadata[L1.length]? = some P := by
  refine ⟨AMap.get?_eq_some.1 ((h.trie _ _).2 ⟨by simp, fun j hj => ?_⟩), by rw [h.values]; simp,
    by rw [h.metadata]; simp⟩
  rw [List.getElem?_append_right (by omega)]
  obtain ⟨i, hi⟩ : ∃ i, j - L1.length = i + 1 := ⟨j - L1.length - 1, by omega⟩
  rw [hi, List.getElem?_cons_succ]
  cases hx : L2[i]? with
  | none => simp
  | some x => simp; exact h2 x (List.mem_of_getElem? hx)

theorem Built.ids {p : Tree α} {L : List (Key × α × LCtx)} (h : Built p L) : ∀ e ∈ p.trie.entries,
    e.2 < p.metadata.length ∧ e.2 < p.values.length ∧ ∃ x ∈ L, x.1 = e.1 := by
  rintro ⟨k, id⟩ he
  obtain ⟨L1, L2, v, P, rfl, h1, h2, h3⟩ := h.entry he
  exact ⟨(List.getElem?_eq_some_iff.1 h3).1, (List.getElem?_eq_some_iff.1 h2).1, (k, v, P), by simp, rfl⟩

/-! ### The first match -/

variable {K : KCtx} {fuel : Nat}

theorem first_sound {p : Tree α} {key : Key} {ts : List Term} {Γ : LCtx} {v : α} {rs : List Term}
    (hf : ∀ t ∈ ts, Fits t) (h : p.first K fuel key ts Γ = some (some (v, rs))) :
    ∃ id Γ' P, Hit (subtrie p.trie.entries key) key ts Γ [] id Γ' rs ∧ p.metadata[id]? = some P ∧
      p.values[id]? = some v ∧ verify K fuel P Γ' rs = some true := by
  simp only [Tree.first] at h
  split at h
  · cases h
  · cases h
  · rename_i id rs' b hfind
    split at h
    · cases h
    · rename_i v' hv
      simp only [Option.some.injEq, Prod.mk.injEq] at h
      obtain ⟨rfl, rfl⟩ := h
      have := find_keeps (I := fun o : Option (Nat × List Term) => ∀ id rs, o = some (id, rs) →
        ∃ Γ' P, Hit (subtrie p.trie.entries key) key ts Γ [] id Γ' rs ∧ p.metadata[id]? = some P ∧
          verify K fuel P Γ' rs = some true) stackLimit _ key ts Γ [] hf (by simp [stackLimit]) hfind ?_ ?_
      · obtain ⟨Γ', P, h1, h2, h3⟩ := this id rs' rfl
        exact ⟨id, Γ', P, h1, h2, hv, h3⟩
      · intro s1 id Γ' rs' P _ h1 h2 h3 id1 rs1 e
        simp only [firstMatch, Option.some.injEq, Prod.mk.injEq] at e
        obtain ⟨rfl, rfl⟩ := e
        exact ⟨Γ', P, h1, h2, h3⟩
      · intro id rs e; cases e

theorem first_complete {p : Tree α} {key : Key} {ts : List Term} {Γ : LCtx}
    (hf : ∀ t ∈ ts, Fits t) (hsz : (ts.map Term.size).sum < stackLimit)
    (h : p.first K fuel key ts Γ = some none) {id : Nat} {Γ' P : LCtx} {rs : List Term}
    (h1 : Hit (subtrie p.trie.entries key) key ts Γ [] id Γ' rs) (h2 : p.metadata[id]? = some P)
    (h3 : verify K fuel P Γ' rs = some true) : False := by
  simp only [Tree.first] at h
  split at h
  · cases h
  · rename_i b hfind
    cases b with
    | false =>
      obtain ⟨s1, id, _, rs', P, _, _, _, h⟩ := find_false stackLimit _ key ts Γ [] hf (by simp [stackLimit]) hsz hfind
      simp [firstMatch] at h
    | true =>
      have := find_true (Q := fun o : Option (Nat × List Term) => o.isSome = true) (fun s id rs _ => rfl)
        stackLimit _ key ts Γ [] hf (by simp [stackLimit]) (subtrie_nodup p.trie.nodup key) hfind h1 h2 h3
        (fun s _ => rfl)
      cases this
  · split at h <;> cases h

theorem first_total {p : Tree α} {key : Key} {ts : List Term} {Γ : LCtx} (hf : ∀ t ∈ ts, Fits t)
    (hi : Inv (subtrie p.trie.entries key) key ts.length)
    (hm : ∀ e ∈ p.trie.entries, e.2 < p.metadata.length ∧ e.2 < p.values.length)
    (h : p.first K fuel key ts Γ = none) :
    ∃ id Γ' rs P, Hit (subtrie p.trie.entries key) key ts Γ [] id Γ' rs ∧ p.metadata[id]? = some P ∧
      verify K fuel P Γ' rs = none := by
  simp only [Tree.first] at h
  split at h
  · rename_i hfind
    exact find_none stackLimit _ key ts Γ [] hf (by simp [stackLimit]) hi
      (fun e he => (hm e (mem_subtrie.1 he).1).1) hfind
  · cases h
  · rename_i id rs b hfind
    split at h
    · rename_i hv
      exfalso
      have := find_keeps (I := fun o : Option (Nat × List Term) => ∀ id rs, o = some (id, rs) →
        id < p.values.length) stackLimit _ key ts Γ [] hf (by simp [stackLimit]) hfind ?_ ?_
      · have := this id rs rfl
        rw [List.getElem?_eq_getElem this] at hv; cases hv
      · intro s1 id Γ' rs' P _ h1 _ _ id1 rs1 e
        simp only [firstMatch, Option.some.injEq, Prod.mk.injEq] at e
        obtain ⟨rfl, rfl⟩ := e
        obtain ⟨ps, k, _, _, hx, _⟩ := h1
        exact (hm _ (mem_subtrie.1 hx).1).2
      · intro id rs e; cases e
    · cases h

/-! ### Pairs -/

/-- The insertions of a history of pairs. -/
def pairLog (h : List (Term × Term × α × LCtx)) : List (Key × α × LCtx) :=
  h.map fun e => ((keyPair e.1 e.2.1).getD [], e.2.2.1, e.2.2.2)

theorem _root_.Acorn.Spec.PairTree.built {p : Tree α} {h : List (Term × Term × α × LCtx)} (hp : PairTree p h) :
    Built p (pairLog h) ∧ ∀ e ∈ h, (keyPair e.1 e.2.1).isSome = true := by
  induction hp with
  | empty => exact ⟨.empty, by simp⟩
  | @insert p p' h s t v P _ hi ih =>
    simp only [Tree.insertPair, Option.map_eq_some_iff] at hi
    obtain ⟨k, hk, rfl⟩ := hi
    refine ⟨?_, fun e he => ?_⟩
    · have := ih.1.put k v P
      simpa [pairLog, hk] using this
    · rcases List.mem_append.1 he with he | he
      · exact ih.2 e he
      · rw [List.mem_singleton.1 he]; simp [hk]

/-- A pair in the history of ids that fit has its own key. -/
theorem pair_key {h : List (Term × Term × α × LCtx)} (hk : ∀ e ∈ h, (keyPair e.1 e.2.1).isSome = true)
    {e : Term × Term × α × LCtx} (he : e ∈ h) : keyTerms [e.1, e.2.1] = some ((keyPair e.1 e.2.1).getD []) := by
  obtain ⟨k, hk⟩ := Option.isSome_iff_exists.1 (hk e he)
  rw [hk]; exact hk

theorem Hit.pair {p : Tree α} {h : List (Term × Term × α × LCtx)} (hp : PairTree p h)
    (hfit : ∀ e ∈ h, Fits e.1 ∧ Fits e.2.1) {s t : Term} {Γ Γ' : LCtx} {id : Nat} {rs : List Term}
    (hh : Hit (subtrie p.trie.entries []) [] [s, t] Γ [] id Γ' rs) :
    ∃ h1 h2 a b v P, h = h1 ++ (a, b, v, P) :: h2 ∧ (∀ e ∈ h2, (e.1, e.2.1) ≠ (a, b)) ∧
      p.values[id]? = some v ∧ p.metadata[id]? = some P ∧ Walk [a, b] [s, t] Γ [] Γ' rs := by
  obtain ⟨hb, hk⟩ := hp.built
  obtain ⟨ps, k, hps, hk1, hm, hw⟩ := hh
  rw [List.nil_append] at hm
  obtain ⟨L1, L2, v, P, hL, h2, h3, h4⟩ := hb.entry (mem_subtrie.1 hm).1
  obtain ⟨h1, h2', rfl, rfl, hL2⟩ := List.map_eq_append_iff.1 hL
  obtain ⟨⟨a, b, v', P'⟩, h2'', rfl, hx, rfl⟩ := List.map_eq_cons_iff.1 hL2
  simp only [Prod.mk.injEq] at hx
  obtain ⟨hx, rfl, rfl⟩ := hx
  have hmem : (a, b, v', P') ∈ h1 ++ (a, b, v', P') :: h2'' := by simp
  have hkey := pair_key hk hmem
  rw [hx] at hkey
  have hf := hfit _ hmem
  have e : ps = [a, b] := (keyTerms_inj _ ps [a, b] (Nat.le_refl _) hw.length hps
    (by simp; exact hf) hk1 hkey (r := []) (r' := []) rfl).1
  subst e
  refine ⟨h1, h2'', a, b, v', P', rfl, fun e he hc => ?_, h3, h4, hw⟩
  simp only [Prod.mk.injEq] at hc
  refine h2 _ (List.mem_map_of_mem he) ?_
  simp only [hc.1, hc.2]; exact hx

theorem Hit.of_pair {p : Tree α} {h1 h2 : List (Term × Term × α × LCtx)} {a b : Term} {v : α} {P : LCtx}
    (hp : PairTree p (h1 ++ (a, b, v, P) :: h2)) (hl : ∀ e ∈ h2, (e.1, e.2.1) ≠ (a, b))
    (hfit : ∀ e ∈ h1 ++ (a, b, v, P) :: h2, Fits e.1 ∧ Fits e.2.1)
    {s t : Term} {Γ Γ' : LCtx} {rs : List Term} (hw : Walk [a, b] [s, t] Γ [] Γ' rs) :
    Hit (subtrie p.trie.entries []) [] [s, t] Γ [] h1.length Γ' rs ∧ p.values[h1.length]? = some v ∧
      p.metadata[h1.length]? = some P := by
  obtain ⟨hb, hk⟩ := hp.built
  have hmem : (a, b, v, P) ∈ h1 ++ (a, b, v, P) :: h2 := by simp
  have hkey := pair_key hk hmem
  simp only [pairLog, List.map_append, List.map_cons] at hb
  obtain ⟨x1, x2, x3⟩ := hb.stored (fun e he => by
    obtain ⟨e', he', rfl⟩ := List.mem_map.1 he
    intro hc
    have hme : e' ∈ h1 ++ (a, b, v, P) :: h2 := by simp [he']
    have hk' := pair_key hk hme
    dsimp only at hc hkey
    rw [hc] at hk'
    have := (keyTerms_inj _ [e'.1, e'.2.1] [a, b] (Nat.le_refl _) rfl (by simp; exact hfit _ hme)
      (by simp; exact hfit _ hmem) hk' hkey (r := []) (r' := []) rfl).1
    simp only [List.cons.injEq, and_true] at this
    exact hl e' he' (by rw [this.1, this.2]))
  rw [List.length_map] at x1 x2 x3
  refine ⟨⟨[a, b], _, by simp; exact hfit _ hmem, hkey, ?_, hw⟩, x2, x3⟩
  rw [List.nil_append]
  exact mem_subtrie.2 ⟨x1, List.nil_prefix⟩

theorem _root_.Acorn.Spec.PairTree.inv {p : Tree α} {h : List (Term × Term × α × LCtx)} (hp : PairTree p h)
    (hfit : ∀ e ∈ h, Fits e.1 ∧ Fits e.2.1) : Inv (subtrie p.trie.entries []) [] 2 := by
  intro x hx
  obtain ⟨hb, hk⟩ := hp.built
  obtain ⟨_, _, y, hy, hxy⟩ := hb.ids x (mem_subtrie.1 hx).1
  obtain ⟨e, he, rfl⟩ := List.mem_map.1 hy
  exact Or.inl ⟨[e.1, e.2.1], _, rfl, by simp; exact hfit e he, pair_key hk he,
    by rw [List.nil_append]; exact hxy.symm⟩

/-- The last of the insertions of a pair, when they all have the same types. -/
theorem last_pair {a b : Term} {P : LCtx} : ∀ (l : List (Term × Term × α × LCtx)),
    (∃ x ∈ l, (x.1, x.2.1) = (a, b)) → (∀ x ∈ l, (x.1, x.2.1) = (a, b) → x.2.2.2 = P) →
    ∃ l1 v l2, l = l1 ++ (a, b, v, P) :: l2 ∧ ∀ e ∈ l2, (e.1, e.2.1) ≠ (a, b) := by
  intro l
  induction l with
  | nil => rintro ⟨x, hx, _⟩; cases hx
  | cons y l ih =>
    intro hy hP
    by_cases hin : ∃ x ∈ l, (x.1, x.2.1) = (a, b)
    · obtain ⟨l1, v, l2, rfl, h⟩ := ih hin fun x hx => hP x (by simp [hx])
      exact ⟨y :: l1, v, l2, rfl, h⟩
    · obtain ⟨x, hx, hxe⟩ := hy
      rcases List.mem_cons.1 hx with rfl | hx
      · have h1 := hP x (by simp) hxe
        obtain ⟨ya, yb, yv, yP⟩ := x
        simp only [Prod.mk.injEq] at hxe h1
        obtain ⟨rfl, rfl⟩ := hxe
        subst h1
        exact ⟨[], yv, l, rfl, fun e he hc => hin ⟨e, he, hc⟩⟩
      · exact absurd ⟨x, hx, hxe⟩ hin

/-! ### Clauses -/

/-- The insertions of a history of clauses. -/
def clauseLog (h : List (Clause × α)) : List (Key × α × LCtx) :=
  h.map fun e => ((keyClause e.1.lits).getD [], e.2, e.1.ctx)

theorem _root_.Acorn.Spec.ClauseTree.built {p : Tree α} {h : List (Clause × α)} (hp : ClauseTree p h) :
    Built p (clauseLog h) ∧ ∀ e ∈ h, (keyClause e.1.lits).isSome = true := by
  induction hp with
  | empty => exact ⟨.empty, by simp⟩
  | @insert p p' h c v _ hi ih =>
    simp only [Tree.insertClause, Option.map_eq_some_iff] at hi
    obtain ⟨k, hk, rfl⟩ := hi
    refine ⟨?_, fun e he => ?_⟩
    · have := ih.1.put k v c.ctx
      simpa [clauseLog, hk] using this
    · rcases List.mem_append.1 he with he | he
      · exact ih.2 e he
      · rw [List.mem_singleton.1 he]; simp [hk]

theorem keyClause_some {ls : List Literal} {k : Key} (h : keyClause ls = some k) :
    ∃ k', keyTerms (sides ls) = some k' ∧ k = signsKey ls ++ k' := by
  simp only [keyClause, Option.bind_eq_bind, Option.bind_eq_some_iff, Option.pure_def, Option.some.injEq] at h
  obtain ⟨k', h1, rfl⟩ := h
  exact ⟨k', h1, rfl⟩

theorem clause_key {h : List (Clause × α)} (hk : ∀ e ∈ h, (keyClause e.1.lits).isSome = true)
    {e : Clause × α} (he : e ∈ h) : ∃ k', keyTerms (sides e.1.lits) = some k' ∧
      (keyClause e.1.lits).getD [] = signsKey e.1.lits ++ k' := by
  obtain ⟨k, hk⟩ := Option.isSome_iff_exists.1 (hk e he)
  rw [hk]; exact keyClause_some hk

/-- The ids in the literals fit. -/
def LitsFit (ls : List Literal) : Prop := ∀ s ∈ sides ls, Fits s

theorem sides_length (ls : List Literal) : (sides ls).length = 2 * ls.length := by
  induction ls with
  | nil => rfl
  | cons l ls ih => simp only [sides, List.flatMap_cons, List.length_append, List.length_cons,
      List.length_nil] at ih ⊢; omega

theorem sides_cons {ls : List Literal} (h : ls ≠ []) (hf : LitsFit ls) : ∃ t ts, sides ls = t :: ts ∧ Fits t := by
  cases ls with
  | nil => exact absurd rfl h
  | cons l ls => exact ⟨l.left, _, rfl, hf _ (by simp [sides])⟩

/-- A clause key that continues the signs of a clause. -/
theorem clause_prefix : ∀ (ls ls' : List Literal) {k' r : Key}, ls ≠ [] → LitsFit ls' →
    keyTerms (sides ls') = some k' → signsKey ls ++ r = signsKey ls' ++ k' →
    (ls.map Literal.positive = ls'.map Literal.positive ∧ r = k') ∨
      ∃ b r', r = (Edge.literal b).bytes ++ r' := by
  -- generalize over what the right sides belong to
  have key : ∀ (ls ls' : List Literal) (ts : List Term) {k' r : Key}, keyTerms ts = some k' →
      (ls.length ≤ ls'.length ∨ ∃ t ts1, ts = t :: ts1 ∧ Fits t) → signsKey ls ++ r = signsKey ls' ++ k' →
      (ls.map Literal.positive = ls'.map Literal.positive ∧ r = k') ∨
        ∃ b r', r = (Edge.literal b).bytes ++ r' := by
    intro ls
    induction ls with
    | nil =>
      intro ls' ts k' r hk h1 h
      cases ls' with
      | nil => exact Or.inl ⟨rfl, h⟩
      | cons l' ls' =>
        simp only [signsKey, List.flatMap_nil, List.nil_append, List.flatMap_cons, List.append_assoc] at h
        exact Or.inr ⟨_, _, h⟩
    | cons l ls ih =>
      intro ls' ts k' r hk h1 h
      cases ls' with
      | nil =>
        rcases h1 with h1 | ⟨t, ts1, rfl, ht⟩
        · simp at h1
        · simp only [signsKey, List.flatMap_cons, List.flatMap_nil, List.nil_append, List.append_assoc] at h
          exact (not_sign ht hk _ (r := []) (by rw [List.append_nil]; exact h.symm)).elim
      | cons l' ls' =>
        simp only [signsKey, List.flatMap_cons, List.append_assoc] at h
        obtain ⟨he, h⟩ := bytes_inj (show (Edge.literal l.positive).Plain from trivial) trivial
          (show (Edge.literal l'.positive).Plain from trivial) trivial h
        simp only [Edge.literal.injEq] at he
        have h1' : ls.length ≤ ls'.length ∨ ∃ t ts1, ts = t :: ts1 ∧ Fits t :=
          h1.imp (fun h => by simpa using h) id
        rcases ih ls' ts hk h1' h with ⟨h3, h4⟩ | h3
        · exact Or.inl ⟨by simp [he, h3], h4⟩
        · exact Or.inr h3
  intro ls ls' k' r hne hf hk h
  by_cases hl : ls' = []
  · subst hl
    cases ls with
    | nil => exact absurd rfl hne
    | cons l ls =>
      simp only [sides, List.flatMap_nil, keyTerms, Option.some.injEq] at hk
      subst hk
      simp [signsKey, Edge.bytes] at h
  · exact key ls ls' _ hk (Or.inr (sides_cons hl hf)) h

theorem Hit.clause {p : Tree α} {h : List (Clause × α)} (hp : ClauseTree p h)
    (hfit : ∀ e ∈ h, LitsFit e.1.lits) {c : Clause} (hc : c.lits ≠ []) {Γ' : LCtx} {id : Nat}
    {rs : List Term}
    (hh : Hit (subtrie p.trie.entries (signsKey c.lits)) (signsKey c.lits) (sides c.lits) c.ctx [] id Γ' rs) :
    ∃ h1 h2 d v, h = h1 ++ (d, v) :: h2 ∧ (∀ e ∈ h2, e.1.lits ≠ d.lits) ∧ p.values[id]? = some v ∧
      p.metadata[id]? = some d.ctx ∧ c.lits.map Literal.positive = d.lits.map Literal.positive ∧
      Walk (sides d.lits) (sides c.lits) c.ctx [] Γ' rs := by
  obtain ⟨hb, hk⟩ := hp.built
  obtain ⟨ps, k, hps, hk1, hm, hw⟩ := hh
  obtain ⟨L1, L2, v, P, hL, h2, h3, h4⟩ := hb.entry (mem_subtrie.1 hm).1
  obtain ⟨h1, h2', rfl, rfl, hL2⟩ := List.map_eq_append_iff.1 hL
  obtain ⟨⟨d, v'⟩, h2'', rfl, hx, rfl⟩ := List.map_eq_cons_iff.1 hL2
  simp only [Prod.mk.injEq] at hx
  obtain ⟨hx, rfl, rfl⟩ := hx
  have hmem : (d, v') ∈ h1 ++ (d, v') :: h2'' := by simp
  obtain ⟨kd, hkd, hkey⟩ := clause_key hk hmem
  dsimp only at hkd hkey
  rw [hx] at hkey
  have hf : LitsFit d.lits := hfit _ hmem
  rcases clause_prefix c.lits d.lits hc hf hkd hkey with ⟨e1, e2⟩ | ⟨b, r, e⟩
  · have hlen : c.lits.length = d.lits.length := by simpa using congrArg List.length e1
    have e : ps = sides d.lits := (keyTerms_inj _ ps (sides d.lits) (Nat.le_refl _)
      (by rw [hw.length, sides_length, sides_length, hlen]) hps hf hk1 hkd (r := []) (r' := [])
      (by rw [e2])).1
    subst e
    refine ⟨h1, h2'', d, v', rfl, fun e he hce => ?_, h3, h4, e1, hw⟩
    refine h2 _ (List.mem_map_of_mem he) ?_
    dsimp only
    rw [hce]; exact hx
  · exfalso
    cases ps with
    | nil =>
      have := hw.length
      rw [sides_length] at this
      have : c.lits.length = 0 := by simp only [List.length_nil] at this; omega
      exact hc (List.length_eq_zero_iff.1 this)
    | cons q qs =>
      exact not_sign (hps q (by simp)) hk1 b (r := []) (r' := r) (by rw [List.append_nil, e])

theorem Hit.of_clause {p : Tree α} {h1 h2 : List (Clause × α)} {d : Clause} {v : α}
    (hp : ClauseTree p (h1 ++ (d, v) :: h2)) (hl : ∀ e ∈ h2, e.1.lits ≠ d.lits)
    (hfit : ∀ e ∈ h1 ++ (d, v) :: h2, LitsFit e.1.lits) {c : Clause} (hd : d.lits ≠ [])
    (hsign : c.lits.map Literal.positive = d.lits.map Literal.positive)
    {Γ' : LCtx} {rs : List Term} (hw : Walk (sides d.lits) (sides c.lits) c.ctx [] Γ' rs) :
    Hit (subtrie p.trie.entries (signsKey c.lits)) (signsKey c.lits) (sides c.lits) c.ctx [] h1.length Γ' rs ∧
      p.values[h1.length]? = some v ∧ p.metadata[h1.length]? = some d.ctx := by
  obtain ⟨hb, hk⟩ := hp.built
  have hmem : (d, v) ∈ h1 ++ (d, v) :: h2 := by simp
  obtain ⟨kd, hkd, hkey⟩ := clause_key hk hmem
  simp only [clauseLog, List.map_append, List.map_cons] at hb
  dsimp only at hkd hkey
  obtain ⟨x1, x2, x3⟩ := hb.stored (fun e he => by
    obtain ⟨e', he', rfl⟩ := List.mem_map.1 he
    intro hc
    have hme : e' ∈ h1 ++ (d, v) :: h2 := by simp [he']
    obtain ⟨ke, hke, hkey'⟩ := clause_key hk hme
    dsimp only at hc
    rw [hkey', hkey] at hc
    have hf' : LitsFit e'.1.lits := hfit _ hme
    have hf : LitsFit d.lits := hfit _ hmem
    rcases clause_prefix d.lits e'.1.lits hd hf' hke hc.symm with ⟨e1, e2⟩ | ⟨b, r, e⟩
    · have hlen : d.lits.length = e'.1.lits.length := by simpa using congrArg List.length e1
      have := (keyTerms_inj _ (sides e'.1.lits) (sides d.lits) (Nat.le_refl _)
        (by rw [sides_length, sides_length, hlen]) hf' hf hke hkd (r := []) (r' := []) (by rw [e2])).1
      exact hl e' he' (sides_eq e1.symm this)
    · obtain ⟨t, ts, ht, hft⟩ := sides_cons hd hf
      rw [ht] at hkd
      exact not_sign hft hkd b (r := []) (r' := r) (by rw [List.append_nil, e]))
  rw [List.length_map] at x1 x2 x3
  have es : signsKey c.lits = signsKey d.lits := by
    have : ∀ ls : List Literal, signsKey ls = (ls.map Literal.positive).flatMap fun b => (Edge.literal b).bytes :=
      fun ls => by simp [signsKey, List.flatMap_map]
    rw [this, this, hsign]
  rw [hkey] at x1
  refine ⟨⟨sides d.lits, kd, hfit _ hmem, hkd, ?_, hw⟩, x2, x3⟩
  rw [es]
  exact mem_subtrie.2 ⟨x1, List.prefix_append _ _⟩

theorem _root_.Acorn.Spec.ClauseTree.inv {p : Tree α} {h : List (Clause × α)} (hp : ClauseTree p h)
    (hfit : ∀ e ∈ h, LitsFit e.1.lits) {c : Clause} (hc : c.lits ≠ []) :
    Inv (subtrie p.trie.entries (signsKey c.lits)) (signsKey c.lits) (sides c.lits).length := by
  intro x hx
  obtain ⟨hb, hk⟩ := hp.built
  obtain ⟨hx1, hx2⟩ := mem_subtrie.1 hx
  obtain ⟨_, _, y, hy, hxy⟩ := hb.ids x hx1
  obtain ⟨e, he, rfl⟩ := List.mem_map.1 hy
  obtain ⟨ke, hke, hkey⟩ := clause_key hk he
  dsimp only at hxy
  obtain ⟨r, hr⟩ := hx2
  rw [← hxy, hkey] at hr
  rcases clause_prefix c.lits e.1.lits hc (hfit e he) hke hr with ⟨e1, e2⟩ | ⟨b, r', e'⟩
  · have hlen : c.lits.length = e.1.lits.length := by simpa using congrArg List.length e1
    exact Or.inl ⟨sides e.1.lits, ke, by rw [sides_length, sides_length, hlen], hfit e he, hke,
      by rw [← hxy, hkey, ← hr, e2]⟩
  · refine Or.inr ⟨?_, b, r', by rw [← hxy, hkey, ← hr, e']⟩
    rw [sides_length]
    have : c.lits.length ≠ 0 := fun h => hc (List.length_eq_zero_iff.1 h)
    omega

end Pdt
end Acorn
