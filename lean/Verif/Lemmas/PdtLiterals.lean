/-
Trees of terms and sets of literals: lemmas for C28.
-/
import Verif.Lemmas.PdtTree
import Verif.Lemmas.VarIds
namespace Acorn
namespace Pdt

open Spec Term

variable {α σ : Type}

/-! ### Terms with all their values -/

/-- What a tree of terms stores. -/
structure TBuilt (p : Tree (List α)) (h : List (Term × α × LCtx)) : Prop where
  len : p.values.length = p.metadata.length
  entry : ∀ k id, p.trie.get? k = some id → ∃ t h1 h2 v P, keyTerm t = some k ∧ h = h1 ++ (t, v, P) :: h2 ∧
    (∀ e ∈ h1, e.1 ≠ t) ∧ p.values[id]? = some ((h.filter fun e => decide (e.1 = t)).map fun e => e.2.1) ∧
    p.metadata[id]? = some P
  stored : ∀ e ∈ h, ∃ k id, keyTerm e.1 = some k ∧ p.trie.get? k = some id
  inj : ∀ k k' id, p.trie.get? k = some id → p.trie.get? k' = some id → k = k'

theorem keyTerm_inj {s t : Term} (hs : Fits s) (ht : Fits t) {k : Key} (h : keyTerm s = some k)
    (h' : keyTerm t = some k) : s = t := by
  have := (keyTerms_inj _ [s] [t] (Nat.le_refl _) rfl (by simpa using hs) (by simpa using ht)
    (by rw [keyTerm_single]; exact h) (by rw [keyTerm_single]; exact h') (r := []) (r' := []) rfl).1
  simpa using this

theorem _root_.Acorn.Spec.TermTree.built {p : Tree (List α)} {h : List (Term × α × LCtx)} (hp : TermTree p h)
    (hfit : ∀ e ∈ h, Fits e.1) : TBuilt p h := by
  induction hp with
  | empty => exact ⟨rfl, by simp [Tree.empty], by simp, by simp [Tree.empty]⟩
  | @insert p p' h t v P _ hi ih =>
    have ih := ih fun e he => hfit e (by simp [he])
    have ht : Fits t := hfit (t, v, P) (by simp)
    simp only [Tree.insertOrAppend, Option.map_eq_some_iff] at hi
    obtain ⟨k, hk, hi⟩ := hi
    split at hi
    · rename_i id hid
      subst hi
      have same : ∃ h1 h2 v0 P0, h = h1 ++ (t, v0, P0) :: h2 ∧ (∀ e ∈ h1, e.1 ≠ t) ∧
          p.values[id]? = some ((h.filter fun e => decide (e.1 = t)).map fun e => e.2.1) ∧
          p.metadata[id]? = some P0 := by
        obtain ⟨t0, h1, h2, v0, P0, hk0, rfl, x⟩ := ih.entry k id hid
        have : t0 = t := keyTerm_inj (hfit (t0, v0, P0) (by simp)) ht hk0 hk
        subst this
        exact ⟨h1, h2, v0, P0, rfl, x⟩
      refine ⟨by simp [ih.len], fun k' id' hid' => ?_, fun e he => ?_, ih.inj⟩
      · by_cases hc : id' = id
        · subst hc
          have := ih.inj _ _ _ hid hid'
          subst this
          obtain ⟨h1, h2, v0, P0, hh, x1, x2, x3⟩ := same
          refine ⟨t, h1, h2 ++ [(t, v, P)], v0, P0, hk, by rw [hh]; simp, x1, ?_, x3⟩
          simp [x2]
        · obtain ⟨t0, h1, h2, v0, P0, hk0, hh, x1, x2, x3⟩ := ih.entry k' id' hid'
          have hne : t ≠ t0 := by
            rintro rfl
            rw [hk] at hk0
            cases hk0
            rw [hid] at hid'
            exact hc (Option.some.inj hid').symm
          refine ⟨t0, h1, h2 ++ [(t, v, P)], v0, P0, hk0, by rw [hh]; simp, x1, ?_, x3⟩
          simp only [List.getElem?_modify, List.filter_append, List.map_append]
          have hc' : id ≠ id' := fun h => hc h.symm
          simp [x2, hne, hc']
      · rcases List.mem_append.1 he with he | he
        · exact ih.stored e he
        · rw [List.mem_singleton.1 he]; exact ⟨k, id, hk, hid⟩
    · rename_i hid
      subst hi
      have new : ∀ e ∈ h, e.1 ≠ t := by
        rintro e he rfl
        obtain ⟨k', id, h1, h2⟩ := ih.stored e he
        rw [hk] at h1; cases h1
        rw [hid] at h2; cases h2
      have below : ∀ k' id', p.trie.get? k' = some id' → id' < p.values.length := by
        intro k' id' h'
        obtain ⟨_, _, _, _, _, _, _, _, x, _⟩ := ih.entry k' id' h'
        exact (List.getElem?_eq_some_iff.1 x).1
      refine ⟨by simp [Tree.put, ih.len], fun k' id' hid' => ?_, fun e he => ?_, fun k1 k2 id h1 h2 => ?_⟩
      · simp only [Tree.put, AMap.get?_insert] at hid' ⊢
        split at hid'
        · rename_i hkk
          subst hkk
          cases hid'
          refine ⟨t, h, [], v, P, hk, rfl, new, ?_, by rw [ih.len]; simp⟩
          have : h.filter (fun e => decide (e.1 = t)) = [] := by
            rw [List.filter_eq_nil_iff]; intro e he; simpa using new e he
          simp [this]
        · rename_i hkk
          obtain ⟨t0, h1, h2, v0, P0, hk0, hh, x1, x2, x3⟩ := ih.entry k' id' hid'
          have hne : t ≠ t0 := by
            rintro rfl
            rw [hk] at hk0; cases hk0
            exact hkk rfl
          have hl := below k' id' hid'
          refine ⟨t0, h1, h2 ++ [(t, v, P)], v0, P0, hk0, by rw [hh]; simp, x1, ?_, ?_⟩
          · rw [List.getElem?_append_left hl]
            simp [x2, hne]
          · rw [List.getElem?_append_left (by rw [← ih.len]; exact hl)]; exact x3
      · simp only [Tree.put, AMap.get?_insert]
        rcases List.mem_append.1 he with he | he
        · obtain ⟨k', id, h1, h2⟩ := ih.stored e he
          refine ⟨k', ?_⟩
          by_cases hc : k' = k
          · subst hc; exact ⟨p.values.length, h1, by simp⟩
          · exact ⟨id, h1, by rw [if_neg hc]; exact h2⟩
        · rw [List.mem_singleton.1 he]; exact ⟨k, p.values.length, hk, by simp⟩
      · simp only [Tree.put, AMap.get?_insert] at h1 h2
        split at h1 <;> split at h2
        · rename_i e1 e2; rw [e1, e2]
        · cases h1; exact absurd (below _ _ h2) (by omega)
        · cases h2; exact absurd (below _ _ h1) (by omega)
        · exact ih.inj _ _ _ h1 h2

theorem Hit.term {p : Tree (List α)} {h : List (Term × α × LCtx)} (hp : TermTree p h)
    (hfit : ∀ e ∈ h, Fits e.1) {s : Term} {Γ Γ' : LCtx} {id : Nat} {rs : List Term}
    (hh : Hit (subtrie p.trie.entries []) [] [s] Γ [] id Γ' rs) :
    ∃ t h1 h2 v P, h = h1 ++ (t, v, P) :: h2 ∧ (∀ e ∈ h1, e.1 ≠ t) ∧
      p.values[id]? = some ((h.filter fun e => decide (e.1 = t)).map fun e => e.2.1) ∧
      p.metadata[id]? = some P ∧ Walk [t] [s] Γ [] Γ' rs := by
  obtain ⟨ps, k, hps, hk1, hm, hw⟩ := hh
  rw [List.nil_append] at hm
  obtain ⟨t, h1, h2, v, P, hk, rfl, x1, x2, x3⟩ := (hp.built hfit).entry k id
    (AMap.get?_eq_some.2 (mem_subtrie.1 hm).1)
  have e : ps = [t] := (keyTerms_inj _ ps [t] (Nat.le_refl _) hw.length hps
    (by simpa using hfit (t, v, P) (by simp)) hk1 (by rw [keyTerm_single]; exact hk) (r := []) (r' := []) rfl).1
  subst e
  exact ⟨t, h1, h2, v, P, rfl, x1, x2, x3, hw⟩

theorem Hit.of_term {p : Tree (List α)} {h1 h2 : List (Term × α × LCtx)} {t : Term} {v : α} {P : LCtx}
    (hp : TermTree p (h1 ++ (t, v, P) :: h2)) (hn : ∀ e ∈ h1, e.1 ≠ t)
    (hfit : ∀ e ∈ h1 ++ (t, v, P) :: h2, Fits e.1) {s : Term} {Γ Γ' : LCtx} {rs : List Term}
    (hw : Walk [t] [s] Γ [] Γ' rs) :
    ∃ id, Hit (subtrie p.trie.entries []) [] [s] Γ [] id Γ' rs ∧ p.metadata[id]? = some P ∧
      p.values[id]? = some (((h1 ++ (t, v, P) :: h2).filter fun e => decide (e.1 = t)).map fun e => e.2.1) := by
  have hb := hp.built hfit
  obtain ⟨k, id, hk, hid⟩ := hb.stored (t, v, P) (by simp)
  obtain ⟨t0, h1', h2', v', P', hk0, hh, x1, x2, x3⟩ := hb.entry k id hid
  have ht : Fits t := hfit (t, v, P) (by simp)
  have e : t0 = t := keyTerm_inj (hfit (t0, v', P') (by rw [hh]; simp)) ht hk0 hk
  subst e
  have hPP : P' = P := by
    rcases List.append_eq_append_iff.1 hh with ⟨z, e1, e2⟩ | ⟨z, e1, e2⟩
    · cases z with
      | nil => simp only [List.nil_append, List.cons.injEq, Prod.mk.injEq] at e2; exact e2.1.2.2.symm
      | cons y z =>
        simp only [List.cons_append, List.cons.injEq] at e2
        exact absurd (by rw [← e2.1]) (x1 y (by rw [e1]; simp))
    · cases z with
      | nil => simp only [List.nil_append, List.cons.injEq, Prod.mk.injEq] at e2; exact e2.1.2.2
      | cons y z =>
        simp only [List.cons_append, List.cons.injEq] at e2
        exact absurd (by rw [← e2.1]) (hn y (by rw [e1]; simp))
  subst hPP
  refine ⟨id, ⟨[t0], k, by simpa using ht, by rw [keyTerm_single]; exact hk, ?_, hw⟩, x3, x2⟩
  rw [List.nil_append]
  exact mem_subtrie.2 ⟨AMap.get?_eq_some.1 hid, List.nil_prefix⟩

theorem _root_.Acorn.Spec.TermTree.inv {p : Tree (List α)} {h : List (Term × α × LCtx)} (hp : TermTree p h)
    (hfit : ∀ e ∈ h, Fits e.1) : Inv (subtrie p.trie.entries []) [] 1 ∧
      ∀ e ∈ p.trie.entries, e.2 < p.metadata.length := by
  have hb := hp.built hfit
  constructor
  · rintro ⟨k, id⟩ hx
    obtain ⟨t, h1, h2, v, P, hk, rfl, _⟩ := hb.entry k id (AMap.get?_eq_some.2 (mem_subtrie.1 hx).1)
    exact Or.inl ⟨[t], k, rfl, by simpa using hfit (t, v, P) (by simp), by rw [keyTerm_single]; exact hk, rfl⟩
  · rintro ⟨k, id⟩ hx
    obtain ⟨t, h1, h2, v, P, hk, rfl, _, _, x⟩ := hb.entry k id (AMap.get?_eq_some.2 hx)
    exact (List.getElem?_eq_some_iff.1 x).1

/-! ### Literals -/

/-- The pairs stored for a literal. -/
def literalPairs (l : Literal) (id : Nat) (P : LCtx) : List (Term × Term × Entry × LCtx) :=
  (l.left, l.right, ⟨l.positive, id, false, []⟩, P) ::
    match strictKbo l, normalizedReversed l P with
    | some false, some (r, a, P', ids) => [(r, a, ⟨l.positive, id, true, ids⟩, P')]
    | _, _ => []

theorem insertLiteral_eq {p p' : Tree Entry} {l : Literal} {id : Nat} {P : LCtx}
    {H : List (Term × Term × Entry × LCtx)} (hp : PairTree p H) (h : insertLiteral p l id P = some p') :
    PairTree p' (H ++ literalPairs l id P) ∧ (strictKbo l = some true ∨
      strictKbo l = some false ∧ (normalizedReversed l P).isSome = true) := by
  simp only [insertLiteral, Option.bind_eq_bind, Option.bind_eq_some_iff] at h
  obtain ⟨p1, h1, b, h2, h3⟩ := h
  have hp1 := PairTree.insert hp h1
  cases b with
  | true =>
    simp only [if_true, Option.pure_def, Option.some.injEq] at h3
    subst h3
    exact ⟨by simpa [literalPairs, h2] using hp1, Or.inl h2⟩
  | false =>
    simp only [Bool.false_eq_true, if_false, Option.bind_eq_some_iff] at h3
    obtain ⟨⟨r, a, P', ids⟩, h4, h5⟩ := h3
    have hp2 := PairTree.insert hp1 h5
    exact ⟨by simpa [literalPairs, h2, h4] using hp2, Or.inr ⟨h2, by simp [h4]⟩⟩

theorem _root_.Acorn.Spec.LiteralTree.pairs {p : Tree Entry} {h : List (Literal × Nat × LCtx)}
    (hp : LiteralTree p h) : PairTree p (h.flatMap fun e => literalPairs e.1 e.2.1 e.2.2) := by
  induction hp with
  | empty => exact .empty
  | insert _ hi ih => simpa using (insertLiteral_eq ih hi).1

theorem setAll_spec : ∀ (is : List Nat) (ts : List Term) (m : VMap), ts.length ≤ is.length → is.Nodup →
    ∃ m', setAll is ts m = some m' ∧ (∀ (k i : Nat) (t : Term), is[k]? = some i → ts[k]? = some t → m'.get i = some t) ∧
      ∀ j, j ∉ is → m'.get j = m.get j := by
  intro is
  induction is with
  | nil =>
    intro ts m hl _
    cases ts with
    | nil => exact ⟨m, rfl, by simp, fun _ _ => rfl⟩
    | cons t ts => simp at hl
  | cons i is ih =>
    intro ts m hl hn
    cases ts with
    | nil => exact ⟨m, rfl, by simp, fun _ _ => rfl⟩
    | cons t ts =>
      simp only [List.nodup_cons] at hn
      obtain ⟨m', h1, h2, h3⟩ := ih ts (setSlot m i t) (by simpa using hl) hn.2
      refine ⟨m', h1, fun k j u hj hu => ?_, fun j hj => ?_⟩
      · cases k with
        | zero =>
          simp only [List.getElem?_cons_zero, Option.some.injEq] at hj hu
          subst hj; subst hu
          rw [h3 i hn.1, VMap.get_set, if_pos rfl]
        | succ k => exact h2 k j u (by simpa using hj) (by simpa using hu)
      · simp only [List.mem_cons, not_or] at hj
        rw [h3 j hj.2, VMap.get_set, if_neg hj.1]

/-- Every number below the count occurs. -/
theorem numbered_all : ∀ (vs : List Nat) (n m : Nat), numbered n vs = some m →
    n ≤ m ∧ (∀ k, n ≤ k → k < m → k ∈ vs) ∧ ∀ k ∈ vs, k < m := by
  intro vs
  induction vs with
  | nil => intro n m h; simp only [numbered, Option.some.injEq] at h; subst h; exact ⟨Nat.le_refl _, by omega, by simp⟩
  | cons v vs ih =>
    intro n m h
    simp only [numbered] at h
    split at h
    · rename_i hv
      obtain ⟨h1, h2, h3⟩ := ih _ _ h
      exact ⟨h1, fun k hk hk' => List.mem_cons_of_mem _ (h2 k hk hk'), fun k hk => by
        rcases List.mem_cons.1 hk with rfl | hk
        · omega
        · exact h3 k hk⟩
    · split at h
      · rename_i hv
        subst hv
        obtain ⟨h1, h2, h3⟩ := ih _ _ h
        refine ⟨by omega, fun k hk hk' => ?_, fun k hk => ?_⟩
        · by_cases e : k = v
          · subst e; simp
          · exact List.mem_cons_of_mem _ (h2 k (by omega) hk')
        · rcases List.mem_cons.1 hk with rfl | hk
          · omega
          · exact h3 k hk
      · cases h

theorem apply_byIds {m : VMap} {ids : List Nat} {rs : List Term} (t : Term)
    (ht : ∀ i, t.hasVar i = true → i ∈ ids)
    (hm : ∀ (k i : Nat) (r : Term), ids[k]? = some i → rs[k]? = some r → m.get i = some r)
    (hlt : ∀ k ∈ (t.byIds ids).fvars, k < rs.length) : m.apply t = instantiate rs (t.byIds ids) := by
  induction t with
  | atom a =>
    cases a with
    | fvar i =>
      have hi := ht i (by simp [hv_fvar])
      have hk : ids.idxOf i < rs.length := hlt _ (by simp [Term.byIds, Term.fvars, Term.atoms])
      have h1 : ids[ids.idxOf i]? = some i := by
        rw [List.getElem?_eq_getElem (List.idxOf_lt_length_iff.2 hi)]; simp
      have h2 : rs[ids.idxOf i]? = some rs[ids.idxOf i] := List.getElem?_eq_getElem hk
      have := hm _ _ _ h1 h2
      simp [VMap.apply, this, Term.byIds, instantiate, h2]
    | _ => rfl
  | app f a ihf iha =>
    simp only [Term.byIds, vmap_app, fvars_app, List.mem_append] at hlt
    simp only [VMap.apply, Term.byIds, vmap_app, instantiate]
    rw [ihf (fun i hi => ht i (hv_app.2 (.inl hi))) fun k hk => hlt k (.inl hk),
      iha (fun i hi => ht i (hv_app.2 (.inr hi))) fun k hk => hlt k (.inr hk)]
  | bind b f a ihf iha =>
    simp only [Term.byIds, vmap_bind, fvars_bind, List.mem_append] at hlt
    simp only [VMap.apply, Term.byIds, vmap_bind, instantiate]
    rw [ihf (fun i hi => ht i (hv_bind.2 (.inl hi))) fun k hk => hlt k (.inl hk),
      iha (fun i hi => ht i (hv_bind.2 (.inr hi))) fun k hk => hlt k (.inr hk)]

theorem byIds_range (n : Nat) (t : Term) (h : ∀ i, t.hasVar i = true → i < n) : t.byIds (List.range n) = t := by
  induction t with
  | atom a =>
    cases a with
    | fvar i =>
      have hi : i < n := h i (by simp [hv_fvar])
      have : (List.range n).idxOf i = i := by
        have h0 : (List.range n).idxOf i < (List.range n).length := List.idxOf_lt_length_iff.2 (by simpa using hi)
        have h1 := List.getElem_idxOf h0
        rwa [List.getElem_range] at h1
      simp [Term.byIds, this]
    | _ => rfl
  | app f a ihf iha =>
    have h1 := ihf fun i hi => h i (hv_app.2 (.inl hi))
    have h2 := iha fun i hi => h i (hv_app.2 (.inr hi))
    simp only [Term.byIds] at h1 h2
    simp only [Term.byIds, vmap_app, h1, h2]
  | bind b f a ihf iha =>
    have h1 := ihf fun i hi => h i (hv_bind.2 (.inl hi))
    have h2 := iha fun i hi => h i (hv_bind.2 (.inr hi))
    simp only [Term.byIds] at h1 h2
    simp only [Term.byIds, vmap_bind, h1, h2]

theorem fvars_byIds_lt {t : Term} {ids : List Nat} (ht : ∀ i, t.hasVar i = true → i ∈ ids) :
    ∀ k ∈ (t.byIds ids).fvars, k < ids.length := by
  induction t with
  | atom a =>
    cases a with
    | fvar i =>
      have hi := ht i (by simp [hv_fvar])
      have := List.idxOf_lt_length_iff.2 hi
      simpa [Term.byIds, Term.fvars, Term.atoms] using this
    | _ => intro k hk; simp [Term.byIds, vmap, sub, Term.fvars, Term.atoms, bid] at hk
  | app f a ihf iha =>
    simp only [Term.byIds, vmap_app, fvars_app, List.mem_append]
    rintro k (hk | hk)
    · exact ihf (fun i hi => ht i (hv_app.2 (.inl hi))) k hk
    · exact iha (fun i hi => ht i (hv_app.2 (.inr hi))) k hk
  | bind b f a ihf iha =>
    simp only [Term.byIds, vmap_bind, fvars_bind, List.mem_append]
    rintro k (hk | hk)
    · exact ihf (fun i hi => ht i (hv_bind.2 (.inl hi))) k hk
    · exact iha (fun i hi => ht i (hv_bind.2 (.inr hi))) k hk

theorem normalizedReversed_spec {l : Literal} {P P' : LCtx} {r a : Term} {ids : List Nat}
    (h : normalizedReversed l P = some (r, a, P', ids)) : ids.Nodup ∧ r = l.right.byIds ids ∧
      a = l.left.byIds ids ∧ (∀ i, l.right.hasVar i = true → i ∈ ids) ∧ (∀ i, l.left.hasVar i = true → i ∈ ids) := by
  simp only [normalizedReversed, Option.bind_eq_bind, Option.bind_eq_some_iff, Option.pure_def,
    Option.some.injEq, Prod.mk.injEq] at h
  obtain ⟨⟨r1, ids1⟩, h1, ⟨a1, ids2⟩, h2, P1, h3, rfl, rfl, rfl, rfl⟩ := h
  obtain ⟨x1, x2, x3, x4⟩ := normVars_spec _ _ _ _ h1
  obtain ⟨y1, y2, y3, y4⟩ := normVars_spec _ _ _ _ h2
  exact ⟨y3 (x3 List.nodup_nil), by rw [x4]; exact (byIds_prefix y1 x2).symm, y4, fun i hi => y1.subset (x2 i hi), y2⟩

/-- The map built from the replacements turns the stored literal into the query. -/
theorem literal_map {l : Literal} {id : Nat} {P : LCtx} {e : Term × Term × Entry × LCtx}
    (he : e ∈ literalPairs l id P) {s t : Term} {Γ Γ' : LCtx} {rs : List Term}
    (hw : Walk [e.1, e.2.1] [s, t] Γ [] Γ' rs) :
    e.2.2.1.sign = l.positive ∧ e.2.2.1.id = id ∧
    ∃ m, setAll (if e.2.2.1.flipped then e.2.2.1.reversedIds else List.range rs.length) rs [] = some m ∧
      m.apply l.left = (if e.2.2.1.flipped then t else s) ∧
      m.apply l.right = (if e.2.2.1.flipped then s else t) := by
  obtain ⟨_, hi, hnum, _⟩ := hw.spec
  simp only [List.map_cons, List.map_nil, List.cons.injEq, and_true] at hi
  obtain ⟨_, hall, hlt⟩ := numbered_all _ _ _ hnum
  simp only [List.flatMap_cons, List.flatMap_nil, List.append_nil, List.mem_append] at hall hlt
  simp only [literalPairs, List.mem_cons] at he
  rcases he with rfl | he
  · refine ⟨rfl, rfl, ?_⟩
    simp only [Bool.false_eq_true, if_false]
    obtain ⟨m, h1, h2, _⟩ := setAll_spec (List.range rs.length) rs [] (by simp) List.nodup_range
    dsimp only at hi hlt
    have key : ∀ u : Term, (∀ k, k ∈ u.fvars → k < rs.length) → m.apply u = instantiate rs u := by
      intro u hu
      have hb := byIds_range rs.length u fun i hi => hu i (mem_fvars.2 hi)
      have := apply_byIds (m := m) (ids := List.range rs.length) (rs := rs) u
        (fun i hi => by simpa using hu i (mem_fvars.2 hi)) h2 (by rw [hb]; exact hu)
      rw [this, hb]
    exact ⟨m, h1, by rw [key _ fun k hk => hlt k (.inl hk), hi.1], by rw [key _ fun k hk => hlt k (.inr hk), hi.2]⟩
  · split at he
    · rename_i r a P' ids hs hn
      simp only [List.mem_singleton] at he
      subst he
      refine ⟨rfl, rfl, ?_⟩
      obtain ⟨n1, rfl, rfl, n4, n5⟩ := normalizedReversed_spec hn
      simp only [if_true]
      dsimp only at hi hlt hall
      have hle : rs.length ≤ ids.length := by
        cases hr : rs.length with
        | zero => omega
        | succ n =>
          rcases hall n (by simp) (by omega) with h | h
          · have := fvars_byIds_lt n4 n h; omega
          · have := fvars_byIds_lt n5 n h; omega
      obtain ⟨m, h1, h2, _⟩ := setAll_spec ids rs [] hle n1
      exact ⟨m, h1, by rw [apply_byIds _ n5 h2 fun k hk => hlt k (.inr hk), hi.2],
        by rw [apply_byIds _ n4 h2 fun k hk => hlt k (.inl hk), hi.1]⟩
    · cases he

end Pdt
end Acorn
