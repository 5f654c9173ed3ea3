/-
The search in a discrimination tree: lemmas for C28.
-/
import Verif.Lemmas.PdtKeys
namespace Acorn
namespace Pdt

open Spec

variable {α σ : Type}

/-- The matches the search is after: patterns and query terms are walked through together, from left to
right, with the context and the replacements before and after. -/
inductive Walk : List Term → List Term → LCtx → List Term → LCtx → List Term → Prop
  | nil (Γ : LCtx) (rs : List Term) : Walk [] [] Γ rs Γ rs
  | back {i : Nat} {t : Term} {ps ts rs rs' : List Term} {Γ Γ' : LCtx} : rs[i]? = some t →
      Walk ps ts Γ rs Γ' rs' → Walk (.fvar i :: ps) (t :: ts) Γ rs Γ' rs'
  | fresh {t : Term} {ps ts rs rs' : List Term} {Γ Γ' : LCtx} :
      Walk ps ts Γ (rs ++ [t]) Γ' rs' → Walk (.fvar rs.length :: ps) (t :: ts) Γ rs Γ' rs'
  | same {a : Atom} {ps ts rs rs' : List Term} {Γ Γ' : LCtx} : (∀ i, a ≠ .fvar i) →
      Walk ps ts Γ rs Γ' rs' → Walk (.atom a :: ps) (.atom a :: ts) Γ rs Γ' rs'
  | app {f a f' a' : Term} {ps ts rs rs' : List Term} {Γ Γ' : LCtx} :
      Walk (f :: a :: ps) (f' :: a' :: ts) Γ rs Γ' rs' →
      Walk (.app f a :: ps) (.app f' a' :: ts) Γ rs Γ' rs'
  | bind {b : Binder} {A B A' B' : Term} {ps ts rs rs' : List Term} {Γ Γ' : LCtx} :
      Walk (A :: B :: ps) (A' :: B' :: ts) (Γ.pushTy A') rs Γ' rs' →
      Walk (.bind b A B :: ps) (.bind b A' B' :: ts) Γ rs Γ' rs'

theorem Walk.length {ps ts rs rs' : List Term} {Γ Γ' : LCtx} (h : Walk ps ts Γ rs Γ' rs') :
    ps.length = ts.length := by
  induction h <;> simp_all

theorem fits_atom {a : Atom} : Fits (.atom a) ↔ AtomFits a := by simp [Fits, Term.atoms]

/-- An entry whose pattern the query is an instance of. -/
def Hit (es : List (Key × Nat)) (key : Key) (ts : List Term) (Γ : LCtx) (rs : List Term) (id : Nat)
    (Γ' : LCtx) (rs' : List Term) : Prop :=
  ∃ ps k, (∀ p ∈ ps, Fits p) ∧ keyTerms ps = some k ∧ (key ++ k, id) ∈ es ∧ Walk ps ts Γ rs Γ' rs'

/-- Every entry continues the key by the key of `m` patterns, or by the sign of a literal. -/
def Inv (es : List (Key × Nat)) (key : Key) (m : Nat) : Prop :=
  ∀ e ∈ es, (∃ ps k, ps.length = m ∧ (∀ p ∈ ps, Fits p) ∧ keyTerms ps = some k ∧ e.1 = key ++ k) ∨
    (0 < m ∧ ∃ b r, e.1 = key ++ ((Edge.literal b).bytes ++ r))

/-- Number of subterms after an edge. -/
def Edge.arity : Edge → Nat
  | .application | .arrow | .lambda | .forAll | .exists_ => 2
  | _ => 0

theorem root_arity {t : Term} {e : Edge} {cs : List Term} (h : root t = some (e, cs)) : cs.length = e.arity := by
  cases t with
  | atom a =>
    simp only [root, Option.map_eq_some_iff, Prod.mk.injEq] at h
    obtain ⟨e', h, rfl, rfl⟩ := h
    have := atomEdge_leaf h
    cases e' <;> first | rfl | exact this.elim
  | app f a =>
    simp only [root, Option.some.injEq, Prod.mk.injEq] at h
    obtain ⟨rfl, rfl⟩ := h
    rfl
  | bind b f a =>
    simp only [root, Option.some.injEq, Prod.mk.injEq] at h
    obtain ⟨rfl, rfl⟩ := h
    cases b <;> rfl

theorem mem_alternatives {t : Term} {rest : List Term} {Γ : LCtx} {rs : List Term} {a : Alt} :
    a ∈ alternatives t rest Γ rs ↔
      (∃ i, rs[i]? = some t ∧ a = ⟨.var i, rest, Γ, rs⟩) ∨ a = ⟨.var rs.length, rest, Γ, rs ++ [t]⟩ ∨
        a ∈ structural t rest Γ rs := by
  simp only [alternatives, List.mem_append, List.mem_map, List.mem_filter, List.mem_range, List.mem_cons,
    beq_iff_eq]
  constructor
  · rintro (⟨i, ⟨_, h⟩, rfl⟩ | h)
    · exact Or.inl ⟨i, h, rfl⟩
    · exact Or.inr h
  · rintro (⟨i, h, rfl⟩ | h)
    · refine Or.inl ⟨i, ⟨?_, h⟩, rfl⟩
      exact (List.getElem?_eq_some_iff.1 h).1
    · exact Or.inr h

theorem mem_structural {t : Term} {rest : List Term} {Γ : LCtx} {rs : List Term} {x : Alt}
    (h : x ∈ structural t rest Γ rs) :
    (∃ a e, t = .atom a ∧ (∀ i, a ≠ .fvar i) ∧ atomEdge a = some e ∧ x = ⟨e, rest, Γ, rs⟩) ∨
    (∃ f a, t = .app f a ∧ x = ⟨.application, f :: a :: rest, Γ, rs⟩) ∨
    (∃ b A B, t = .bind b A B ∧ x = ⟨binderEdge b, A :: B :: rest, Γ.pushTy A, rs⟩) := by
  cases t with
  | atom a =>
    have h' : (∀ i, a ≠ .fvar i) ∧ x ∈ ((atomEdge a).map fun e => (⟨e, rest, Γ, rs⟩ : Alt)).toList := by
      cases a with
      | fvar i => simp [structural] at h
      | bvar i => exact ⟨by simp, h⟩
      | sym i => exact ⟨by simp, h⟩
    obtain ⟨h1, h2⟩ := h'
    simp only [Option.mem_toList, Option.map_eq_some_iff] at h2
    obtain ⟨e, h2, rfl⟩ := h2
    exact Or.inl ⟨a, e, rfl, h1, h2, rfl⟩
  | app f a =>
    simp only [structural, List.mem_singleton] at h
    exact Or.inr (Or.inl ⟨f, a, rfl, h⟩)
  | bind b A B =>
    simp only [structural, List.mem_singleton] at h
    exact Or.inr (Or.inr ⟨b, A, B, rfl, h⟩)

/-- The alternatives follow proper edges, and need less work. -/
theorem alt_ok {t : Term} {rest : List Term} {Γ : LCtx} {rs : List Term} {x : Alt}
    (h : x ∈ alternatives t rest Γ rs) (ht : Fits t) (hr : rs.length < 65536) (hrest : ∀ s ∈ rest, Fits s) :
    x.edge.Plain ∧ x.edge.Fits ∧ x.terms.length = x.edge.arity + rest.length ∧ (∀ s ∈ x.terms, Fits s) ∧
      x.repl.length ≤ rs.length + 1 ∧
      (x.terms.map Term.size).sum < t.size + (rest.map Term.size).sum := by
  have hpos : 0 < t.size := by cases t <;> simp [Term.size] <;> omega
  rcases mem_alternatives.1 h with ⟨i, hi, rfl⟩ | rfl | h
  · have := (List.getElem?_eq_some_iff.1 hi).1
    exact ⟨trivial, show i < 65536 by omega, by simp [Edge.arity], hrest, by simp, by simp only; omega⟩
  · exact ⟨trivial, hr, by simp [Edge.arity], hrest, by simp, by simp only; omega⟩
  · rcases mem_structural h with ⟨a, e, rfl, _, he, rfl⟩ | ⟨f, a, rfl, rfl⟩ | ⟨b, A, B, rfl, rfl⟩
    · have hr : root (.atom a) = some (e, []) := by simp [root, he]
      have := root_ok ht hr
      exact ⟨this.1, this.2.1, by rw [← root_arity hr]; simp, hrest, by simp, by simp only; omega⟩
    · have := fits_app.1 ht
      refine ⟨trivial, trivial, by simp [Edge.arity]; omega, ?_, by simp, ?_⟩
      · intro s hs
        simp only [List.mem_cons] at hs
        rcases hs with rfl | rfl | hs
        · exact this.1
        · exact this.2
        · exact hrest s hs
      · simp [Term.size]; omega
    · have := fits_bind.1 ht
      have o := binderEdge_ok b
      refine ⟨o.1, o.2.1, by cases b <;> simp [binderEdge, Edge.arity] <;> omega, ?_, by simp, ?_⟩
      · intro s hs
        simp only [List.mem_cons] at hs
        rcases hs with rfl | rfl | hs
        · exact this.1
        · exact this.2
        · exact hrest s hs
      · simp [Term.size]; omega

theorem alt_not_literal {t : Term} {rest : List Term} {Γ : LCtx} {rs : List Term} {x : Alt}
    (h : x ∈ alternatives t rest Γ rs) (b : Bool) : x.edge ≠ .literal b := by
  rcases mem_alternatives.1 h with ⟨i, hi, rfl⟩ | rfl | h
  · simp
  · simp
  · rcases mem_structural h with ⟨a, e, rfl, _, he, rfl⟩ | ⟨f, a, rfl, rfl⟩ | ⟨q, A, B, rfl, rfl⟩
    · intro hc
      simp only at hc
      subst hc
      exact atomEdge_leaf he
    · simp
    · cases q <;> simp [binderEdge]

theorem mem_subtrie {es : List (Key × Nat)} {k : Key} {e : Key × Nat} :
    e ∈ subtrie es k ↔ e ∈ es ∧ k <+: e.1 := by
  simp [subtrie]

/-- Following an edge keeps the invariant. -/
theorem Inv.step {es : List (Key × Nat)} {key : Key} {m : Nat} (h : Inv es key (m + 1)) {e : Edge}
    (hp : e.Plain) (hf : e.Fits) (hlit : ∀ b, e ≠ .literal b) : Inv (subtrie es (key ++ e.bytes)) (key ++ e.bytes) (e.arity + m) := by
  intro x hx
  obtain ⟨hx, hpre⟩ := mem_subtrie.1 hx
  rcases h x hx with ⟨ps, k, hl, hfit, hk, he⟩ | ⟨_, b, r, he⟩
  case inr =>
    rw [he] at hpre
    obtain ⟨r', hr⟩ := hpre
    rw [List.append_assoc] at hr
    exact absurd (bytes_inj hp hf (show (Edge.literal b).Plain from trivial) trivial
      (List.append_cancel_left hr)).1 (hlit b)
  refine Or.inl ?_
  cases ps with
  | nil => cases hl
  | cons p ps =>
    rw [keyTerms_cons, Option.bind_eq_some_iff] at hk
    obtain ⟨⟨e', cs⟩, hr, hk⟩ := hk
    rw [Option.map_eq_some_iff] at hk
    obtain ⟨k1, hk, rfl⟩ := hk
    dsimp only at hk he
    rw [he] at hpre
    obtain ⟨r, hr'⟩ := hpre
    rw [List.append_assoc] at hr'
    have hr' := List.append_cancel_left hr'
    have o := root_ok (hfit p (by simp)) hr
    obtain ⟨rfl, rfl⟩ := bytes_inj hp hf o.1 o.2.1 hr'
    refine ⟨cs ++ ps, r, ?_, ?_, hk, ?_⟩
    · have := root_arity hr
      simp only [List.length_cons] at hl
      simp only [List.length_append]; omega
    · intro q hq
      rcases List.mem_append.1 hq with hq | hq
      · exact o.2.2 q hq
      · exact hfit q (by simp [hq])
    · rw [he]; simp

/-- A hit of an alternative is a hit. -/
theorem Hit.of_alt {es : List (Key × Nat)} {key : Key} {t : Term} {rest rs : List Term} {Γ : LCtx} {x : Alt}
    (h : x ∈ alternatives t rest Γ rs) (ht : Fits t) (hlen : rs.length < 65536) {id : Nat} {Γ' : LCtx}
    {rs' : List Term}
    (hh : Hit (subtrie es (key ++ x.edge.bytes)) (key ++ x.edge.bytes) x.terms x.ctx x.repl id Γ' rs') :
    Hit es key (t :: rest) Γ rs id Γ' rs' := by
  obtain ⟨ps, k, hf, hk, hm, hw⟩ := hh
  obtain ⟨hm, _⟩ := mem_subtrie.1 hm
  rw [List.append_assoc] at hm
  have lift : ∀ p cs qs, root p = some (x.edge, cs) → ps = cs ++ qs →
      ((∀ c ∈ cs, Fits c) → Fits p) → Walk (p :: qs) (t :: rest) Γ rs Γ' rs' →
      Hit es key (t :: rest) Γ rs id Γ' rs' := by
    rintro p cs qs hr rfl hp hw
    refine ⟨p :: qs, x.edge.bytes ++ k, ?_, ?_, hm, hw⟩
    · intro q hq
      rcases List.mem_cons.1 hq with rfl | hq
      · exact hp fun c hc => hf c (by simp [hc])
      · exact hf q (by simp [hq])
    rw [keyTerms_cons, hr]
    simp [hk]
  rcases mem_alternatives.1 h with ⟨i, hi, rfl⟩ | rfl | h
  · have := (List.getElem?_eq_some_iff.1 hi).1
    exact lift (.fvar i) [] ps rfl rfl (fun _ => fits_atom.2 (show i < 65536 by omega)) (.back hi hw)
  · exact lift (.fvar rs.length) [] ps rfl rfl (fun _ => fits_atom.2 hlen) (.fresh hw)
  · rcases mem_structural h with ⟨a, e, rfl, hn, he, rfl⟩ | ⟨f, a, rfl, rfl⟩ | ⟨b, A, B, rfl, rfl⟩
    · exact lift (.atom a) [] ps (by simp [root, he]) rfl (fun _ => ht) (.same hn hw)
    · have := hw.length
      match ps, this, hw, lift with
      | p :: q :: ps, _, hw, lift =>
        exact lift (.app p q) [p, q] ps rfl rfl
          (fun h => fits_app.2 ⟨h p (by simp), h q (by simp)⟩) (.app hw)
    · have := hw.length
      match ps, this, hw, lift with
      | p :: q :: ps, _, hw, lift =>
        exact lift (.bind b p q) [p, q] ps rfl rfl
          (fun h => fits_bind.2 ⟨h p (by simp), h q (by simp)⟩) (.bind hw)

/-- Every hit is a hit of an alternative. -/
theorem Hit.to_alt {es : List (Key × Nat)} {key : Key} {t : Term} {rest rs : List Term} {Γ : LCtx}
    {id : Nat} {Γ' : LCtx} {rs' : List Term} (h : Hit es key (t :: rest) Γ rs id Γ' rs') :
    ∃ x ∈ alternatives t rest Γ rs,
      Hit (subtrie es (key ++ x.edge.bytes)) (key ++ x.edge.bytes) x.terms x.ctx x.repl id Γ' rs' := by
  obtain ⟨ps, k, hf, hk, hm, hw⟩ := h
  have drop : ∀ (p : Term) (cs qs : List Term) (e : Edge), ps = p :: qs → root p = some (e, cs) →
      ∀ (x : Alt), x.edge = e → Walk (cs ++ qs) x.terms x.ctx x.repl Γ' rs' →
      Hit (subtrie es (key ++ x.edge.bytes)) (key ++ x.edge.bytes) x.terms x.ctx x.repl id Γ' rs' := by
    rintro p cs qs e rfl hr x rfl hw
    rw [keyTerms_cons, hr] at hk
    simp only [Option.bind_some, Option.map_eq_some_iff] at hk
    obtain ⟨k1, hk, rfl⟩ := hk
    refine ⟨cs ++ qs, k1, ?_, hk, ?_, hw⟩
    · intro q hq
      rcases List.mem_append.1 hq with hq | hq
      · exact (root_ok (hf p (by simp)) hr).2.2 q hq
      · exact hf q (by simp [hq])
    rw [List.append_assoc]
    refine mem_subtrie.2 ⟨hm, ?_⟩
    exact ⟨k1, by simp⟩
  generalize hts : t :: rest = ts at hw
  cases hw with
  | nil => cases hts
  | back hi hw =>
    cases hts
    exact ⟨_, mem_alternatives.2 (Or.inl ⟨_, hi, rfl⟩), drop _ [] _ _ rfl rfl _ rfl hw⟩
  | fresh hw =>
    cases hts
    exact ⟨_, mem_alternatives.2 (Or.inr (Or.inl rfl)), drop _ [] _ _ rfl rfl _ rfl hw⟩
  | @same a ps' _ _ _ _ _ hn hw =>
    cases hts
    have he : ∃ e, atomEdge a = some e := by
      rw [keyTerms_cons, Option.bind_eq_some_iff] at hk
      obtain ⟨⟨e, cs⟩, hr, _⟩ := hk
      simp only [root, Option.map_eq_some_iff] at hr
      obtain ⟨e', he, _⟩ := hr
      exact ⟨e', he⟩
    obtain ⟨e, he⟩ := he
    refine ⟨⟨e, rest, Γ, rs⟩, mem_alternatives.2 (Or.inr (Or.inr ?_)),
      drop _ [] _ e rfl (by simp [root, he]) _ rfl hw⟩
    cases a with
    | fvar i => exact absurd rfl (hn i)
    | bvar i => simp [structural, he]
    | sym s => simp [structural, he]
  | app hw =>
    cases hts
    exact ⟨_, mem_alternatives.2 (Or.inr (Or.inr (by simp [structural]))), drop _ [_, _] _ _ rfl rfl ⟨.application, _, _, _⟩ rfl hw⟩
  | @bind b A B A' B' _ _ _ _ _ _ hw =>
    cases hts
    exact ⟨⟨binderEdge b, A' :: B' :: rest, Γ.pushTy A', rs⟩,
      mem_alternatives.2 (Or.inr (Or.inr (List.mem_singleton.2 rfl))), drop _ [_, _] _ _ rfl rfl _ rfl hw⟩

theorem tryAll_keeps {go : Alt → σ → Option (σ × Bool)} (I : σ → Prop) : ∀ {as : List Alt} {s s' : σ} {b : Bool},
    (∀ a ∈ as, ∀ s s' b, go a s = some (s', b) → I s → I s') → tryAll go as s = some (s', b) → I s → I s' := by
  intro as
  induction as with
  | nil => intro s s' b _ h hs; simp only [tryAll, Option.some.injEq, Prod.mk.injEq] at h; rw [← h.1]; exact hs
  | cons a as ih =>
    intro s s' b hgo h hs
    simp only [tryAll] at h
    split at h
    · cases h
    · rename_i s1 hg
      simp only [Option.some.injEq, Prod.mk.injEq] at h
      rw [← h.1]; exact hgo a (by simp) _ _ _ hg hs
    · rename_i s1 hg
      exact ih (fun a ha => hgo a (by simp [ha])) h (hgo a (by simp) _ _ _ hg hs)

theorem tryAll_false {go : Alt → σ → Option (σ × Bool)} : ∀ {as : List Alt} {s s' : σ},
    tryAll go as s = some (s', false) → ∃ a ∈ as, ∃ s1, go a s1 = some (s', false) := by
  intro as
  induction as with
  | nil => intro s s' h; simp [tryAll] at h
  | cons a as ih =>
    intro s s' h
    simp only [tryAll] at h
    split at h
    · cases h
    · rename_i s1 hg
      simp only [Option.some.injEq, Prod.mk.injEq] at h
      rw [← h.1]; exact ⟨a, by simp, s, hg⟩
    · rename_i s1 hg
      obtain ⟨x, hx, s2, h2⟩ := ih h
      exact ⟨x, by simp [hx], s2, h2⟩

theorem tryAll_none {go : Alt → σ → Option (σ × Bool)} : ∀ {as : List Alt} {s : σ},
    tryAll go as s = none → ∃ a ∈ as, ∃ s1, go a s1 = none := by
  intro as
  induction as with
  | nil => intro s h; simp [tryAll] at h
  | cons a as ih =>
    intro s h
    simp only [tryAll] at h
    split at h
    · rename_i hg; exact ⟨a, by simp, s, hg⟩
    · cases h
    · rename_i s1 hg
      obtain ⟨x, hx, s2, h2⟩ := ih h
      exact ⟨x, by simp [hx], s2, h2⟩

theorem tryAll_true {go : Alt → σ → Option (σ × Bool)} : ∀ {as : List Alt} {s s' : σ} {a : Alt},
    tryAll go as s = some (s', true) → a ∈ as →
    ∃ s1 s2 as', (∀ x ∈ as', x ∈ as) ∧ go a s1 = some (s2, true) ∧ tryAll go as' s2 = some (s', true) := by
  intro as
  induction as with
  | nil => intro s s' a _ h; cases h
  | cons x as ih =>
    intro s s' a h ha
    simp only [tryAll] at h
    split at h
    · cases h
    · simp at h
    · rename_i s1 hg
      rcases List.mem_cons.1 ha with rfl | ha
      · exact ⟨s, s1, as, fun x hx => by simp [hx], hg, h⟩
      · obtain ⟨s2, s3, as', h1, h2, h3⟩ := ih h ha
        exact ⟨s2, s3, as', fun x hx => by simp [h1 x hx], h2, h3⟩

theorem getKey_mem {es : List (Key × Nat)} {k : Key} {id : Nat} (h : getKey es k = some id) : (k, id) ∈ es := by
  simp only [getKey, Option.map_eq_some_iff] at h
  obtain ⟨e, h, rfl⟩ := h
  have h1 := List.find?_some h
  simp only [beq_iff_eq] at h1
  have := List.mem_of_find?_eq_some h
  obtain ⟨a, b⟩ := e
  simp only at h1; subst h1; exact this

theorem getKey_unique {es : List (Key × Nat)} (hn : (es.map Prod.fst).Nodup) {k : Key} {id id' : Nat}
    (h : getKey es k = some id) (h' : (k, id') ∈ es) : id = id' := by
  replace h := getKey_mem h
  induction es with
  | nil => cases h
  | cons e es ih =>
    simp only [List.map_cons, List.nodup_cons] at hn
    rcases List.mem_cons.1 h with h | h <;> rcases List.mem_cons.1 h' with h' | h'
    · rw [← h] at h'; simp only [Prod.mk.injEq] at h'; exact h'.2.symm
    · rw [← h] at hn; exact absurd (List.mem_map_of_mem (f := Prod.fst) h') hn.1
    · rw [← h'] at hn; exact absurd (List.mem_map_of_mem (f := Prod.fst) h) hn.1
    · exact ih hn.2 h' h

theorem subtrie_nodup {es : List (Key × Nat)} (hn : (es.map Prod.fst).Nodup) (k : Key) :
    ((subtrie es k).map Prod.fst).Nodup :=
  (List.filter_sublist.map _).nodup hn

theorem hit_nil {es : List (Key × Nat)} {key : Key} {Γ : LCtx} {rs : List Term} {id : Nat} {Γ' : LCtx}
    {rs' : List Term} : Hit es key [] Γ rs id Γ' rs' ↔ (key, id) ∈ es ∧ Γ' = Γ ∧ rs' = rs := by
  constructor
  · rintro ⟨ps, k, _, hk, hm, hw⟩
    cases hw
    simp only [keyTerms, Option.some.injEq] at hk
    subst hk
    exact ⟨by simpa using hm, rfl, rfl⟩
  · rintro ⟨h, rfl, rfl⟩
    exact ⟨[], [], by simp, rfl, by simpa using h, .nil _ _⟩

variable {K : KCtx} {fuel : Nat} {md : List LCtx} {cb : σ → Nat → List Term → σ × Bool}

/-- The callback only sees verified hits. -/
theorem find_keeps (I : σ → Prop) : ∀ (n : Nat) (es : List (Key × Nat)) (key : Key) (ts : List Term) (Γ : LCtx)
    (rs : List Term) {s s' : σ} {b : Bool}, (∀ t ∈ ts, Fits t) → n + rs.length ≤ 65536 →
    find K fuel md cb n es key ts Γ rs s = some (s', b) →
    (∀ s1 id Γ' rs' P, I s1 → Hit es key ts Γ rs id Γ' rs' → md[id]? = some P →
      verify K fuel P Γ' rs' = some true → I (cb s1 id rs').1) → I s → I s' := by
  intro n
  induction n with
  | zero =>
    intro es key ts Γ rs s s' b _ _ h _ hs
    simp only [find, Option.some.injEq, Prod.mk.injEq] at h
    rw [← h.1]; exact hs
  | succ n ih =>
    intro es key ts Γ rs s s' b hf hr h hI hs
    cases ts with
    | nil =>
      simp only [find] at h
      split at h
      · simp only [Option.some.injEq, Prod.mk.injEq] at h; rw [← h.1]; exact hs
      · split at h
        · cases h
        · rename_i id hid
          split at h
          · cases h
          · rename_i P hP
            split at h
            · cases h
            · rename_i hv
              simp only [Option.some.injEq] at h
              have := hI s id Γ rs P hs (hit_nil.2 ⟨getKey_mem hid, rfl, rfl⟩) hP hv
              rw [h] at this; exact this
            · simp only [Option.some.injEq, Prod.mk.injEq] at h; rw [← h.1]; exact hs
    | cons t rest =>
      simp only [find] at h
      split at h
      · simp only [Option.some.injEq, Prod.mk.injEq] at h; rw [← h.1]; exact hs
      · refine tryAll_keeps I ?_ h hs
        intro a ha s1 s2 b' hg h1
        have ok := alt_ok ha (hf t (by simp)) (by omega) fun s hs => hf s (by simp [hs])
        exact ih _ _ _ _ _ ok.2.2.2.1 (by omega) hg (fun s1 id Γ' rs' P h2 h3 =>
          hI s1 id Γ' rs' P h2 (h3.of_alt ha (hf t (by simp)) (by omega))) h1

/-- The search stops early only if the callback says so, or at the stack limit. -/
theorem find_false : ∀ (n : Nat) (es : List (Key × Nat)) (key : Key) (ts : List Term) (Γ : LCtx)
    (rs : List Term) {s s' : σ}, (∀ t ∈ ts, Fits t) → n + rs.length ≤ 65536 → (ts.map Term.size).sum < n →
    find K fuel md cb n es key ts Γ rs s = some (s', false) →
    ∃ s1 id Γ' rs' P, Hit es key ts Γ rs id Γ' rs' ∧ md[id]? = some P ∧
      verify K fuel P Γ' rs' = some true ∧ cb s1 id rs' = (s', false) := by
  intro n
  induction n with
  | zero => intro es key ts Γ rs s s' _ _ h; omega
  | succ n ih =>
    intro es key ts Γ rs s s' hf hr hsz h
    cases ts with
    | nil =>
      simp only [find] at h
      split at h
      · simp at h
      · split at h
        · cases h
        · rename_i id hid
          split at h
          · cases h
          · rename_i P hP
            split at h
            · cases h
            · rename_i hv
              simp only [Option.some.injEq] at h
              exact ⟨s, id, Γ, rs, P, hit_nil.2 ⟨getKey_mem hid, rfl, rfl⟩, hP, hv, h⟩
            · simp at h
    | cons t rest =>
      simp only [find] at h
      split at h
      · simp at h
      · obtain ⟨a, ha, s1, hg⟩ := tryAll_false h
        have ok := alt_ok ha (hf t (by simp)) (by omega) fun s hs => hf s (by simp [hs])
        simp only [List.map_cons, List.sum_cons] at hsz
        obtain ⟨s2, id, Γ', rs', P, h1, h2⟩ := ih _ _ _ _ _ ok.2.2.2.1 (by omega) (by omega) hg
        exact ⟨s2, id, Γ', rs', P, h1.of_alt ha (hf t (by simp)) (by omega), h2⟩

/-- The search panics only while checking the types of a hit. -/
theorem find_none : ∀ (n : Nat) (es : List (Key × Nat)) (key : Key) (ts : List Term) (Γ : LCtx)
    (rs : List Term) {s : σ}, (∀ t ∈ ts, Fits t) → n + rs.length ≤ 65536 → Inv es key ts.length →
    (∀ e ∈ es, e.2 < md.length) → find K fuel md cb n es key ts Γ rs s = none →
    ∃ id Γ' rs' P, Hit es key ts Γ rs id Γ' rs' ∧ md[id]? = some P ∧ verify K fuel P Γ' rs' = none := by
  intro n
  induction n with
  | zero => intro es key ts Γ rs s _ _ _ _ h; simp [find] at h
  | succ n ih =>
    intro es key ts Γ rs s hf hr hi hm h
    cases ts with
    | nil =>
      simp only [find] at h
      split at h
      · simp at h
      · rename_i hne
        split at h
        · rename_i hid
          cases es with
          | nil => simp at hne
          | cons e es =>
            rcases hi e (by simp) with ⟨ps, k, hl, _, hk, he⟩ | ⟨hc, _⟩
            case inr => exact absurd hc (by simp)
            simp only [List.length_nil, List.length_eq_zero_iff] at hl
            subst hl
            simp only [keyTerms, Option.some.injEq] at hk
            subst hk
            simp [getKey, he] at hid
        · rename_i id hid
          split at h
          · rename_i hP
            have := hm _ (getKey_mem hid)
            rw [List.getElem?_eq_none_iff] at hP
            simp only at this; omega
          · rename_i P hP
            split at h
            · rename_i hv
              exact ⟨id, Γ, rs, P, hit_nil.2 ⟨getKey_mem hid, rfl, rfl⟩, hP, hv⟩
            · cases h
            · cases h
    | cons t rest =>
      simp only [find] at h
      split at h
      · simp at h
      · obtain ⟨a, ha, s1, hg⟩ := tryAll_none h
        have ok := alt_ok ha (hf t (by simp)) (by omega) fun s hs => hf s (by simp [hs])
        have hi' := Inv.step (m := rest.length) hi ok.1 ok.2.1 (alt_not_literal ha)
        rw [← ok.2.2.1] at hi'
        obtain ⟨id, Γ', rs', P, h1, h2⟩ := ih _ _ _ _ _ ok.2.2.2.1 (by omega) hi'
          (fun e he => hm e (mem_subtrie.1 he).1) hg
        exact ⟨id, Γ', rs', P, h1.of_alt ha (hf t (by simp)) (by omega), h2⟩

/-- A search that goes to the end has offered every verified hit to the callback. -/
theorem find_true (Q : σ → Prop) (hQ : ∀ s id rs, Q s → Q (cb s id rs).1) : ∀ (n : Nat)
    (es : List (Key × Nat)) (key : Key) (ts : List Term) (Γ : LCtx)
    (rs : List Term) {s s' : σ} {id : Nat} {Γ' : LCtx} {rs' : List Term} {P : LCtx},
    (∀ t ∈ ts, Fits t) → n + rs.length ≤ 65536 →
    (es.map Prod.fst).Nodup → find K fuel md cb n es key ts Γ rs s = some (s', true) →
    Hit es key ts Γ rs id Γ' rs' → md[id]? = some P → verify K fuel P Γ' rs' = some true →
    (∀ s, (cb s id rs').2 = true → Q (cb s id rs').1) → Q s' := by
  intro n
  induction n with
  | zero =>
    intro es key ts Γ rs s s' id Γ' rs' P _ _ _ h hh
    simp only [find, Option.some.injEq, Prod.mk.injEq, List.isEmpty_iff] at h
    obtain ⟨ps, k, _, _, hm, _⟩ := hh
    rw [h.2] at hm; cases hm
  | succ n ih =>
    intro es key ts Γ rs s s' id Γ' rs' P hf hr hn h hh hP hv hq
    have hne : es.isEmpty = false := by
      obtain ⟨ps, k, _, _, hm, _⟩ := hh
      cases es with
      | nil => cases hm
      | cons _ _ => rfl
    cases ts with
    | nil =>
      obtain ⟨hm, rfl, rfl⟩ := hit_nil.1 hh
      simp only [find, hne, Bool.false_eq_true, if_false] at h
      split at h
      · cases h
      · rename_i id' hid
        have := getKey_unique hn hid hm
        subst this
        rw [hP] at h
        simp only [hv, Option.some.injEq] at h
        have := hq s (by rw [h])
        rw [h] at this; exact this
    | cons t rest =>
      simp only [find, hne, Bool.false_eq_true, if_false] at h
      obtain ⟨a, ha, hh'⟩ := hh.to_alt
      obtain ⟨s1, s2, as', hsub, hg, hrest⟩ := tryAll_true h ha
      have ok := fun x (hx : x ∈ alternatives t rest Γ rs) => alt_ok hx (hf t (by simp)) (show rs.length < 65536 by omega)
        fun s hs => hf s (List.mem_cons_of_mem _ hs)
      have h1 := ih _ _ _ _ _ (ok a ha).2.2.2.1 (by have := (ok a ha).2.2.2.2.1; omega) (subtrie_nodup hn _) hg hh' hP hv hq
      refine tryAll_keeps Q ?_ hrest h1
      intro x hx s3 s4 b' hg' h3
      have ok' := ok x (hsub x hx)
      exact find_keeps Q _ _ _ _ _ _ ok'.2.2.2.1 (by omega) hg' (fun s1 id Γ' rs' P h2 _ _ _ => hQ s1 id rs' h2) h3

end Pdt
end Acorn
