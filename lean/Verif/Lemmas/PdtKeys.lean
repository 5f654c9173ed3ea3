/-
Discrimination tree keys: lemmas for C27.
-/
import Verif.Spec.Pdt
namespace Acorn
namespace Pdt

open Spec

/-- The edges that occur in keys: the Boolean constants are not symbols there. -/
def Edge.Plain : Edge → Prop
  | .symbol s => s ≠ .true_ ∧ s ≠ .false_
  | _ => True

/-- The ids of an edge are 16-bit numbers. -/
def Edge.Fits : Edge → Prop
  | .var i | .bound i => i < 65536
  | .symbol s => SymbolFits s
  | _ => True

theorem num16_bytes {n : Nat} (h : n < 65536) : num16 (n % 256) (n / 256 % 256) = n := by
  unfold num16; omega

theorem parse_bytes {e : Edge} (hp : e.Plain) (hf : e.Fits) (r : Key) :
    Edge.parse (e.bytes ++ r) = some (e, e.bytes.length) := by
  cases e with
  | symbol s =>
    cases s with
    | true_ => exact absurd rfl hp.1
    | false_ => exact absurd rfl hp.2
    | type m l =>
      simp [Edge.bytes, Edge.payload, Edge.discriminant, bytes16, Edge.parse, num16_bytes hf.1, num16_bytes hf.2]
    | typeclass m l =>
      simp [Edge.bytes, Edge.payload, Edge.discriminant, bytes16, Edge.parse, num16_bytes hf.1, num16_bytes hf.2]
    | «global» m l =>
      simp [Edge.bytes, Edge.payload, Edge.discriminant, bytes16, Edge.parse, num16_bytes hf.1, num16_bytes hf.2]
    | «scoped» l =>
      have hl : l < 65536 := hf
      simp [Edge.bytes, Edge.payload, Edge.discriminant, bytes16, Edge.parse, num16_bytes hl]
    | _ => rfl
  | var i =>
    have hl : i < 65536 := hf
    simp [Edge.bytes, Edge.payload, Edge.discriminant, bytes16, Edge.parse, num16_bytes hl]
  | bound i =>
    have hl : i < 65536 := hf
    simp [Edge.bytes, Edge.payload, Edge.discriminant, bytes16, Edge.parse, num16_bytes hl]
  | literal b => cases b <;> rfl
  | _ => rfl

theorem bytes_inj {e e' : Edge} (hp : e.Plain) (hf : e.Fits) (hp' : e'.Plain) (hf' : e'.Fits) {r r' : Key}
    (h : e.bytes ++ r = e'.bytes ++ r') : e = e' ∧ r = r' := by
  have h1 := parse_bytes hp hf r
  rw [h, parse_bytes hp' hf' r'] at h1
  simp only [Option.some.injEq, Prod.mk.injEq] at h1
  refine ⟨h1.1.symm, ?_⟩
  rw [h1.1] at h
  exact List.append_cancel_left h

theorem atomEdge_plain {a : Atom} {e : Edge} (h : atomEdge a = some e) : e.Plain := by
  cases a with
  | fvar i => cases h; trivial
  | bvar i => cases h; trivial
  | sym s => cases s <;> cases h <;> first | trivial | exact ⟨by simp, by simp⟩

theorem atomEdge_fits {a : Atom} {e : Edge} (h : atomEdge a = some e) (hf : AtomFits a) : e.Fits := by
  cases a with
  | fvar i => cases h; exact hf
  | bvar i => cases h; exact hf
  | sym s => cases s <;> cases h <;> first | trivial | exact hf

theorem atomEdge_inj {a b : Atom} {e : Edge} (h : atomEdge a = some e) (h' : atomEdge b = some e) : a = b := by
  cases a with
  | fvar i =>
    cases h
    cases b with
    | fvar j => simp only [atomEdge, Option.some.injEq, Edge.var.injEq] at h'; rw [h']
    | bvar j => cases h'
    | sym s => cases s <;> cases h'
  | bvar i =>
    cases h
    cases b with
    | fvar j => cases h'
    | bvar j => simp only [atomEdge, Option.some.injEq, Edge.bound.injEq] at h'; rw [h']
    | sym s => cases s <;> cases h'
  | sym s =>
    cases b with
    | fvar j => cases h'; cases s <;> cases h
    | bvar j => cases h'; cases s <;> cases h
    | sym s' => cases s <;> cases h <;> cases s' <;> cases h' <;> rfl

/-- The edges of atoms. -/
def Edge.Leaf : Edge → Prop
  | .application | .arrow | .lambda | .forAll | .exists_ | .literal _ => False
  | _ => True

theorem atomEdge_leaf {a : Atom} {e : Edge} (h : atomEdge a = some e) : e.Leaf := by
  cases a with
  | fvar i => cases h; trivial
  | bvar i => cases h; trivial
  | sym s => cases s <;> cases h <;> trivial

theorem binderEdge_inj {b b' : Binder} (h : binderEdge b = binderEdge b') : b = b' := by
  cases b <;> cases b' <;> first | rfl | cases h

theorem binderEdge_ok (b : Binder) : (binderEdge b).Plain ∧ (binderEdge b).Fits ∧ ¬ (binderEdge b).Leaf ∧
    binderEdge b ≠ .application := by
  cases b <;> exact ⟨trivial, trivial, fun h => h, fun h => by cases h⟩

theorem fits_app {f a : Term} : Fits (.app f a) ↔ Fits f ∧ Fits a := by
  simp [Fits, Term.atoms, or_imp, forall_and]

theorem fits_bind {b : Binder} {f a : Term} : Fits (.bind b f a) ↔ Fits f ∧ Fits a := by
  simp [Fits, Term.atoms, or_imp, forall_and]

/-- The first edge of a term and the subterms that follow. -/
def root : Term → Option (Edge × List Term)
  | .atom a => (atomEdge a).map fun e => (e, [])
  | .app f a => some (.application, [f, a])
  | .bind b A B => some (binderEdge b, [A, B])

theorem root_ok {t : Term} (hf : Fits t) {e : Edge} {cs : List Term} (h : root t = some (e, cs)) :
    e.Plain ∧ e.Fits ∧ ∀ c ∈ cs, Fits c := by
  cases t with
  | atom a =>
    simp only [root, Option.map_eq_some_iff, Prod.mk.injEq] at h
    obtain ⟨e', h, rfl, rfl⟩ := h
    exact ⟨atomEdge_plain h, atomEdge_fits h (hf a (by simp [Term.atoms])), by simp⟩
  | app f a =>
    simp only [root, Option.some.injEq, Prod.mk.injEq] at h
    obtain ⟨rfl, rfl⟩ := h
    have := fits_app.1 hf
    exact ⟨trivial, trivial, by simp [this.1, this.2]⟩
  | bind b f a =>
    simp only [root, Option.some.injEq, Prod.mk.injEq] at h
    obtain ⟨rfl, rfl⟩ := h
    have := fits_bind.1 hf
    exact ⟨(binderEdge_ok b).1, (binderEdge_ok b).2.1, by simp [this.1, this.2]⟩

theorem root_inj {s t : Term} {e : Edge} {cs : List Term} (h : root s = some (e, cs))
    (h' : root t = some (e, cs)) : s = t := by
  cases s with
  | atom a =>
    simp only [root, Option.map_eq_some_iff, Prod.mk.injEq] at h
    obtain ⟨e', h, rfl, rfl⟩ := h
    have hl := atomEdge_leaf h
    cases t with
    | atom b =>
      simp only [root, Option.map_eq_some_iff, Prod.mk.injEq] at h'
      obtain ⟨e1, h', rfl, _⟩ := h'
      rw [atomEdge_inj h h']
    | app f a => simp [root] at h'
    | bind b f a => simp [root] at h'
  | app f a =>
    simp only [root, Option.some.injEq, Prod.mk.injEq] at h
    obtain ⟨rfl, rfl⟩ := h
    cases t with
    | atom b => simp [root] at h'
    | app f a => simp [root] at h'; rw [h'.1, h'.2]
    | bind b f a => simp only [root, Option.some.injEq, Prod.mk.injEq] at h'; exact absurd h'.1 (binderEdge_ok b).2.2.2
  | bind b f a =>
    simp only [root, Option.some.injEq, Prod.mk.injEq] at h
    obtain ⟨rfl, rfl⟩ := h
    cases t with
    | atom b => simp [root] at h'
    | app f a =>
      simp only [root, Option.some.injEq, Prod.mk.injEq] at h'
      exact absurd h'.1.symm (binderEdge_ok b).2.2.2
    | bind b f a => simp [root] at h'; rw [h'.2.1, h'.2.2, binderEdge_inj h'.1]

/-- The key of a list of terms: the first edge of the first term, then the rest. -/
theorem keyTerms_cons (t : Term) (ts : List Term) :
    keyTerms (t :: ts) = (root t).bind fun r => (keyTerms (r.2 ++ ts)).map (r.1.bytes ++ ·) := by
  have happ : ∀ (a b : List Term), keyTerms (a ++ b) = (keyTerms a).bind fun k => (keyTerms b).map (k ++ ·) := by
    intro a b
    induction a with
    | nil => cases h : keyTerms b <;> simp [keyTerms, h]
    | cons c cs ih =>
      simp only [List.cons_append, keyTerms, ih, Option.bind_eq_bind, Option.pure_def]
      cases keyTerm c <;> simp
      cases keyTerms cs <;> simp
      cases keyTerms b <;> simp
  rw [keyTerms]
  cases t with
  | atom a =>
    cases h : atomEdge a <;> simp [keyTerm, root, h]
    cases keyTerms ts <;> simp
  | app f a =>
    simp [root, keyTerm, keyTerms]
    cases keyTerm f <;> simp
    cases keyTerm a <;> simp
    cases keyTerms ts <;> simp
  | bind b f a =>
    simp [root, keyTerm, keyTerms]
    cases keyTerm f <;> simp
    cases keyTerm a <;> simp
    cases keyTerms ts <;> simp

theorem root_size {t : Term} {e : Edge} {cs : List Term} (h : root t = some (e, cs)) :
    (cs.map Term.size).sum < t.size := by
  cases t with
  | atom a =>
    simp only [root, Option.map_eq_some_iff, Prod.mk.injEq] at h
    obtain ⟨e', h, rfl, rfl⟩ := h
    simp [Term.size]
  | app f a =>
    simp only [root, Option.some.injEq, Prod.mk.injEq] at h
    obtain ⟨rfl, rfl⟩ := h
    simp [Term.size]
  | bind b f a =>
    simp only [root, Option.some.injEq, Prod.mk.injEq] at h
    obtain ⟨rfl, rfl⟩ := h
    simp [Term.size]

/-- Equally many terms with the same key up to what follows are the same terms. -/
theorem keyTerms_inj : ∀ (n : Nat) (ss ts : List Term), (ss.map Term.size).sum ≤ n → ss.length = ts.length →
    (∀ s ∈ ss, Fits s) → (∀ t ∈ ts, Fits t) → ∀ {k k' r r' : Key}, keyTerms ss = some k →
    keyTerms ts = some k' → k ++ r = k' ++ r' → ss = ts ∧ r = r' := by
  intro n
  induction n with
  | zero =>
    intro ss ts hn hl hs ht k k' r r' hk hk' h
    cases ss with
    | nil =>
      cases ts with
      | nil => cases hk; cases hk'; exact ⟨rfl, h⟩
      | cons t ts => cases hl
    | cons s ss => cases s <;> simp [Term.size] at hn <;> omega
  | succ n ih =>
    intro ss ts hn hl hs ht k k' r r' hk hk' h
    cases ss with
    | nil =>
      cases ts with
      | nil => cases hk; cases hk'; exact ⟨rfl, h⟩
      | cons t ts => cases hl
    | cons s ss =>
      cases ts with
      | nil => cases hl
      | cons t ts =>
        rw [keyTerms_cons, Option.bind_eq_some_iff] at hk hk'
        obtain ⟨⟨e, cs⟩, hr, hk⟩ := hk
        obtain ⟨⟨e', cs'⟩, hr', hk'⟩ := hk'
        rw [Option.map_eq_some_iff] at hk hk'
        obtain ⟨k1, hk, rfl⟩ := hk
        obtain ⟨k1', hk', rfl⟩ := hk'
        have o := root_ok (hs s (by simp)) hr
        have o' := root_ok (ht t (by simp)) hr'
        dsimp only at h hk hk'
        rw [List.append_assoc, List.append_assoc] at h
        obtain ⟨rfl, h3⟩ := bytes_inj o.1 o.2.1 o'.1 o'.2.1 h
        have hlen : cs.length = cs'.length := by
          cases s with
          | atom a =>
            simp only [root, Option.map_eq_some_iff, Prod.mk.injEq] at hr
            obtain ⟨e1, hr, rfl, rfl⟩ := hr
            have hlf := atomEdge_leaf hr
            cases t with
            | atom b =>
              simp only [root, Option.map_eq_some_iff, Prod.mk.injEq] at hr'
              obtain ⟨_, _, _, rfl⟩ := hr'
              rfl
            | app f a =>
              simp only [root, Option.some.injEq, Prod.mk.injEq] at hr'
              rw [← hr'.1] at hlf; exact hlf.elim
            | bind b f a =>
              simp only [root, Option.some.injEq, Prod.mk.injEq] at hr'
              rw [← hr'.1] at hlf; exact ((binderEdge_ok b).2.2.1 hlf).elim
          | app f a =>
            simp only [root, Option.some.injEq, Prod.mk.injEq] at hr
            obtain ⟨rfl, rfl⟩ := hr
            cases t with
            | atom b =>
              simp only [root, Option.map_eq_some_iff, Prod.mk.injEq] at hr'
              obtain ⟨e1, hr', rfl, rfl⟩ := hr'
              exact (atomEdge_leaf hr').elim
            | app f a => simp only [root, Option.some.injEq, Prod.mk.injEq] at hr'; rw [← hr'.2]; rfl
            | bind b f a => simp only [root, Option.some.injEq, Prod.mk.injEq] at hr'; rw [← hr'.2]; rfl
          | bind b f a =>
            simp only [root, Option.some.injEq, Prod.mk.injEq] at hr
            obtain ⟨rfl, rfl⟩ := hr
            cases t with
            | atom c =>
              simp only [root, Option.map_eq_some_iff, Prod.mk.injEq] at hr'
              obtain ⟨e1, hr', rfl, rfl⟩ := hr'
              exact ((binderEdge_ok b).2.2.1 (atomEdge_leaf hr')).elim
            | app f a => simp only [root, Option.some.injEq, Prod.mk.injEq] at hr'; rw [← hr'.2]; rfl
            | bind b f a => simp only [root, Option.some.injEq, Prod.mk.injEq] at hr'; rw [← hr'.2]; rfl
        have hz := root_size hr
        obtain ⟨h1, h2⟩ := ih (cs ++ ss) (cs' ++ ts)
          (by simp only [List.map_append, List.sum_append, List.map_cons, List.sum_cons] at hn ⊢; omega)
          (by simp only [List.length_append, List.length_cons] at hl ⊢; omega)
          (by
            intro c hc
            rcases List.mem_append.1 hc with hc | hc
            · exact o.2.2 c hc
            · exact hs c (by simp [hc]))
          (by
            intro c hc
            rcases List.mem_append.1 hc with hc | hc
            · exact o'.2.2 c hc
            · exact ht c (by simp [hc])) hk hk' h3
        obtain ⟨rfl, rfl⟩ := List.append_inj h1 hlen
        rw [root_inj hr hr']
        exact ⟨rfl, h2⟩

theorem keyTerm_single (t : Term) : keyTerms [t] = keyTerm t := by
  simp [keyTerms]

/-- The key exists exactly for terms without typeclasses. -/
theorem keyTerm_some (t : Term) : (keyTerm t).isSome = true ↔ NoClass t := by
  induction t with
  | atom a =>
    cases a with
    | fvar i => simp [keyTerm, atomEdge, NoClass, Term.atoms]
    | bvar i => simp [keyTerm, atomEdge, NoClass, Term.atoms]
    | sym s => cases s <;> simp [keyTerm, atomEdge, NoClass, Term.atoms]
  | app f a ihf iha =>
    have : NoClass (.app f a) ↔ NoClass f ∧ NoClass a := by
      simp [NoClass, Term.atoms, not_or, forall_and]
    rw [this, ← ihf, ← iha]
    simp only [keyTerm]
    cases keyTerm f <;> cases keyTerm a <;> simp
  | bind b f a ihf iha =>
    have : NoClass (.bind b f a) ↔ NoClass f ∧ NoClass a := by
      simp [NoClass, Term.atoms, not_or, forall_and]
    rw [this, ← ihf, ← iha]
    simp only [keyTerm]
    cases keyTerm f <;> cases keyTerm a <;> simp

theorem keyTerms_some (ts : List Term) : (∃ k, keyTerms ts = some k) ↔ ∀ t ∈ ts, NoClass t := by
  induction ts with
  | nil => simp [keyTerms]
  | cons t ts ih =>
    simp only [List.mem_cons, forall_eq_or_imp]
    rw [← ih, ← keyTerm_some, keyTerms]
    cases keyTerm t <;> cases keyTerms ts <;> simp

/-- A term key does not begin with a sign. -/
theorem not_sign {t : Term} {ts : List Term} (hf : Fits t) {k : Key} (hk : keyTerms (t :: ts) = some k)
    (b : Bool) {r r' : Key} (h : k ++ r = (Edge.literal b).bytes ++ r') : False := by
  rw [keyTerms_cons, Option.bind_eq_some_iff] at hk
  obtain ⟨⟨e, cs⟩, hr, hk⟩ := hk
  rw [Option.map_eq_some_iff] at hk
  obtain ⟨k1, hk, rfl⟩ := hk
  have o := root_ok hf hr
  dsimp only at h
  rw [List.append_assoc] at h
  obtain ⟨rfl, _⟩ := bytes_inj o.1 o.2.1 (show (Edge.literal b).Plain from trivial) trivial h
  cases t with
  | atom a =>
    simp only [root, Option.map_eq_some_iff, Prod.mk.injEq] at hr
    obtain ⟨e1, hr, rfl, rfl⟩ := hr
    exact atomEdge_leaf hr
  | app f a => simp [root] at hr
  | bind b f a => cases b <;> simp [root, binderEdge] at hr

theorem signs_inj : ∀ (ls ls' : List Literal) (ts ts' : List Term) {k k' r r' : Key}, keyTerms ts = some k →
    keyTerms ts' = some k' → (∃ t ts1, ts = t :: ts1 ∧ Fits t) → (∃ t ts1, ts' = t :: ts1 ∧ Fits t) →
    signsKey ls ++ (k ++ r) = signsKey ls' ++ (k' ++ r') →
    ls.map Literal.positive = ls'.map Literal.positive ∧ k ++ r = k' ++ r' := by
  intro ls
  induction ls with
  | nil =>
    intro ls' ts ts' k k' r r' hk hk' h1 h2 h
    cases ls' with
    | nil => exact ⟨rfl, h⟩
    | cons l' ls' =>
      obtain ⟨t, ts1, rfl, ht⟩ := h1
      simp only [signsKey, List.flatMap_cons, List.flatMap_nil, List.nil_append, List.append_assoc] at h
      exact (not_sign ht hk _ h).elim
  | cons l ls ih =>
    intro ls' ts ts' k k' r r' hk hk' h1 h2 h
    cases ls' with
    | nil =>
      obtain ⟨t, ts1, rfl, ht⟩ := h2
      simp only [signsKey, List.flatMap_cons, List.flatMap_nil, List.nil_append, List.append_assoc] at h
      exact (not_sign ht hk' _ h.symm).elim
    | cons l' ls' =>
      simp only [signsKey, List.flatMap_cons, List.append_assoc] at h
      obtain ⟨he, h⟩ := bytes_inj (show (Edge.literal l.positive).Plain from trivial) trivial
        (show (Edge.literal l'.positive).Plain from trivial) trivial h
      obtain ⟨h3, h4⟩ := ih ls' ts ts' hk hk' h1 h2 h
      simp only [Edge.literal.injEq] at he
      exact ⟨by simp [he, h3], h4⟩

theorem sides_eq {ls ls' : List Literal} (h : ls.map Literal.positive = ls'.map Literal.positive)
    (h' : sides ls = sides ls') : ls = ls' := by
  induction ls generalizing ls' with
  | nil => cases ls' with
    | nil => rfl
    | cons l' ls' => simp at h
  | cons l ls ih =>
    cases ls' with
    | nil => simp at h
    | cons l' ls' =>
      simp only [List.map_cons, List.cons.injEq] at h
      simp only [sides, List.flatMap_cons, List.cons_append, List.nil_append, List.cons.injEq] at h'
      rw [ih h.2 h'.2.2]
      obtain ⟨p, a, b⟩ := l
      obtain ⟨p', a', b'⟩ := l'
      simp only at h h'
      rw [h.1, h'.1, h'.2.1]

end Pdt
end Acorn
