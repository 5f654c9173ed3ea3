/-
C27: keys of the discrimination tree.  C28: lookups in the discrimination tree.
-/
import Verif.Lemmas.PdtLiterals
import Verif.Spec.DemoSimple
namespace Acorn

open Spec Pdt Term

/-! ### C27 -/

/-- The bytes of an edge can be read back, whatever follows them. -/
theorem C27_edge_roundtrip {e : Edge} (hp : e.Plain) (hf : e.Fits) (r : Key) :
    Edge.parse (e.bytes ++ r) = some (e, e.bytes.length) := parse_bytes hp hf r

example : Edge.parse ((Edge.symbol (.global 3 300)).bytes ++ [7]) = some (.symbol (.global 3 300), 5) :=
  C27_edge_roundtrip (e := .symbol (.global 3 300)) ⟨by decide, by decide⟩ ⟨by decide, by decide⟩ _

/-- A term has a key exactly if no typeclass occurs in it (otherwise the program panics). -/
theorem C27_key_exists (t : Term) : (keyTerm t).isSome = true ↔ NoClass t := keyTerm_some t

example : (keyTerm (.app Demo.suc (.fvar 2))).isSome = true := by decide +kernel
example : (keyTerm Demo.mon).isSome = false := by decide +kernel

/-- No key of a term is a prefix of the key of another term, and different terms have different keys. -/
theorem C27_term {s t : Term} (hs : Fits s) (ht : Fits t) {k k' : Key} (hk : keyTerm s = some k)
    (hk' : keyTerm t = some k') (h : k <+: k') : s = t := by
  obtain ⟨r, rfl⟩ := h
  have := (keyTerms_inj _ [s] [t] (Nat.le_refl _) rfl (by simpa using hs) (by simpa using ht)
    (by rw [keyTerm_single]; exact hk) (by rw [keyTerm_single]; exact hk') (r := r) (r' := [])
    (by simp)).1
  simpa using this

/-- The same for pairs. -/
theorem C27_pair {s t s' t' : Term} (hs : Fits s) (ht : Fits t) (hs' : Fits s') (ht' : Fits t') {k k' : Key}
    (hk : keyPair s t = some k) (hk' : keyPair s' t' = some k') (h : k <+: k') : s = s' ∧ t = t' := by
  obtain ⟨r, rfl⟩ := h
  have := (keyTerms_inj _ [s, t] [s', t'] (Nat.le_refl _) rfl (by simp [hs, ht]) (by simp [hs', ht'])
    hk hk' (r := r) (r' := []) (by simp)).1
  simpa using this

/-- The same for clauses with at least one literal. -/
theorem C27_clause {ls ls' : List Literal} (hf : ∀ l ∈ ls, Fits l.left ∧ Fits l.right)
    (hf' : ∀ l ∈ ls', Fits l.left ∧ Fits l.right) (hn : ls ≠ []) (hn' : ls' ≠ []) {k k' : Key}
    (hk : keyClause ls = some k) (hk' : keyClause ls' = some k') (h : k <+: k') : ls = ls' := by
  have fit : ∀ {l : List Literal}, (∀ x ∈ l, Fits x.left ∧ Fits x.right) → LitsFit l := by
    intro l hl s hs
    simp only [sides, List.mem_flatMap] at hs
    obtain ⟨x, hx, hs⟩ := hs
    simp only [List.mem_cons, List.not_mem_nil, or_false] at hs
    rcases hs with rfl | rfl
    · exact (hl x hx).1
    · exact (hl x hx).2
  obtain ⟨r, rfl⟩ := h
  obtain ⟨k1, h1, rfl⟩ := keyClause_some hk
  obtain ⟨k2, h2, h3⟩ := keyClause_some hk'
  rw [List.append_assoc] at h3
  obtain ⟨e1, e2⟩ := signs_inj ls ls' (sides ls) (sides ls') (r := r) (r' := []) h1 h2
    (sides_cons hn (fit hf)) (sides_cons hn' (fit hf')) (by rw [List.append_nil]; exact h3)
  have hl : ls.length = ls'.length := by simpa using congrArg List.length e1
  have := (keyTerms_inj _ (sides ls) (sides ls') (Nat.le_refl _)
    (by rw [sides_length, sides_length, hl]) (fit hf) (fit hf') h1 h2 e2).1
  exact sides_eq e1 this

/-- Non-vacuity: two different clauses with keys. -/
example : (keyClause [Literal.new true (.app Demo.suc (.fvar 0)) Demo.zero]).isSome = true ∧
    (∀ a ∈ (Term.app Demo.suc (.fvar 0)).atoms, AtomFits a) := by
  refine ⟨by with_unfolding_all rfl, ?_⟩
  intro a ha
  simp [Term.atoms] at ha
  rcases ha with rfl | rfl
  · exact ⟨by decide, by decide⟩
  · exact (by decide : (0 : Nat) < 65536)

/-- Disagreement: the empty clause has the empty key, a prefix of every key. -/
theorem C27_empty_clause (k : Key) : keyClause [] = some [] ∧ ([] : Key) <+: k :=
  ⟨rfl, List.nil_prefix⟩

/-- Disagreement: the ids must have 16 bits, and (although the property says "with their types") the types of
the variables are not part of the key. -/
theorem C27_types_not_encoded : ∃ (c d : Clause), c.ctx ≠ d.ctx ∧ (keyClause c.lits).isSome = true ∧
    keyClause c.lits = keyClause d.lits :=
  ⟨⟨[⟨true, .fvar 0, .fvar 0⟩], [some Demo.nat]⟩, ⟨[⟨true, .fvar 0, .fvar 0⟩], [some .boolTy]⟩,
    by decide +kernel, by decide +kernel, rfl⟩

/-! ### C28, pairs -/

variable {α : Type} {K : KCtx} {fuel : Nat}

/-- What is found for a pair is the value of the last insertion of a pair that, instantiated with the
replacements, is the query; the replacements have no dangling bound variables. -/
theorem C28_pair_sound {p : Tree α} {h : List (Term × Term × α × LCtx)} (hp : PairTree p h)
    (hfit : ∀ e ∈ h, Fits e.1 ∧ Fits e.2.1) {s t : Term} (hs : Fits s) (ht : Fits t) {Γ : LCtx} {v : α}
    {rs : List Term} (hfind : p.findPair K fuel s t Γ = some (some (v, rs))) :
    ∃ h1 h2 a b P, h = h1 ++ (a, b, v, P) :: h2 ∧ (∀ e ∈ h2, (e.1, e.2.1) ≠ (a, b)) ∧
      instantiate rs a = s ∧ instantiate rs b = t ∧ NumberedBy rs.length [a, b] ∧
      ∀ r ∈ rs, r.escapes = false := by
  obtain ⟨id, Γ', P, hh, hP, hv, hver⟩ := first_sound (by simp [hs, ht]) hfind
  obtain ⟨h1, h2, a, b, v', P', rfl, hl, hv', hP', hw⟩ := hh.pair hp hfit
  rw [hv] at hv'; cases hv'
  rw [hP] at hP'; cases hP'
  obtain ⟨_, hi, hnum, _⟩ := hw.spec
  simp only [List.map_cons, List.map_nil, List.cons.injEq, and_true] at hi
  exact ⟨h1, h2, a, b, P, rfl, hl, hi.1, hi.2, hnum, fun r hr => by
    obtain ⟨i, hi⟩ := List.getElem?_of_mem hr
    exact (verifyFrom_true.1 hver i r hi).1⟩

/-- If the query is well-typed, the replacements of variables of a plain type have that type. -/
theorem C28_pair_typed {p : Tree α} {h : List (Term × Term × α × LCtx)} (hp : PairTree p h)
    (hfit : ∀ e ∈ h, Fits e.1 ∧ Fits e.2.1) {s t : Term} (hs : Fits s) (ht : Fits t) {Γ : LCtx}
    (hΓ : CtxOk Γ) {S : Term} (hts : SHasType K Γ s S) (htt : SHasType K Γ t S) {v : α}
    {rs : List Term} (hfind : p.findPair K fuel s t Γ = some (some (v, rs))) :
    ∃ a b P, (a, b, v, P) ∈ h ∧ instantiate rs a = s ∧ instantiate rs b = t ∧
      ∀ i r T, rs[i]? = some r → P.get i = some T → PlainType T → SHasType K Γ r T := by
  obtain ⟨id, Γ', P, hh, hP, hv, hver⟩ := first_sound (by simp [hs, ht]) hfind
  obtain ⟨h1, h2, a, b, v', P', rfl, hl, hv', hP', hw⟩ := hh.pair hp hfit
  rw [hv] at hv'; cases hv'
  rw [hP] at hP'; cases hP'
  obtain ⟨_, hi, hnum, hb⟩ := hw.spec
  simp only [List.map_cons, List.map_nil, List.cons.injEq, and_true] at hi
  refine ⟨a, b, P, by simp, hi.1, hi.2, fun i r T hr hT hpl => ?_⟩
  refine verify_typed hΓ hb (hw.part (Δ := Γ) ?_ (by simp)) hver hr hT hpl
  intro u hu
  simp only [List.mem_cons, List.not_mem_nil, or_false] at hu
  rcases hu with rfl | rfl
  · exact ⟨BCtx.nil, _, 0, fun _ => rfl, hts, (HasType.fscoped hΓ hts.typed).1⟩
  · exact ⟨BCtx.nil, _, 0, fun _ => rfl, htt, (HasType.fscoped hΓ htt.typed).1⟩

/-- Where all pattern variables have plain types, looking up a well-typed pair does not panic. -/
theorem C28_pair_total {p : Tree α} {h : List (Term × Term × α × LCtx)} (hp : PairTree p h)
    (hfit : ∀ e ∈ h, Fits e.1 ∧ Fits e.2.1)
    (hpl : ∀ e ∈ h, ∀ i T, e.2.2.2.get i = some T → PlainType T ∧ T.size ≤ fuel)
    {s t : Term} (hs : Fits s) (ht : Fits t) {Γ : LCtx}
    (hΓ : CtxOk Γ) {S : Term} (hts : SHasType K Γ s S) (htt : SHasType K Γ t S) :
    p.findPair K fuel s t Γ ≠ none := by
  intro hfind
  obtain ⟨id, Γ', rs, P, hh, hP, hver⟩ := first_total (by simp [hs, ht]) (hp.inv hfit)
    (fun e he => ⟨(hp.built.1.ids e he).1, (hp.built.1.ids e he).2.1⟩) hfind
  obtain ⟨h1, h2, a, b, v', P', rfl, hl, hv', hP', hw⟩ := hh.pair hp hfit
  rw [hP] at hP'; cases hP'
  refine verify_total hΓ hw.spec.2.2.2 (hw.part (Δ := Γ) ?_ (by simp)) (hpl (a, b, v', P) (by simp)) hver
  intro u hu
  simp only [List.mem_cons, List.not_mem_nil, or_false] at hu
  rcases hu with rfl | rfl
  · exact ⟨BCtx.nil, _, 0, fun _ => rfl, hts, (HasType.fscoped hΓ hts.typed).1⟩
  · exact ⟨BCtx.nil, _, 0, fun _ => rfl, htt, (HasType.fscoped hΓ htt.typed).1⟩

/-- If a stored pair generalizes the query, something is found.  The variables of the pair are numbered by
first occurrence, the replacements have no dangling bound variables and suit the types of the variables, no
later insertion of the same pair had other types, and the query has fewer than 500 components. -/
theorem C28_pair_complete {p : Tree α} {h1 h2 : List (Term × Term × α × LCtx)} {a b : Term} {v : α} {P : LCtx}
    (hp : PairTree p (h1 ++ (a, b, v, P) :: h2)) (hl : ∀ e ∈ h2, (e.1, e.2.1) = (a, b) → e.2.2.2 = P)
    (hfit : ∀ e ∈ h1 ++ (a, b, v, P) :: h2, Fits e.1 ∧ Fits e.2.1) {rs : List Term} {Γ : LCtx} (hΓ : CtxOk Γ)
    (hfuel : 0 < fuel) (hnum : NumberedBy rs.length [a, b])
    (hrs : ∀ i r, rs[i]? = some r → r.escapes = false ∧ ∀ T, P.get i = some T → Suits K Γ P r T)
    (hs : Fits (instantiate rs a)) (ht : Fits (instantiate rs b))
    (hsz : (instantiate rs a).size + (instantiate rs b).size < 500) :
    p.findPair K fuel (instantiate rs a) (instantiate rs b) Γ ≠ some none := by
  intro hfind
  obtain ⟨h1', v', h2', e1, e2⟩ : ∃ l1 v' l2, h1 ++ (a, b, v, P) :: h2 = l1 ++ (a, b, v', P) :: l2 ∧
      ∀ e ∈ l2, (e.1, e.2.1) ≠ (a, b) := by
    obtain ⟨l1, v', l2, e1, e2⟩ := last_pair (a := a) (b := b) (P := P) ((a, b, v, P) :: h2) ⟨(a, b, v, P), by simp, rfl⟩ (by
      intro x hx hxe
      rcases List.mem_cons.1 hx with rfl | hx
      · rfl
      · exact hl x hx hxe)
    exact ⟨h1 ++ l1, v', l2, by rw [e1]; simp, e2⟩
  rw [e1] at hp hfit
  obtain ⟨Γ', hw⟩ := Walk.of_instance _ [a, b] [] rs Γ (Nat.le_refl _) List.nil_prefix hnum
  obtain ⟨x1, x2, x3⟩ := Hit.of_pair hp e2 hfit hw
  exact first_complete (by simp [hs, ht]) (by simpa [stackLimit] using hsz) hfind x1 x3
    (verify_suits hΓ hw.spec.2.2.2 hfuel hrs)

/-- A tree with the pattern `even(suc(x0)) = x1`, `x0 : nat`, `x1 : Bool`. -/
def demoPdtPair : Tree Nat :=
  (Tree.empty.insertPair (.app Demo.even (.app Demo.suc (.fvar 0))) (.fvar 1) 7 [some Demo.nat, some .boolTy]).get
    (by decide +kernel)

theorem demoPdtPair_tree : PairTree demoPdtPair
    [(.app Demo.even (.app Demo.suc (.fvar 0)), .fvar 1, 7, [some Demo.nat, some .boolTy])] :=
  PairTree.insert .empty (Option.some_get _).symm

/-- Non-vacuity: a lookup that succeeds. -/
example : demoPdtPair.findPair Demo.K 5 (.app Demo.even (.app Demo.suc Demo.zero)) Demo.prop [] =
    some (some (7, [Demo.zero, Demo.prop])) := by with_unfolding_all rfl

/-- Non-vacuity: the hypotheses of completeness for that lookup. -/
example : NumberedBy 2 [.app Demo.even (.app Demo.suc (.fvar 0)), .fvar 1] ∧
    Suits Demo.K [] [some Demo.nat, some .boolTy] Demo.zero Demo.nat ∧
    Suits Demo.K [] [some Demo.nat, some .boolTy] Demo.prop .boolTy ∧ PlainType Demo.nat :=
  ⟨rfl, Or.inl ⟨Demo.s_zero, rfl⟩, Or.inl ⟨Demo.s_prop, rfl⟩, rfl, by
    intro a ha; simp [Term.atoms] at ha; subst ha; simp⟩

/-- Disagreement: inserting the same pair with other types for its variables hides the first insertion, and
the lookup of an instance of the first finds nothing. -/
theorem C28_hidden_by_types : ∃ (p : Tree Nat),
    PairTree p [(.fvar 0, .fvar 0, 1, [some Demo.nat]), (.fvar 0, .fvar 0, 2, [some .boolTy])] ∧
    p.findPair Demo.K 5 Demo.zero Demo.zero [] = some none :=
  ⟨((Tree.empty.insertPair (.fvar 0) (.fvar 0) 1 [some Demo.nat]).get (by decide +kernel)
      |>.insertPair (.fvar 0) (.fvar 0) 2 [some .boolTy]).get (by decide +kernel),
    .insert (.insert .empty (Option.some_get _).symm) (Option.some_get _).symm, by with_unfolding_all rfl⟩

/-- Disagreement: a pattern whose type variable does not occur in its terms is never found. -/
theorem C28_phantom_type_variable : ∃ (p : Tree Nat),
    PairTree p [(.fvar 1, .fvar 1, 1, [some .type0, some (.fvar 0)])] ∧
    p.findPair Demo.K 5 Demo.zero Demo.zero [] = some none :=
  ⟨(Tree.empty.insertPair (.fvar 1) (.fvar 1) 1 [some .type0, some (.fvar 0)]).get (by decide +kernel),
    .insert .empty (Option.some_get _).symm, by with_unfolding_all rfl⟩

/-- `suc` applied `n` times to a term. -/
def sucs : Nat → Term → Term
  | 0, t => t
  | n + 1, t => .app Demo.suc (sucs n t)

theorem find_no_entries {σ : Type} {md : List LCtx} {cb : σ → Nat → List Term → σ × Bool} (n : Nat) (key : Key)
    (ts : List Term) (Γ : LCtx) (rs : List Term) (x : σ) : find K fuel md cb n [] key ts Γ rs x = some (x, true) := by
  cases n <;> cases ts <;> simp [find]

/-- Going down along a pattern that is equal to the query until the stack limit. -/
theorem find_deep {σ : Type} {md : List LCtx} {cb : σ → Nat → List Term → σ × Bool} : ∀ (n m : Nat) (key k : Key)
    (id : Nat) (rest qs : List Term) (Γ : LCtx) (x : σ), n ≤ 2 * m → keyTerms (sucs m Demo.zero :: qs) = some k →
    find K fuel md cb n [(key ++ k, id)] key (sucs m Demo.zero :: rest) Γ [] x = some (x, false) := by
  intro n
  induction n using Nat.strongRecOn with
  | ind n ih =>
    intro m key k id rest qs Γ x hn hk
    have sub1 : ∀ (e : Key) (k1 : Key), subtrie [(key ++ (e ++ k1), id)] (key ++ e) = [(key ++ (e ++ k1), id)] := by
      intro e k1; rw [← List.append_assoc]; simp [subtrie]
    cases n with
    | zero => simp [find]
    | succ n =>
      obtain ⟨m, rfl⟩ : ∃ m', m = m' + 1 := ⟨m - 1, by omega⟩
      rw [sucs, keyTerms_cons, Option.bind_eq_some_iff] at hk
      obtain ⟨⟨e, cs⟩, hr, hk⟩ := hk
      simp only [root, Option.some.injEq, Prod.mk.injEq] at hr
      obtain ⟨rfl, rfl⟩ := hr
      rw [Option.map_eq_some_iff] at hk
      obtain ⟨k1, hk, rfl⟩ := hk
      dsimp only [List.cons_append, List.nil_append] at hk ⊢
      have v1 : subtrie [(key ++ (Edge.application.bytes ++ k1), id)] (key ++ (Edge.var 0).bytes) = [] := by
        simp [subtrie, Edge.bytes, Edge.discriminant, Edge.payload]
      simp only [find, List.isEmpty_cons, Bool.false_eq_true, if_false, alternatives, List.length_nil,
        List.range_zero, List.filter_nil, List.map_nil, List.nil_append, sucs, structural, tryAll, v1,
        find_no_entries, sub1]
      cases n with
      | zero => simp [find]
      | succ n =>
        rw [keyTerms_cons, Option.bind_eq_some_iff] at hk
        obtain ⟨⟨e, cs⟩, hr, hk⟩ := hk
        simp only [root, atomEdge, Option.map_some, Option.some.injEq, Prod.mk.injEq] at hr
        obtain ⟨rfl, rfl⟩ := hr
        rw [Option.map_eq_some_iff] at hk
        obtain ⟨k2, hk, rfl⟩ := hk
        dsimp only [List.nil_append] at hk ⊢
        rw [← List.append_assoc]
        have v2 : subtrie [(key ++ Edge.application.bytes ++ ((Edge.symbol (.global 0 1)).bytes ++ k2), id)]
            (key ++ Edge.application.bytes ++ (Edge.var 0).bytes) = [] := by
          simp [subtrie, Edge.bytes, Edge.discriminant, Edge.payload]
        have sub2 : subtrie [(key ++ Edge.application.bytes ++ ((Edge.symbol (.global 0 1)).bytes ++ k2), id)]
            (key ++ Edge.application.bytes ++ (Edge.symbol (.global 0 1)).bytes) =
            [(key ++ Edge.application.bytes ++ (Edge.symbol (.global 0 1)).bytes ++ k2, id)] := by
          rw [← List.append_assoc]; simp [subtrie]
        simp only [find, List.isEmpty_cons, Bool.false_eq_true, if_false, alternatives, List.length_nil,
          List.range_zero, List.filter_nil, List.map_nil, List.nil_append, structural, atomEdge, Option.map_some,
          Option.toList_some, tryAll, v2, find_no_entries, sub2]
        rw [ih n (by omega) m _ k2 id rest qs Γ x (by omega) hk]

/-- Disagreement: a query whose common part with the pattern is deeper than the stack limit is not found. -/
theorem C28_stack_limit : ∃ (p : Tree Nat),
    PairTree p [(sucs 300 Demo.zero, .fvar 0, 1, [some Demo.nat])] ∧
    p.findPair K fuel (sucs 300 Demo.zero) Demo.zero [] = some none := by
  have hkey : ∀ m, ∃ k, keyTerms [sucs m Demo.zero, .fvar 0] = some k := by
    intro m
    refine (keyTerms_some _).2 ?_
    have : ∀ m, NoClass (sucs m Demo.zero) := by
      intro m
      induction m with
      | zero => intro a b h; simp [sucs, Term.atoms] at h
      | succ m ih => intro a b h; simp [sucs, Term.atoms] at h; exact ih a b h
    intro t ht
    simp only [List.mem_cons, List.not_mem_nil, or_false] at ht
    rcases ht with rfl | rfl
    · exact this m
    · intro a b h; simp [Term.atoms] at h
  obtain ⟨k, hk⟩ := hkey 300
  refine ⟨Tree.empty.put k 1 [some Demo.nat], .insert .empty ?_, ?_⟩
  · simp only [Tree.insertPair, keyPair]; rw [hk]; rfl
  · have h := find_deep (K := K) (fuel := fuel) (md := [[some Demo.nat]]) (cb := firstMatch) 500 300 [] k 0
      [Demo.zero] [.fvar 0] [] none (by omega) hk
    have e : subtrie (Tree.empty.put k 1 [some Demo.nat] : Tree Nat).trie.entries [] = [([] ++ k, 0)] := rfl
    simp only [Tree.findPair, Tree.first, e]
    rw [show (Tree.empty.put k 1 [some Demo.nat] : Tree Nat).metadata = [[some Demo.nat]] from rfl,
      show stackLimit = 500 from rfl, h]

/-! ### C28, clauses -/

/-- What is found for a clause is the value of the last insertion of a clause with the same signs that,
literal by literal, has the query as an instance. -/
theorem C28_clause_sound {p : Tree α} {h : List (Clause × α)} (hp : ClauseTree p h)
    (hfit : ∀ e ∈ h, LitsFit e.1.lits) {c : Clause} (hc : c.lits ≠ []) (hf : LitsFit c.lits) {v : α}
    (hfind : p.findClause K fuel c = some (some v)) :
    ∃ h1 h2 d rs, h = h1 ++ (d, v) :: h2 ∧ (∀ e ∈ h2, e.1.lits ≠ d.lits) ∧
      c.lits = d.lits.map (fun l => ⟨l.positive, instantiate rs l.left, instantiate rs l.right⟩) ∧
      (∀ r ∈ rs, r.escapes = false) ∧
      (CtxOk c.ctx → (∀ l ∈ c.lits, ∃ S, SHasType K c.ctx l.left S ∧ SHasType K c.ctx l.right S) →
        ∀ i r T, rs[i]? = some r → d.ctx.get i = some T → PlainType T → SHasType K c.ctx r T) := by
  simp only [Tree.findClause, Option.map_eq_some_iff] at hfind
  obtain ⟨o, hfind, ⟨v', rs⟩, rfl, rfl⟩ := hfind
  obtain ⟨id, Γ', P, hh, hP, hv, hver⟩ := first_sound hf hfind
  obtain ⟨h1, h2, d, v'', rfl, hl, hv', hP', hsign, hw⟩ := hh.clause hp hfit hc
  rw [hv] at hv'; cases hv'
  rw [hP] at hP'; cases hP'
  obtain ⟨_, hi, hnum, hb⟩ := hw.spec
  refine ⟨h1, h2, d, rs, rfl, hl, sides_eq ?_ ?_, fun r hr => ?_, fun hΓ ht i r T hr hT hpl => ?_⟩
  · rw [hsign, List.map_map]; rfl
  · rw [← hi]; simp [sides, List.flatMap_map, List.map_flatMap]
  · obtain ⟨i, hi⟩ := List.getElem?_of_mem hr
    exact (verifyFrom_true.1 hver i r hi).1
  · refine verify_typed hΓ hb (hw.part (Δ := c.ctx) ?_ (by simp)) hver hr hT hpl
    intro u hu
    simp only [sides, List.mem_flatMap, List.mem_cons, List.not_mem_nil, or_false] at hu
    obtain ⟨l, hl, hu⟩ := hu
    obtain ⟨S, t1, t2⟩ := ht l hl
    rcases hu with rfl | rfl
    · exact ⟨BCtx.nil, _, 0, fun _ => rfl, t1, (HasType.fscoped hΓ t1.typed).1⟩
    · exact ⟨BCtx.nil, _, 0, fun _ => rfl, t2, (HasType.fscoped hΓ t2.typed).1⟩

/-- Where all pattern variables have plain types, looking up a well-typed clause does not panic. -/
theorem C28_clause_total {p : Tree α} {h : List (Clause × α)} (hp : ClauseTree p h)
    (hfit : ∀ e ∈ h, LitsFit e.1.lits)
    (hpl : ∀ e ∈ h, ∀ i T, e.1.ctx.get i = some T → PlainType T ∧ T.size ≤ fuel)
    {c : Clause} (hc : c.lits ≠ []) (hf : LitsFit c.lits) (hΓ : CtxOk c.ctx)
    (ht : ∀ l ∈ c.lits, ∃ S, SHasType K c.ctx l.left S ∧ SHasType K c.ctx l.right S) :
    p.findClause K fuel c ≠ none := by
  intro hfind
  simp only [Tree.findClause, Option.map_eq_none_iff] at hfind
  obtain ⟨id, Γ', rs, P, hh, hP, hver⟩ := first_total hf (hp.inv hfit hc)
    (fun e he => ⟨(hp.built.1.ids e he).1, (hp.built.1.ids e he).2.1⟩) hfind
  obtain ⟨h1, h2, d, v'', rfl, hl, hv', hP', hsign, hw⟩ := hh.clause hp hfit hc
  rw [hP] at hP'; cases hP'
  refine verify_total hΓ hw.spec.2.2.2 (hw.part (Δ := c.ctx) ?_ (by simp)) (hpl (d, v'') (by simp)) hver
  intro u hu
  simp only [sides, List.mem_flatMap, List.mem_cons, List.not_mem_nil, or_false] at hu
  obtain ⟨l, hl, hu⟩ := hu
  obtain ⟨S, t1, t2⟩ := ht l hl
  rcases hu with rfl | rfl
  · exact ⟨BCtx.nil, _, 0, fun _ => rfl, t1, (HasType.fscoped hΓ t1.typed).1⟩
  · exact ⟨BCtx.nil, _, 0, fun _ => rfl, t2, (HasType.fscoped hΓ t2.typed).1⟩

/-- If a stored clause generalizes the query, literal by literal, something is found; under the conditions of
`C28_pair_complete`. -/
theorem C28_clause_complete {p : Tree α} {h1 h2 : List (Clause × α)} {d : Clause} {v : α}
    (hp : ClauseTree p (h1 ++ (d, v) :: h2)) (hl : ∀ e ∈ h2, e.1.lits ≠ d.lits)
    (hfit : ∀ e ∈ h1 ++ (d, v) :: h2, LitsFit e.1.lits) (hd : d.lits ≠ []) {rs : List Term} {c : Clause}
    (hΓ : CtxOk c.ctx) (hfuel : 0 < fuel) (hnum : NumberedBy rs.length (sides d.lits))
    (hrs : ∀ i r, rs[i]? = some r → r.escapes = false ∧ ∀ T, d.ctx.get i = some T → Suits K c.ctx d.ctx r T)
    (hcl : c.lits = d.lits.map fun l => ⟨l.positive, instantiate rs l.left, instantiate rs l.right⟩)
    (hf : LitsFit c.lits) (hsz : ((sides c.lits).map Term.size).sum < 500) :
    p.findClause K fuel c ≠ some none := by
  intro hfind
  simp only [Tree.findClause, Option.map_eq_some_iff, Option.map_eq_none_iff] at hfind
  obtain ⟨o, hfind, rfl⟩ := hfind
  obtain ⟨Γ', hw⟩ := Walk.of_instance _ (sides d.lits) [] rs c.ctx (Nat.le_refl _) List.nil_prefix hnum
  have hsides : (sides d.lits).map (instantiate rs) = sides c.lits := by
    rw [hcl]; simp [sides, List.flatMap_map, List.map_flatMap]
  rw [hsides] at hw
  obtain ⟨x1, x2, x3⟩ := Hit.of_clause hp hl hfit hd (c := c) (by rw [hcl, List.map_map]; rfl) hw
  exact first_complete hf (by simpa [stackLimit] using hsz) hfind x1 x3
    (verify_suits hΓ hw.spec.2.2.2 hfuel hrs)

/-- A tree with the clause `even(x0)`, `x0 : nat`. -/
def demoPdtClause : Tree Nat :=
  (Tree.empty.insertClause ⟨[⟨true, .app Demo.even (.fvar 0), .tt⟩], [some Demo.nat]⟩ 3).get (by decide +kernel)

/-- Non-vacuity: a lookup in a tree of clauses. -/
example : ClauseTree demoPdtClause [(⟨[⟨true, .app Demo.even (.fvar 0), .tt⟩], [some Demo.nat]⟩, 3)] ∧
    demoPdtClause.findClause Demo.K 5 ⟨[⟨true, .app Demo.even Demo.zero, .tt⟩], []⟩ = some (some 3) ∧
    demoPdtClause.findClause Demo.K 5 ⟨[⟨false, .app Demo.even Demo.zero, .tt⟩], []⟩ = some none :=
  ⟨.insert .empty (Option.some_get _).symm, by with_unfolding_all rfl, by with_unfolding_all rfl⟩

/-- Disagreement: looking up the empty clause in a tree with another clause panics. -/
theorem C28_empty_clause_panics : demoPdtClause.findClause Demo.K 5 ⟨[], []⟩ = none := by with_unfolding_all rfl

/-! ### C28, terms with all their values -/

/-- A search through a tree of terms offers to the callback only ids of stored patterns that generalize the
query, with all the values inserted for the pattern in order. -/
theorem C28_term_sound {σ : Type} {p : Tree (List α)} {h : List (Term × α × LCtx)} (hp : TermTree p h)
    (hfit : ∀ e ∈ h, Fits e.1) {s : Term} (hs : Fits s) {Γ : LCtx} (cb : σ → Nat → List Term → σ × Bool)
    (I : σ → Prop)
    (hcb : ∀ x id rs t vs, I x → p.values[id]? = some vs → vs ≠ [] →
      vs = (h.filter fun e => decide (e.1 = t)).map (fun e => e.2.1) → instantiate rs t = s →
      (∀ r ∈ rs, r.escapes = false) → I (cb x id rs).1)
    {x x' : σ} {b : Bool} (hx : I x) (hfind : p.findTerm K fuel cb s Γ x = some (x', b)) : I x' := by
  refine find_keeps I stackLimit _ [] [s] Γ [] (by simpa using hs) (by simp [stackLimit]) hfind ?_ hx
  intro x1 id Γ' rs P hI hh _ hver
  obtain ⟨t, h1, h2, v, P', rfl, hn, hv, hP', hw⟩ := hh.term hp hfit
  obtain ⟨_, hi, _, _⟩ := hw.spec
  simp only [List.map_cons, List.map_nil, List.cons.injEq, and_true] at hi
  refine hcb x1 id rs t _ hI hv ?_ rfl hi fun r hr => ?_
  · simp
  · obtain ⟨i, hi⟩ := List.getElem?_of_mem hr
    exact (verifyFrom_true.1 hver i r hi).1

/-- A search that is not stopped by the callback offers it every stored pattern that generalizes the query:
a property that the callback establishes for that pattern and never destroys holds in the end. -/
theorem C28_term_complete {σ : Type} {p : Tree (List α)} {h1 h2 : List (Term × α × LCtx)} {t : Term} {v : α}
    {P : LCtx} (hp : TermTree p (h1 ++ (t, v, P) :: h2)) (hn : ∀ e ∈ h1, e.1 ≠ t)
    (hfit : ∀ e ∈ h1 ++ (t, v, P) :: h2, Fits e.1) {rs : List Term} {Γ : LCtx} (hΓ : CtxOk Γ)
    (hfuel : 0 < fuel) (hnum : NumberedBy rs.length [t])
    (hrs : ∀ i r, rs[i]? = some r → r.escapes = false ∧ ∀ T, P.get i = some T → Suits K Γ P r T)
    (hs : Fits (instantiate rs t))
    (cb : σ → Nat → List Term → σ × Bool) (Q : σ → Prop) (hQ : ∀ x id rs, Q x → Q (cb x id rs).1)
    (hcb : ∀ x id, p.values[id]? =
      some (((h1 ++ (t, v, P) :: h2).filter fun e => decide (e.1 = t)).map fun e => e.2.1) → Q (cb x id rs).1)
    {x x' : σ} (hfind : p.findTerm K fuel cb (instantiate rs t) Γ x = some (x', true)) : Q x' := by
  obtain ⟨Γ', hw⟩ := Walk.of_instance _ [t] [] rs Γ (Nat.le_refl _) List.nil_prefix hnum
  obtain ⟨id, x1, x2, x3⟩ := Hit.of_term hp hn hfit hw
  exact find_true (Q := Q) hQ stackLimit _ [] [instantiate rs t] Γ [] (by simpa using hs)
    (by simp [stackLimit]) (subtrie_nodup p.trie.nodup []) hfind x1 x2
    (verify_suits hΓ hw.spec.2.2.2 hfuel hrs) fun x _ => hcb x id x3

/-- A query with fewer than 500 components is not cut short by the stack limit: the search answers `false`
only if the callback did. -/
theorem C28_term_not_cut {σ : Type} {p : Tree (List α)} {s : Term} (hs : Fits s) {Γ : LCtx}
    (cb : σ → Nat → List Term → σ × Bool) (hcb : ∀ x id rs, (cb x id rs).2 = true) (hsz : s.size < 500)
    {x x' : σ} {b : Bool} (hfind : p.findTerm K fuel cb s Γ x = some (x', b)) : b = true := by
  cases b with
  | true => rfl
  | false =>
    obtain ⟨s1, id, _, rs', P, _, _, _, h⟩ := find_false stackLimit _ [] [s] Γ [] (by simpa using hs)
      (by simp [stackLimit]) (by simpa [stackLimit] using hsz) hfind
    have := hcb s1 id rs'
    rw [h] at this; cases this

/-- Non-vacuity: two values for one pattern. -/
example : ∃ p : Tree (List Nat), TermTree p [(.app Demo.suc (.fvar 0), 4, [some Demo.nat]),
      (.app Demo.suc (.fvar 0), 5, [some Demo.nat])] ∧
    p.findTerm Demo.K 5 (fun x id rs => (x ++ [(p.values[id]?, rs)], true)) (.app Demo.suc Demo.zero) [] [] =
      some ([(some [4, 5], [Demo.zero])], true) :=
  ⟨((Tree.empty.insertOrAppend (.app Demo.suc (.fvar 0)) 4 [some Demo.nat]).get (by decide +kernel)
      |>.insertOrAppend (.app Demo.suc (.fvar 0)) 5 [some Demo.nat]).get (by decide +kernel),
    .insert (.insert .empty (Option.some_get _).symm) (Option.some_get _).symm, by with_unfolding_all rfl⟩

/-! ### C28, sets of literals -/

/-- What a literal set finds: the id of an inserted literal, whether the signs agree, whether the sides were
exchanged, and a map that turns the sides of the inserted literal into those of the query. -/
theorem C28_literal_sound {p : Tree Entry} {h : List (Literal × Nat × LCtx)} (hp : LiteralTree p h)
    (hfit : ∀ e ∈ h, ∀ x ∈ literalPairs e.1 e.2.1 e.2.2, Fits x.1 ∧ Fits x.2.1)
    {q : Literal} (hl : Fits q.left) (hr : Fits q.right) {Γ : LCtx} {same flipped : Bool} {id : Nat} {m : VMap}
    (hfind : findWithMap K fuel p q Γ = some (some (same, id, flipped, m))) :
    ∃ l P, (l, id, P) ∈ h ∧ same = decide (l.positive = q.positive) ∧
      m.apply l.left = (if flipped then q.right else q.left) ∧
      m.apply l.right = (if flipped then q.left else q.right) := by
  simp only [findWithMap] at hfind
  split at hfind
  · cases hfind
  · cases hfind
  · rename_i e rs hpair
    simp only [Option.some.injEq, Option.map_eq_some_iff, Prod.mk.injEq] at hfind
    obtain ⟨m', hm, rfl, rfl, rfl, rfl⟩ := hfind
    obtain ⟨id', Γ', P, hh, hP, hv, hver⟩ := first_sound (by simp [hl, hr]) hpair
    obtain ⟨h1, h2, a, b, v', P', hH, hlast, hv', hP', hw⟩ := hh.pair hp.pairs (by
      intro e he
      obtain ⟨x, hx, he⟩ := List.mem_flatMap.1 he
      exact hfit x hx e he)
    rw [hv] at hv'; cases hv'
    have hmem : (a, b, e, P') ∈ h.flatMap fun e => literalPairs e.1 e.2.1 e.2.2 := by rw [hH]; simp
    obtain ⟨⟨l, id, P0⟩, hx, he⟩ := List.mem_flatMap.1 hmem
    obtain ⟨s1, s2, m1, s3, s4, s5⟩ := literal_map he hw
    dsimp only at s1 s2 s3 s4 s5
    rw [s3] at hm; cases hm
    subst s2
    exact ⟨l, P0, hx, by rw [s1], s4, s5⟩

/-- The variant with the map answers whenever the one without does, and agrees with it. -/
theorem C28_literal_agree {p : Tree Entry} {h : List (Literal × Nat × LCtx)} (hp : LiteralTree p h)
    (hfit : ∀ e ∈ h, ∀ x ∈ literalPairs e.1 e.2.1 e.2.2, Fits x.1 ∧ Fits x.2.1)
    {q : Literal} (hl : Fits q.left) (hr : Fits q.right) {Γ : LCtx} :
    findGeneralization K fuel p q Γ =
      (findWithMap K fuel p q Γ).map (Option.map fun x => (x.1, x.2.1, x.2.2.1)) := by
  simp only [findWithMap, findGeneralization]
  cases hpair : p.findPair K fuel q.left q.right Γ with
  | none => rfl
  | some o =>
    cases o with
    | none => rfl
    | some x =>
      obtain ⟨e, rs⟩ := x
      obtain ⟨id', Γ', P, hh, hP, hv, hver⟩ := first_sound (by simp [hl, hr]) hpair
      obtain ⟨h1, h2, a, b, v', P', hH, hlast, hv', hP', hw⟩ := hh.pair hp.pairs (by
        intro e he
        obtain ⟨x, hx, he⟩ := List.mem_flatMap.1 he
        exact hfit x hx e he)
      rw [hv] at hv'; cases hv'
      have hmem : (a, b, e, P') ∈ h.flatMap fun e => literalPairs e.1 e.2.1 e.2.2 := by rw [hH]; simp
      obtain ⟨⟨l, id, P0⟩, hx, he⟩ := List.mem_flatMap.1 hmem
      obtain ⟨s1, s2, m1, s3, s4, s5⟩ := literal_map he hw
      dsimp only at s3
      simp [s3]

/-- A set with the literal `add(x0, x1) = add(x1, x0)`, which cannot be oriented. -/
def demoPdtLiterals : Tree Entry :=
  (insertLiteral .empty ⟨true, .app (.app Demo.add (.fvar 0)) (.fvar 1), .app (.app Demo.add (.fvar 1)) (.fvar 0)⟩
    9 [some Demo.nat, some Demo.nat]).get (by decide +kernel)

/-- Non-vacuity: a lookup in a set of literals. -/
example : LiteralTree demoPdtLiterals [(⟨true, .app (.app Demo.add (.fvar 0)) (.fvar 1),
      .app (.app Demo.add (.fvar 1)) (.fvar 0)⟩, 9, [some Demo.nat, some Demo.nat])] ∧
    findWithMap Demo.K 5 demoPdtLiterals ⟨false, .app (.app Demo.add Demo.zero) (.app Demo.suc Demo.zero),
      .app (.app Demo.add (.app Demo.suc Demo.zero)) Demo.zero⟩ [] =
      some (some (false, 9, true, [some (.app Demo.suc Demo.zero), some Demo.zero])) :=
  ⟨.insert .empty (Option.some_get _).symm, by with_unfolding_all rfl⟩

end Acorn
