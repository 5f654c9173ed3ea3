/-
Normalization of plain clauses, when no type is empty.
-/
import Verif.Lemmas.Tidy
import Verif.Lemmas.ClauseNew
namespace Acorn
open Spec Term

universe u

variable {K : KCtx} {Γ : LCtx} {M : Interp.{u}}

/-! ### Contexts of values -/

theorem Spec.ValueVars.ordered (h : ValueVars K Γ) : CtxOrdered Γ :=
  fun i T hi j hj => by rw [Small.noVars (h i T hi) j] at hj; cases hj

theorem Spec.ValueVars.closed (h : ValueVars K Γ) : CtxClosed Γ := fun i T hi => Small.closed (h i T hi)

theorem Spec.ValueVars.inhabited (hN : NoEmpty K M) (h : ValueVars K Γ) : CtxInhabited M Γ :=
  fun i T hi ρ => (hN T (h i T hi)).imp fun _ hd β => hd ρ β

theorem Spec.ValueVars.nil : ValueVars K [] := by intro i T h; simp [LCtx.get] at h

theorem Spec.ValueVars.model (hN : NoEmpty K M) (h : ValueVars K Γ) : ∃ ρ, Models M Γ ρ := by
  have : ∀ i, ∃ d : M.D, ∀ T, Γ.get i = some T → ∀ ρ β, M.mem d (eval M ρ β T) := by
    intro i
    cases e : Γ.get i with
    | none =>
      obtain ⟨d, _⟩ := hN .boolTy boolTy_small
      exact ⟨d, fun T h => by cases h⟩
    | some T =>
      obtain ⟨d, hd⟩ := hN T (h i T e)
      exact ⟨d, fun U hU => by cases hU; exact hd⟩
  refine ⟨fun i => (this i).choose, fun i T hi β => (this i).choose_spec T hi _ β⟩

theorem NoVars.vmap {t : Term} (h : NoVars t) (g : Nat → Nat) : t.vmap g = t := by
  rw [vmap_congr (h := id) t fun i hi => by rw [h i] at hi; cases hi]
  exact sub_id t

theorem PlainTy.noVars {T : Term} (h : PlainTy K T) : NoVars T := h.elim Small.noVars NoVars.of_isKind

theorem get_remap {Γ' : LCtx} {ids : List Nat} (e : Γ.remap ids = some Γ') {k : Nat} {T : Term}
    (h : Γ'.get k = some T) : ∃ i U, ids[k]? = some i ∧ Γ.get i = some U ∧ T = U.byIds ids := by
  obtain ⟨h1, h2⟩ := remap_spec e
  have hlt : k < ids.length := by rw [← h1]; exact get_lt h
  obtain ⟨U, h3, _, h4⟩ := h2 k _ (List.getElem?_eq_getElem hlt)
  rw [h] at h4; cases h4
  exact ⟨_, U, List.getElem?_eq_getElem hlt, h3, rfl⟩

theorem Spec.ValueVars.remap (h : ValueVars K Γ) {Γ' : LCtx} {ids : List Nat} (e : Γ.remap ids = some Γ') :
    ValueVars K Γ' := by
  intro k T hk
  obtain ⟨i, U, _, h1, rfl⟩ := get_remap e hk
  have := h i U h1
  rw [Term.byIds, (Small.noVars this).vmap]; exact this

/-! ### Literals -/

/-- A plain literal. -/
structure Neat (K : KCtx) (Γ : LCtx) (l : Literal) : Prop where
  plain : LitPlain K Γ l
  left : SortFree l.left
  right : SortFree l.right

/-- A literal without beta redexes. -/
structure Crisp (l : Literal) : Prop where
  left : l.left.BetaFree
  right : l.right.BetaFree

theorem plainClause_iff {c : Clause} : PlainClause K c ↔ ValueVars K c.ctx ∧ ∀ l ∈ c.lits, Neat K c.ctx l := by
  constructor
  · rintro ⟨h1, h2, h3⟩
    exact ⟨h1, fun l hl => ⟨h2 l hl, fun a ha => h3 l hl a (by simp [ha]), fun a ha => h3 l hl a (by simp [ha])⟩⟩
  · rintro ⟨h1, h2⟩
    refine ⟨h1, fun l hl => (h2 l hl).plain, fun l hl a ha => ?_⟩
    rcases List.mem_append.1 ha with ha | ha
    · exact (h2 l hl).left a ha
    · exact (h2 l hl).right a ha

theorem Spec.PlainClause.neat {c : Clause} (h : PlainClause K c) {l : Literal} (hl : l ∈ c.lits) : Neat K c.ctx l :=
  (plainClause_iff.1 h).2 l hl

theorem Spec.PlainClause.typed {c : Clause} (h : PlainClause K c) : LitsTyped K c.ctx c.lits :=
  fun l hl => (h.lits l hl).typed

theorem neat_new {p : Bool} {l r : Term} : Neat K Γ (Literal.new p l r) ↔ Neat K Γ ⟨p, l, r⟩ := by
  have h : (SortFree (Literal.new p l r).left ∧ SortFree (Literal.new p l r).right) ↔ (SortFree l ∧ SortFree r) := by
    simp only [Literal.new, Literal.newWithFlip]
    split
    · exact And.comm
    · rfl
  constructor
  · rintro ⟨h1, h2, h3⟩; exact ⟨litPlain_new.1 h1, (h.1 ⟨h2, h3⟩).1, (h.1 ⟨h2, h3⟩).2⟩
  · rintro ⟨h1, h2, h3⟩; exact ⟨litPlain_new.2 h1, (h.2 ⟨h2, h3⟩).1, (h.2 ⟨h2, h3⟩).2⟩

theorem crisp_new {p : Bool} {l r : Term} (h : l.BetaFree) (h' : r.BetaFree) : Crisp (Literal.new p l r) := by
  simp only [Literal.new, Literal.newWithFlip]
  split
  · exact ⟨h', h⟩
  · exact ⟨h, h'⟩

theorem SortFree_tt : SortFree .tt := .sym rfl

/-- A boolean as a literal. -/
theorem neat_signed {p : Bool} {t : Term} (h : SHasType K Γ t .boolTy) (hs : SortFree t) :
    Neat K Γ (Literal.new p t .tt) :=
  neat_new.2 ⟨⟨_, .inl boolTy_small, h, STyped.valueSym rfl rfl⟩, hs, SortFree_tt⟩

theorem neat_normalize (L : Lawful K M) (hN : NoEmpty K M) (hv : ValueVars K Γ) {l : Literal} (h : Neat K Γ l) :
    Neat K Γ l.normalize ∧ (Crisp l → Crisp l.normalize) := by
  obtain ⟨ρ, hρ⟩ := hv.model hN
  obtain ⟨⟨T, hT, hl, hr⟩, s1, s2⟩ := h
  have sr := normClauseTerm_same L hρ hr
  have b1 : l.left.BetaFree → l.left.normClauseTerm.BetaFree := fun h => (BetaFree.normPolAux _ _ hl h).1
  have b2 : l.right.BetaFree → l.right.normClauseTerm.BetaFree := fun h => (BetaFree.normPolAux _ _ hr h).1
  simp only [Literal.normalize]
  split
  · rename_i ht
    have hr' := isTrue_eq sr.typed ht
    have hT : T = .boolTy := by
      have := sr.typed
      rw [hr'] at this
      exact tt_type this
    subst hT
    have htyp : SHasType K Γ (l.left.normSigned l.positive).1 .boolTy :=
      (normSigned_spec L hρ l.left.size l.positive (Nat.le_refl _) hl).1
    have hs : SortFree (l.left.normSigned l.positive).1 := SortFree.normSignedAux _ _ s1
    have hb : l.left.BetaFree → (l.left.normSigned l.positive).1.BetaFree := BetaFree.normSignedAux _ _ hl
    split
    · rename_i _ a b e
      have hs := hs.splitSym e
      have hb := fun h => (hb h).splitSym e
      obtain ⟨e1, e2⟩ := htyp.splitSym (s := .eq_) rfl e
      simp only [Term.apply, List.foldl] at e1
      rw [e1] at htyp
      obtain ⟨_, hT', ha, hb'⟩ := htyp.eq_inv
      exact ⟨neat_new.2 ⟨⟨_, .inl (Small.of_ctx hv hT'), ha, hb'⟩, hs _ (by simp), hs _ (by simp)⟩,
        fun h => crisp_new (hb h.left _ (by simp)) (hb h.left _ (by simp))⟩
    · exact ⟨neat_signed htyp hs, fun h => crisp_new (hb h.left) trivial⟩
  · have sl := normClauseTerm_same L hρ hl
    exact ⟨neat_new.2 ⟨⟨T, hT, sl.typed, sr.typed⟩, SortFree.normPolAux _ _ s1, SortFree.normPolAux _ _ s2⟩,
      fun h => crisp_new (b1 h.left) (b2 h.right)⟩

theorem neat_litsPass (L : Lawful K M) (hN : NoEmpty K M) (hv : ValueVars K Γ) {ls : List Literal}
    (h : ∀ l ∈ ls, Neat K Γ l) : (∀ l ∈ litsPass ls, Neat K Γ l) ∧
      ((∀ l ∈ ls, Crisp l) → ∀ l ∈ litsPass ls, Crisp l) := by
  constructor
  · intro l hl
    obtain ⟨⟨l0, h0, rfl⟩, _⟩ := mem_litsPass.1 hl
    exact (neat_normalize L hN hv (h l0 h0)).1
  · intro hc l hl
    obtain ⟨⟨l0, h0, rfl⟩, _⟩ := mem_litsPass.1 hl
    exact (neat_normalize L hN hv (h l0 h0)).2 (hc l0 h0)

theorem neat_byIds {Γ' : LCtx} {ids : List Nat} (e : Γ.remap ids = some Γ')
    {l : Literal} (hl : ∀ i, l.left.hasVar i = true ∨ l.right.hasVar i = true → i ∈ ids) (h : Neat K Γ l) :
    Neat K Γ' (Literal.new l.positive (l.left.byIds ids) (l.right.byIds ids)) ∧
      (Crisp l → Crisp (Literal.new l.positive (l.left.byIds ids) (l.right.byIds ids))) := by
  obtain ⟨⟨T, hT, h1, h2⟩, s1, s2⟩ := h
  have tp : ∀ {t : Term}, SHasType K Γ t T → (∀ i, t.hasVar i = true → i ∈ ids) → SHasType K Γ' (t.byIds ids) T := by
    intro t ht hi
    have := STyped.byIds e ht hi
    simp only [Jdg.sub] at this
    have e1 : Term.sub (fun i => .fvar (ids.idxOf i)) bid T = T := (PlainTy.noVars hT).vmap _
    rwa [e1] at this
  exact ⟨neat_new.2 ⟨⟨T, hT, tp h1 fun i hi => hl i (.inl hi), tp h2 fun i hi => hl i (.inr hi)⟩,
      s1.vmap _, s2.vmap _⟩, fun h => crisp_new (h.left.vmap _) (h.right.vmap _)⟩

/-! ### Clauses -/

/-- What a normalization of a plain clause gives. -/
structure Renewed (K : KCtx) (M : Interp.{u}) (c d : Clause) : Prop where
  plain : PlainClause K d
  crisp : (∀ l ∈ c.lits, Crisp l) → ∀ l ∈ d.lits, Crisp l
  truth : ClauseTrue M d ↔ ClauseTrue M c

theorem Renewed.trans {c d e : Clause} (h : Renewed K M c d) (h' : Renewed K M d e) : Renewed K M c e :=
  ⟨h'.plain, fun hc => h'.crisp (h.crisp hc), h'.truth.trans h.truth⟩

/-- Normalization before renaming the variables. -/
theorem renewed_litsPass (L : Lawful K M) (hN : NoEmpty K M) {ls : List Literal} (h : PlainClause K ⟨ls, Γ⟩) :
    Renewed K M ⟨ls, Γ⟩ ⟨litsPass ls, Γ⟩ := by
  have hp := neat_litsPass L hN h.vars fun l hl => h.neat hl
  refine ⟨plainClause_iff.2 ⟨h.vars, hp.1⟩, hp.2, ?_⟩
  exact forall_congr' fun ρ => forall_congr' fun hρ => forall_congr' fun β => (litsPass_spec L hρ h.typed).2 β

/-- Renaming the variables. -/
theorem renewed_rename (hN : NoEmpty K M) {ls ls' : List Literal} {ids ids' : List Nat} {Γ' : LCtx}
    (h : PlainClause K ⟨ls, Γ⟩) (hn : ids.Nodup) (e : litsNormVars Γ ids ls = some (ls', ids'))
    (e' : Γ.remap ids' = some Γ') : Renewed K M ⟨ls, Γ⟩ ⟨ls', Γ'⟩ := by
  obtain ⟨_, h2, h3, h4⟩ := litsNormVars_spec ls e
  have hls : ∀ l ∈ ls', Neat K Γ' l ∧ ((∀ l ∈ ls, Crisp l) → Crisp l) := by
    subst h4
    intro l hl
    obtain ⟨l0, h0, rfl⟩ := List.mem_map.1 hl
    obtain ⟨n, c⟩ := neat_byIds e' (h2 l0 h0) (h.neat h0)
    exact ⟨n, fun hc => c (hc l0 h0)⟩
  have hp : PlainClause K ⟨ls', Γ'⟩ := plainClause_iff.2 ⟨h.vars.remap e', fun l hl => (hls l hl).1⟩
  refine ⟨hp, fun hc l hl => (hls l hl).2 hc, ?_⟩
  have hh := (renumber_lits (K := K) (M := M) e e').2
  constructor
  · intro ht ρ hρ β
    exact (hh ρ β).1 (ht _ (models_remap e' hρ) β)
  · intro ht σ hσ β
    obtain ⟨ρ, m, ha⟩ := extend_assignment (h3 hn) e' h.vars.ordered (h.vars.inhabited hN).vars hσ
    have := (hh ρ β).2 (ht ρ m β)
    refine (Spec.holds_of_agree hp.typed (fun i hi => ?_) β).1 this
    simp only at hi
    rw [remap_length e'] at hi
    have hm := List.getElem_mem hi
    have := ha _ hm
    rw [(h3 hn).idxOf_getElem] at this
    rw [← this]
    simp [pullback, List.getD_eq_getElem?_getD, List.getElem?_eq_getElem hi]

theorem renewed_sort {ls : List Literal} (h : PlainClause K ⟨ls, Γ⟩) :
    Renewed K M ⟨ls, Γ⟩ ⟨dedupAdj (sortLits ls), Γ⟩ := by
  refine ⟨plainClause_iff.2 ⟨h.vars, fun l hl => ?_⟩, fun hc l hl => ?_, ?_⟩
  · simp only [mem_dedupAdj, mem_sortLits] at hl; exact h.neat hl
  · simp only [mem_dedupAdj, mem_sortLits] at hl; exact hc l hl
  · exact forall_congr' fun ρ => forall_congr' fun hρ => forall_congr' fun β => dedupSort_hold

theorem renewed_prefilled (L : Lawful K M) (hN : NoEmpty K M) {ls : List Literal} (h : PlainClause K ⟨ls, Γ⟩)
    {ids ids' : List Nat} {c : Clause} (hn : ids.Nodup) (e : normalizePrefilled ls Γ ids = some (c, ids')) :
    Renewed K M ⟨ls, Γ⟩ c := by
  simp only [normalizePrefilled, Option.bind_eq_bind, Option.bind_eq_some_iff, Prod.exists] at e
  obtain ⟨ls1, ids1, e1, Γ1, e2, e⟩ := e
  cases e
  have r1 := renewed_litsPass L hN h
  have r2 := renewed_rename hN r1.plain hn e1 e2
  exact (r1.trans r2).trans (renewed_sort r2.plain)

theorem renewed_pinned (L : Lawful K M) (hN : NoEmpty K M) {ls : List Literal} (h : PlainClause K ⟨ls, Γ⟩)
    {c : Clause} {n : Nat} (e : Clause.normalizePinned ⟨ls, Γ⟩ n = some c) : Renewed K M ⟨ls, Γ⟩ c := by
  simp only [Clause.normalizePinned, Clause.normVarsPinned, Option.bind_eq_bind, Option.bind_eq_some_iff,
    Prod.exists] at e
  obtain ⟨_, _, ⟨ls1, ids1, e1, Γ1, e2, ⟨⟩⟩, _, _, ⟨ls2, ids2, e3, Γ2, e4, ⟨⟩⟩, e⟩ := e
  cases e
  have r1 := renewed_litsPass L hN h
  have r2 := renewed_rename hN r1.plain List.nodup_range e1 e2
  have r3 := renewed_litsPass L hN r2.plain
  have r4 := renewed_rename hN r3.plain List.nodup_range e3 e4
  exact (((r1.trans r2).trans r3).trans r4).trans (renewed_sort r4.plain)

theorem renewed_new (L : Lawful K M) (hN : NoEmpty K M) {ls : List Literal} (h : PlainClause K ⟨ls, Γ⟩)
    {c : Clause} (e : Clause.new ls Γ = some c) : Renewed K M ⟨ls, Γ⟩ c := renewed_pinned L hN h e

theorem renewed_withTrace (L : Lawful K M) (hN : NoEmpty K M) {c : Clause} (h : PlainClause K c)
    {t : Trace} (e : c.normalizeWithTrace = some t) : Renewed K M c t.clause := by
  simp only [Clause.normalizeWithTrace, Option.bind_eq_bind, Option.bind_eq_some_iff, Prod.exists] at e
  obtain ⟨c', ids, e1, e⟩ := e
  cases e
  exact renewed_prefilled L hN h List.nodup_nil e1

theorem renewed_boolReduction (L : Lawful K M) (hN : NoEmpty K M) {ls : List Literal} (h : PlainClause K ⟨ls, Γ⟩)
    {n : Nat} {t : Trace} (e : normalizeBoolReduction ls Γ n = some t) : Renewed K M ⟨ls, Γ⟩ t.clause := by
  obtain ⟨_, ids, hn, e⟩ := Spec.normalizeBoolReduction_parts e
  exact renewed_prefilled L hN h hn e

/-- Normalizing the terms; afterwards there are no beta redexes. -/
theorem renewed_subterms (L : Lawful K M) (hN : NoEmpty K M) {c d : Clause} (h : PlainClause K c) {fuel : Nat}
    (e : c.normalizeSubterms fuel = some d) : Renewed K M c d ∧ ∀ l ∈ d.lits, Crisp l := by
  obtain ⟨ρ0, hρ0⟩ := h.vars.model hN
  have ec := (Spec.normalizeSubterms_spec L h.typed e hρ0).1
  have hls : ∀ l ∈ d.lits, Neat K c.ctx l ∧ Crisp l := by
    simp only [Clause.normalizeSubterms, Option.bind_eq_bind, Option.pure_def, Option.bind_eq_some_iff] at e
    obtain ⟨ls', e1, e⟩ := e
    cases e
    intro l hl
    obtain ⟨l0, h0, e2⟩ := Spec.mapM_mem e1 l hl
    simp only [Option.bind_eq_some_iff] at e2
    obtain ⟨a, ea, b, eb, e2⟩ := e2
    cases e2
    obtain ⟨⟨T, hT, h1, h2⟩, s1, s2⟩ := h.neat h0
    have ta := (normalizeTerm_same L hρ0 fuel h1 ea).typed
    have tb := (normalizeTerm_same L hρ0 fuel h2 eb).typed
    exact ⟨⟨⟨T, hT, ta, tb⟩, s1.normalizeTerm _ ea, s2.normalizeTerm _ eb⟩,
      (normalizeTerm_normal _ ea).betaFree ta, (normalizeTerm_normal _ eb).betaFree tb⟩
  refine ⟨⟨plainClause_iff.2 ⟨ec ▸ h.vars, fun l hl => ec ▸ (hls l hl).1⟩, fun _ l hl => (hls l hl).2, ?_⟩,
    fun l hl => (hls l hl).2⟩
  simp only [ClauseTrue, ec]
  exact forall_congr' fun ρ => forall_congr' fun hρ => forall_congr' fun β =>
    (Spec.normalizeSubterms_spec L h.typed e hρ).2.2 β

/-- What the checker does with a derived clause before using it. -/
theorem renewed_checker (L : Lawful K M) (hN : NoEmpty K M) {t : Trace} (h : PlainClause K t.clause) {d : Clause}
    {fuel : Nat} {inh : Trace → Bool} (e : t.checkerClause fuel inh = some d) :
    Renewed K M t.clause d ∧ ∀ l ∈ d.lits, Crisp l := by
  simp only [Trace.checkerClause] at e
  split at e
  · cases e
  · simp only [Option.bind_eq_bind, Option.bind_eq_some_iff] at e
    obtain ⟨c, e1, t1, e2, e⟩ := e
    split at e
    · cases e
    · simp only [Option.bind_eq_some_iff] at e
      obtain ⟨t2, e3, e⟩ := e
      split at e
      · cases e
      · cases e
        obtain ⟨r1, c1⟩ := renewed_subterms L hN h e1
        have r2 := renewed_withTrace L hN r1.plain e2
        have r3 := renewed_withTrace L hN r2.plain e3
        exact ⟨(r1.trans r2).trans r3, r3.crisp (r2.crisp c1)⟩

end Acorn
