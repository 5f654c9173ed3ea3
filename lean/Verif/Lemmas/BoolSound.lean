/-
Soundness and completeness of boolean reductions of clauses.
-/
import Verif.Lemmas.BoolSets
namespace Acorn
namespace Spec
open Term

universe u

variable {K : KCtx} {Γ : LCtx} {M : Interp.{u}}

theorem ctxOk_of {Γ : LCtx} (ho : CtxOrdered Γ) (hc : CtxClosed Γ) : CtxOk Γ :=
  fun i T h => ⟨hc i T h, fun j hj => (ho i T h j hj).2⟩

theorem CtxOrdered.push {A : Term} (ho : CtxOrdered Γ) (hA : ∀ j, A.hasVar j = true → (Γ.get j).isSome = true) :
    CtxOrdered (Γ.pushTy A) := by
  intro i T h j hj
  rcases get_pushTy_inv h with h1 | ⟨rfl, rfl⟩
  · obtain ⟨a, b⟩ := ho i T h1 j hj
    obtain ⟨B, hB⟩ := Option.isSome_iff_exists.1 b
    exact ⟨a, by rw [get_pushTy hB]; rfl⟩
  · obtain ⟨B, hB⟩ := Option.isSome_iff_exists.1 (hA j hj)
    exact ⟨get_lt hB, by rw [get_pushTy hB]; rfl⟩

theorem openForall_inv {t r : Term} {Γ' : LCtx} (e : openForall t Γ = some (r, Γ')) :
    ∃ A b, t = .bind .all A b ∧ Γ' = Γ.pushTy A := by
  unfold openForall at e
  split at e
  · rename_i A b
    simp only [Option.bind_eq_bind, Option.bind_eq_some_iff] at e
    obtain ⟨x, _, e⟩ := e
    cases e
    exact ⟨A, b, rfl, rfl⟩
  · cases e

theorem openExists_inv {t r : Term} {Γ' : LCtx} (e : openExists t Γ = some (r, Γ')) :
    ∃ A b, t = .bind .ex A b ∧ Γ' = Γ.pushTy A := by
  unfold openExists at e
  split at e
  · rename_i A b
    simp only [Option.bind_eq_bind, Option.bind_eq_some_iff] at e
    obtain ⟨x, _, e⟩ := e
    cases e
    exact ⟨A, b, rfl, rfl⟩
  · cases e

theorem boolReplace_newctx {fuel n : Nat} {l : Literal} {k : BoolKind} {r : List Literal} {Γ' : LCtx}
    (e : boolReplace fuel K Γ n l k = some (r, Γ')) :
    Γ' = Γ ∨ ∃ b A body, l.left = .bind b A body ∧ Γ' = Γ.pushTy A := by
  cases k
  case posForallOpen =>
    simp only [boolReplace] at e
    split at e
    · cases e
    simp only [Option.bind_eq_bind, Option.bind_eq_some_iff, Prod.exists] at e
    obtain ⟨t, Γ1, eo, e⟩ := e
    cases e
    obtain ⟨A, b, h1, h2⟩ := openForall_inv eo
    exact Or.inr ⟨_, A, b, h1, h2⟩
  case negExistsOpen =>
    simp only [boolReplace] at e
    split at e
    · cases e
    simp only [Option.bind_eq_bind, Option.bind_eq_some_iff, Prod.exists] at e
    obtain ⟨t, Γ1, eo, e⟩ := e
    cases e
    obtain ⟨A, b, h1, h2⟩ := openExists_inv eo
    exact Or.inr ⟨_, A, b, h1, h2⟩
  case posExistsOpen => simp only [boolReplace] at e; cases e
  all_goals
    simp only [boolReplace, Option.bind_eq_bind, Option.bind_eq_some_iff] at e
    try (obtain ⟨_, _, e⟩ := e)
    repeat' split at e
    all_goals first | cases e | skip
    all_goals first | exact Or.inl rfl | skip
    all_goals
      simp only [Option.bind_eq_some_iff] at e
      obtain ⟨_, _, e⟩ := e
      cases e
      exact Or.inl rfl

theorem boolReplace_ordered {fuel n : Nat} {l : Literal} {k : BoolKind} {r : List Literal} {Γ' : LCtx}
    (ho : CtxOrdered Γ) (h : LitTyped K Γ l)
    (e : boolReplace fuel K Γ n l k = some (r, Γ')) : CtxOrdered Γ' := by
  rcases boolReplace_newctx e with rfl | ⟨b, A, body, h1, rfl⟩
  · exact ho
  · obtain ⟨T, hl, _⟩ := h
    refine ho.push fun j hj => hl.declared (i := j) ?_
    rw [h1, hasVar_bind, hj]; rfl

theorem FnDiseqSimple.at {ls : List Literal} (h : FnDiseqSimple K Γ ls) (hΓ : CtxOk Γ)
    (ht : LitsTyped K Γ ls) {l : Literal} (hl : l ∈ ls) (e : (fnNeqExists K Γ l).isSome = true) :
    FnTyped K Γ l := by
  unfold fnNeqExists at e
  split at e
  · cases e
  · rename_i hp
    split at e
    · rename_i S T eS eT
      split at e
      · cases e
      · split at e
        · rename_i A B
          obtain ⟨U, h1, _⟩ := ht l hl
          have := getType_unique hΓ h1 eS rfl
          subst this
          exact h l hl (by simpa using hp) _ _ h1
        · cases e
    · cases e

theorem FnDiseqSimple.kind {fuel : Nat} {c : Clause} (h : FnDiseqSimple K c.ctx c.lits)
    (hΓ : CtxOk c.ctx) (ht : LitsTyped K c.ctx c.lits) {k : BoolKind} {i : Nat} {t : Trace}
    (e : c.boolReductionAt fuel K k i = some t) (hk : k = .fnNeqToExists) (l : Literal)
    (hl : c.lits[i]? = some l) : FnTyped K c.ctx l := by
  subst hk
  obtain ⟨l', r, Γ', e1, e2, _⟩ := boolReductionAt_parts e
  rw [hl] at e1; cases e1
  simp only [boolReplace, Option.bind_eq_bind, Option.bind_eq_some_iff] at e2
  obtain ⟨a, ea, _⟩ := e2
  exact h.at hΓ ht (List.mem_of_getElem? hl) (by rw [ea]; rfl)

/-- What the reduction at a literal says, for each assignment of the context before the clause is
normalized. -/
theorem boolReductionAt_sound (L : Lawful K M) {c : Clause} (ho : CtxOrdered c.ctx)
    (hc : CtxClosed c.ctx) (h : LitsTyped K c.ctx c.lits) {fuel : Nat} {k : BoolKind} {i : Nat}
    {t : Trace} (hfn : k = .fnNeqToExists → ∀ l, c.lits[i]? = some l → FnTyped K c.ctx l)
    (e : c.boolReductionAt fuel K k i = some t) :
    CtxOrdered t.preCtx ∧ (∀ j T, c.ctx.get j = some T → t.preCtx.get j = some T) ∧
    ∀ ρ, Models M t.preCtx ρ → Models M c.ctx ρ ∧ LitsTyped K t.clause.ctx t.clause.lits ∧
      (∀ σ, (∀ j v, t.varIds[j]? = some v → σ j = ρ v) → ∀ β, LitsHold M ρ β c.lits →
        LitsHold M σ β t.clause.lits) := by
  obtain ⟨l, r, Γ', e1, e2, e3⟩ := boolReductionAt_parts e
  have hl : LitTyped K c.ctx l := h l (List.mem_of_getElem? e1)
  have R := boolReplace_spec (M := M) L (ctxOk_of ho hc) hl (fun hk => hfn hk l e1) e2
  obtain ⟨rfl, ids, hn, e4⟩ := normalizeBoolReduction_parts e3
  refine ⟨boolReplace_ordered ho hl e2, R.grow, fun ρ hρ => ?_⟩
  have ht : LitsTyped K t.preCtx (replaceLit c.lits i r) :=
    replace_typed (h.weaken R.grow) (R.typed ρ hρ)
  refine ⟨fun j T hj => hρ j T (R.grow j T hj), (normalizePrefilled_spec L hρ ht e4).1,
    fun σ hσ β hh => ?_⟩
  rw [normalizePrefilled_agree L ht e4 hn hρ hσ β]
  exact replace_sound e1 (R.sound ρ hρ β) hh

theorem boolReductionAt_extend {c : Clause} {fuel : Nat} {k : BoolKind} {i : Nat}
    {t : Trace} (e : c.boolReductionAt fuel K k i = some t) (ho : CtxOrdered t.preCtx)
    (hi : VarsInhabited M t.preCtx (· ∉ t.varIds)) {σ : Nat → M.D} (hσ : Models M t.clause.ctx σ) :
    ∃ ρ, Models M t.preCtx ρ ∧ ∀ j v, t.varIds[j]? = some v → σ j = ρ v := by
  obtain ⟨l, r, Γ', e1, e2, e3⟩ := boolReductionAt_parts e
  obtain ⟨rfl, ids, hn, e4⟩ := normalizeBoolReduction_parts e3
  exact normalizePrefilled_extend e4 hn ho hi hσ

/-- If the normalized reduction is true then so is, for each assignment, the reduced list of literals. -/
theorem normalized_back (L : Lawful K M) {ls : List Literal} {n : Nat} {t : Trace}
    (e : normalizeBoolReduction ls Γ n = some t) (ht : ClauseTrue M t.clause) {ρ : Nat → M.D}
    (hρ : Models M Γ ρ) (hls : LitsTyped K Γ ls) (β : Nat → M.D) : LitsHold M ρ β ls := by
  obtain ⟨_, ids, hn, e4⟩ := normalizeBoolReduction_parts e
  obtain ⟨_, m, h⟩ := normalizePrefilled_spec L hρ hls e4
  exact (h β).1 (ht _ m β)

theorem normalizeSubterms_spec (L : Lawful K M) {c c' : Clause} {fuel : Nat}
    (h : LitsTyped K c.ctx c.lits) (e : c.normalizeSubterms fuel = some c') {ρ : Nat → M.D}
    (hρ : Models M c.ctx ρ) : c'.ctx = c.ctx ∧ LitsTyped K c'.ctx c'.lits ∧
      ∀ β, (LitsHold M ρ β c'.lits ↔ LitsHold M ρ β c.lits) := by
  obtain ⟨ls, Γ⟩ := c
  simp only [Clause.normalizeSubterms, Option.bind_eq_bind, Option.pure_def,
    Option.bind_eq_some_iff] at e
  obtain ⟨ls', e1, e⟩ := e
  cases e
  refine ⟨rfl, ?_⟩
  simp only at h hρ e1 ⊢
  induction ls generalizing ls' with
  | nil => rw [List.mapM_nil] at e1; cases e1; exact ⟨h, fun _ => Iff.rfl⟩
  | cons l ls ih =>
    obtain ⟨l', ls2, e2, e3, rfl⟩ := mapM_cons_some e1
    obtain ⟨i1, i2⟩ := ih (fun a ha => h a (by simp [ha])) ls2 e3
    simp only [Option.bind_eq_some_iff] at e2
    obtain ⟨a, ea, b, eb, e2⟩ := e2
    cases e2
    obtain ⟨T, h1, h2⟩ := h l (by simp)
    have sa := normalizeTerm_same L hρ fuel h1 ea
    have sb := normalizeTerm_same L hρ fuel h2 eb
    refine ⟨?_, fun β => ?_⟩
    · intro x hx
      rcases List.mem_cons.1 hx with rfl | hx
      · exact ⟨T, sa.typed, sb.typed⟩
      · exact i1 x hx
    · have ea := sa.eval β (BModels.nil M ρ β)
      have eb := sb.eval β (BModels.nil M ρ β)
      have hd : LitHolds M ρ β ⟨l.positive, a, b⟩ ↔ LitHolds M ρ β l := by
        simp only [LitHolds, ea, eb]
      have := i2 β
      simp only [LitsHold, List.mem_cons, exists_eq_or_imp, hd] at this ⊢
      rw [this]

theorem normalizeWithTrace_back (L : Lawful K M) {c : Clause} {t : Trace}
    (h : LitsTyped K c.ctx c.lits) (e : c.normalizeWithTrace = some t) {ρ : Nat → M.D}
    (hρ : Models M c.ctx ρ) : LitsTyped K t.clause.ctx t.clause.lits ∧
      ∃ σ, Models M t.clause.ctx σ ∧
        ∀ β, (LitsHold M σ β t.clause.lits ↔ LitsHold M ρ β c.lits) := by
  simp only [Clause.normalizeWithTrace, Option.bind_eq_bind, Option.pure_def,
    Option.bind_eq_some_iff, Prod.exists] at e
  obtain ⟨c', ids, e1, e⟩ := e
  cases e
  obtain ⟨h1, h2, h3⟩ := normalizePrefilled_spec L hρ h e1
  exact ⟨h1, _, h2, h3⟩

/-- What the checker does to a reduction before it uses it can be undone. -/
theorem checkerClause_back (L : Lawful K M) {t : Trace} {d : Clause} {fuel : Nat}
    {inh : Trace → Bool} (e : t.checkerClause fuel inh = some d) (hd : ClauseTrue M d)
    (ht : ∀ ρ, Models M t.clause.ctx ρ → LitsTyped K t.clause.ctx t.clause.lits) :
    ClauseTrue M t.clause := by
  simp only [Trace.checkerClause] at e
  split at e
  · cases e
  · simp only [Option.bind_eq_bind, Option.bind_eq_some_iff] at e
    obtain ⟨c, e1, t1, e2, e⟩ := e
    split at e
    · cases e
    · simp only [Option.bind_eq_some_iff] at e
      obtain ⟨t2, e3, e⟩ := e
      split at e
      · cases e
      · cases e
        intro ρ hρ β
        obtain ⟨ec, h1, h2⟩ := normalizeSubterms_spec L (ht ρ hρ) e1 hρ
        obtain ⟨h3, σ, m3, h4⟩ := normalizeWithTrace_back L h1 e2 (by rw [ec]; exact hρ)
        obtain ⟨_, τ, m5, h6⟩ := normalizeWithTrace_back L h3 e3 m3
        exact (h2 β).1 ((h4 β).1 ((h6 β).1 (hd τ m5 β)))

/-- All the clauses of one checker reduction set being true, so is the clause. -/
theorem checkerReductionSets_complete (L : Lawful K M) {c : Clause} (ho : CtxOrdered c.ctx)
    (hc : CtxClosed c.ctx) (h : LitsTyped K c.ctx c.lits) {fuel : Nat} {inh : Trace → Bool}
    (hfn : ∀ l ∈ c.lits, (fnNeqExists K c.ctx l).isSome = true → FnTyped K c.ctx l)
    {sets : List (List Clause)} (e : c.checkerReductionSets fuel K inh = some sets)
    {s : List Clause} (hs : s ∈ sets) (ht : ∀ d ∈ s, ClauseTrue M d) : ClauseTrue M c := by
  simp only [Clause.checkerReductionSets, Option.bind_eq_bind, Option.pure_def,
    Option.bind_eq_some_iff] at e
  obtain ⟨rs, er, e⟩ := e
  cases e
  obtain ⟨hg, hat⟩ := findBoolReductions_spec er
  have hΓ := ctxOk_of ho hc
  have key : ∀ {k i t d}, (k, i, t) ∈ rs → t.checkerClause fuel inh = some d → ClauseTrue M d →
      ∃ l r Γ', c.lits[i]? = some l ∧ boolReplace fuel K c.ctx c.lits.length l k = some (r, Γ') ∧
        ReplOk K c.ctx M l r Γ' (isHalf k = false) ∧
        ∀ ρ, Models M Γ' ρ → ∀ β, LitsHold M ρ β (replaceLit c.lits i r) := by
    intro k i t d hm en hd
    obtain ⟨l, r, Γ', e1, e2, e3⟩ := boolReductionAt_parts (hat k i t hm)
    have hlm := List.mem_of_getElem? e1
    have hl : LitTyped K c.ctx l := h l hlm
    have R := boolReplace_spec (M := M) L hΓ hl (fun hk => hfn l hlm (by
      subst hk
      simp only [boolReplace, Option.bind_eq_bind, Option.bind_eq_some_iff] at e2
      obtain ⟨a, ea, _⟩ := e2
      rw [ea]; rfl)) e2
    have htt : ∀ ρ, Models M Γ' ρ → LitsTyped K Γ' (replaceLit c.lits i r) := fun ρ hρ =>
      replace_typed (h.weaken R.grow) (R.typed ρ hρ)
    refine ⟨l, r, Γ', e1, e2, R, fun ρ hρ β => ?_⟩
    refine normalized_back L e3 ?_ hρ (htt ρ hρ) β
    refine checkerClause_back L en hd fun _ _ => ?_
    obtain ⟨_, ids, hn, e4⟩ := normalizeBoolReduction_parts e3
    exact (normalizePrefilled_spec L hρ (htt ρ hρ) e4).1
  rcases boolReductionSets_spec hg s hs with ⟨k, i, t, d, hm, hk, en, rfl⟩ |
      ⟨k, k', i, t, t', d, d', hm, hm', hk, en, en', rfl⟩
  · obtain ⟨l, r, Γ', e1, e2, R, hh⟩ := key hm en (ht d (by simp))
    have hlm := List.mem_of_getElem? e1
    intro ρ hρ β
    refine Classical.byContradiction fun hne => hne ⟨l, hlm, ?_⟩
    refine R.complete hk ρ hρ β fun ρ' hρ' ha => ?_
    rcases replace_cases (hh ρ' hρ' β) with h1 | h1
    · exact absurd ((holds_of_agree (c := c) h ha β).1 h1) hne
    · exact h1
  · obtain ⟨l, r, Γ', e1, e2, R, hh⟩ := key hm en (ht d (by simp))
    obtain ⟨l2, r2, Γ2, e1', e2', R2, hh2⟩ := key hm' en' (ht d' (by simp))
    rw [e1] at e1'
    cases e1'
    have hlm := List.mem_of_getElem? e1
    have g1 := boolReplace_ctx (paired_half hk).1 e2
    have g2 := boolReplace_ctx (paired_half hk).2 e2'
    subst g1 g2
    intro ρ hρ β
    refine Classical.byContradiction fun hne => hne ⟨l, hlm, ?_⟩
    exact boolReplace_pair L hΓ (h l hlm) hk e2 e2' hρ β ((replace_cases (hh ρ hρ β)).resolve_left hne)
      ((replace_cases (hh2 ρ hρ β)).resolve_left hne)

end Spec
end Acorn
