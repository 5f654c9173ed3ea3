/-
The test before variables are dropped.
-/
import Verif.Lemmas.Inhabited
import Verif.Lemmas.CheckerSound
namespace Acorn
open Spec Term

universe u

variable {K : KCtx} {Γ : LCtx} {M : Interp.{u}}

/-! ### Keys -/

theorem addVar_below (ho : CtxOrdered Γ) {N : Nat} : ∀ (n : Nat) (busy ids : List Nat) (v : Nat) (ids' : List Nat),
    addVar Γ n busy ids v = some ids' → v < N → (∀ x ∈ ids, x < N) → ∀ x ∈ ids', x < N := by
  intro n
  induction n with
  | zero => intro busy ids v ids' e; simp [addVar] at e
  | succ n ih =>
    intro busy ids v ids' e hv hi
    simp only [addVar] at e
    split at e
    · cases e; exact hi
    · split at e
      · cases e
      · split at e
        · rename_i ids1 e1
          cases e
          have key : ∀ (l : List Nat) (b b' : List Nat), (∀ x ∈ l, x < N) → (∀ x ∈ b, x < N) →
              l.foldlM (addVar Γ n (v :: busy)) b = some b' → ∀ x ∈ b', x < N := by
            intro l
            induction l with
            | nil => intro b b' _ hb e; simp at e; subst e; exact hb
            | cons a l ihl =>
              intro b b' hl hb e
              simp only [List.foldlM_cons] at e
              cases e2 : addVar Γ n (v :: busy) b a with
              | none => rw [e2] at e; cases e
              | some b1 =>
                rw [e2] at e
                exact ihl b1 b' (fun x hx => hl x (by simp [hx])) (ih _ _ _ _ e2 (hl a (by simp)) hb) e
          intro x hx
          simp only [List.mem_append, List.mem_singleton] at hx
          rcases hx with hx | rfl
          · refine key _ _ _ (fun y hy => ?_) hi e1 x hx
            cases hg : Γ.get v with
            | none => rw [hg] at hy; simp at hy
            | some T =>
              rw [hg] at hy
              have := (ho v T hg y (mem_fvars.1 hy)).1
              omega
          · exact hv
        · cases e

theorem normVars_below (ho : CtxOrdered Γ) {N : Nat} (t : Term) : ∀ (ids : List Nat) (t' : Term) (ids' : List Nat),
    t.normVars Γ ids = some (t', ids') → (∀ i, t.hasVar i = true → i < N) → (∀ x ∈ ids, x < N) →
    ∀ x ∈ ids', x < N := by
  induction t with
  | atom a =>
    intro ids t' ids' e ht hi
    cases a with
    | fvar i =>
      simp only [Term.normVars] at e
      cases e1 : addVar Γ (Γ.length + 1) [] ids i with
      | none => rw [e1] at e; cases e
      | some ids1 =>
        rw [e1] at e
        cases e
        exact addVar_below ho _ _ _ _ _ e1 (ht i (by simp [hasVar, atoms])) hi
    | bvar i => simp only [Term.normVars] at e; cases e; exact hi
    | sym s => simp only [Term.normVars] at e; cases e; exact hi
  | app f a ihf iha =>
    intro ids t' ids' e ht hi
    simp only [Term.normVars] at e
    cases e1 : f.normVars Γ ids with
    | none => rw [e1] at e; cases e
    | some r1 =>
      obtain ⟨f', ids1⟩ := r1
      rw [e1] at e
      cases e2 : a.normVars Γ ids1 with
      | none => simp [e2] at e
      | some r2 =>
        obtain ⟨a', ids2⟩ := r2
        simp [e2] at e
        obtain ⟨rfl, rfl⟩ := e
        exact iha _ _ _ e2 (fun i hi => ht i (hv_app.2 (.inr hi)))
          (ihf _ _ _ e1 (fun i hi => ht i (hv_app.2 (.inl hi))) hi)
  | bind b f a ihf iha =>
    intro ids t' ids' e ht hi
    simp only [Term.normVars] at e
    cases e1 : f.normVars Γ ids with
    | none => rw [e1] at e; cases e
    | some r1 =>
      obtain ⟨f', ids1⟩ := r1
      rw [e1] at e
      cases e2 : a.normVars Γ ids1 with
      | none => simp [e2] at e
      | some r2 =>
        obtain ⟨a', ids2⟩ := r2
        simp [e2] at e
        obtain ⟨rfl, rfl⟩ := e
        exact iha _ _ _ e2 (fun i hi => ht i (hv_bind.2 (.inr hi)))
          (ihf _ _ _ e1 (fun i hi => ht i (hv_bind.2 (.inl hi))) hi)

/-- Renumbering, when only the kept variables are known to have values of their types. -/
theorem models_remap_on {Γ' : LCtx} {ids : List Nat} (e : Γ.remap ids = some Γ') {ρ : Nat → M.D}
    (h : ∀ j ∈ ids, ∀ T, Γ.get j = some T → ∀ β, M.mem (ρ j) (eval M ρ β T)) : Models M Γ' (pullback ids ρ) := by
  obtain ⟨h1, h2⟩ := remap_spec e
  intro k T hk β
  have hlt : k < ids.length := by
    rw [← h1]
    rcases Nat.lt_or_ge k Γ'.length with h | h
    · exact h
    · rw [LCtx.get, List.getElem?_eq_none h] at hk; cases hk
  obtain ⟨U, hU, hv, hU'⟩ := h2 k ids[k] (List.getElem?_eq_getElem hlt)
  rw [hU'] at hk
  cases hk
  rw [eval_byIds M hv]
  have := h _ (List.getElem_mem hlt) _ hU β
  rw [pullback, List.getD_eq_getElem?_getD, List.getElem?_eq_getElem hlt]
  exact this

theorem get_take_lt {i j : Nat} (h : j < i) : LCtx.get (List.take i Γ) j = Γ.get j := by
  simp [LCtx.get, List.getElem?_take, h]

theorem take_get {i j : Nat} {T : Term} (h : LCtx.get (List.take i Γ) j = some T) : Γ.get j = some T := by
  by_cases hj : j < i
  · rwa [get_take_lt hj] at h
  · simp [LCtx.get, List.getElem?_take, hj] at h

/-- A type whose key is on the list has elements. -/
theorem key_inhabited (ho : CtxOrdered Γ) {keys : List (Term × LCtx)} (hk : KeysTrue M keys) {i : Nat} {T : Term}
    (hT : ∀ j, T.hasVar j = true → j < i) {key : Term × LCtx} (e : Checker.typeKey T Γ = some key)
    (hm : key ∈ keys) {ρ : Nat → M.D} (hρ : Models M (Γ.take i) ρ) : ∃ d, ∀ β, M.mem d (eval M ρ β T) := by
  simp only [Checker.typeKey, Option.bind_eq_bind, Option.pure_def, Option.bind_eq_some_iff, Prod.exists] at e
  obtain ⟨T', ids, e1, Γ', e2, e⟩ := e
  cases e
  obtain ⟨-, h2, -, h4⟩ := normVars_spec T _ _ _ e1
  have hb := normVars_below ho T _ _ _ e1 hT (by simp)
  have hm' : Models M Γ' (pullback ids ρ) := models_remap_on e2 fun j hj U hU β =>
    hρ j U (by rw [get_take_lt (hb j hj)]; exact hU) β
  obtain ⟨d, hd⟩ := hk _ _ hm _ hm'
  refine ⟨d, fun β => ?_⟩
  have := hd β
  rwa [h4, eval_byIds M h2] at this

/-! ### The test -/

theorem resolve_none {T : Term} (hk : endsKind T = false) (hv : T.atomicVariable = none) (n : Nat) :
    Term.resolveConstraint Γ n T = none := by
  cases n with
  | zero => rfl
  | succ n =>
    unfold Term.resolveConstraint
    split
    · cases hk
    · cases hv
    · rfl

/-- A positive answer of the test. -/
theorem inhabitedTest_sound {W : Witnesses} (hP : TypeParams K) (hW : Truthful K W) (L : Lawful K M) {fuel i : Nat}
    {T : Term} (hT : ValueTypeAt K Γ i T) (e : inhabitedTest K W fuel T Γ = true) {ρ : Nat → M.D}
    (hρ : Models M (Γ.take i) ρ) : ∃ d, ∀ β, M.mem d (eval M ρ β T) := by
  unfold inhabitedTest at e
  split at e
  · rename_i b eb
    subst e
    unfold provablyInhabited at eb
    rw [Out.bind_done] at eb
    obtain ⟨r, e1, e2⟩ := eb
    cases r with
    | none =>
      simp only [resolve_none hT.value hT.notVar] at e2
      cases e2
    | some w =>
      have hd := findInhabitant_sound hP hW L hρ (Γ' := some Γ) (fun j U hU => take_get hU) hT.isTy hT.value e1
      refine ⟨eval M ρ ρ w, fun β => ?_⟩
      have hc : T.escapes = false := (Spec.Typed.closed hT.isTy.typed 0 BScoped.nil).1
      rw [eval_closed M ρ β ρ T hc]
      exact hd ρ
  · cases e

/-- A passed test means that the dropped variables have values. -/
theorem guard_inhabited {W : Witnesses} {env : CheckEnv} (hE : UsesTables K W env) (L : Lawful K M) {s : Checker}
    (hs : KeysTrue M s.inhabited) {t : Trace} (ho : CtxOrdered t.preCtx)
    (hd : ∀ i T, t.preCtx.get i = some T → i ∉ t.varIds → ValueTypeAt K t.preCtx i T)
    (hg : Checker.guard env s t = true) : VarsInhabited M t.preCtx (· ∉ t.varIds) := by
  intro i T hi hn ρ hρ
  have hlt : i < t.preCtx.length := by
    rcases Nat.lt_or_ge i t.preCtx.length with h | h
    · exact h
    · rw [LCtx.get, List.getElem?_eq_none h] at hi; cases hi
  have hv := List.all_eq_true.1 hg i (List.mem_range.2 hlt)
  unfold Checker.varInhabited at hv
  rw [if_neg (by simpa using hn), hi] at hv
  simp only [Bool.or_eq_true] at hv
  rcases hv with hv | hv
  · split at hv
    · rename_i key ek
      exact key_inhabited ho hs (fun j hj => (ho i T hi j hj).1) ek (by simpa using hv) hρ
    · cases hv
  · obtain ⟨fuel, hf⟩ := hE.test
    rw [hf] at hv
    exact inhabitedTest_sound hE.params hE.truthful L (hd i T hi hn) hv hρ

/-- Dropping tested variables keeps a clause true. -/
theorem withTrace_true (L : Lawful K M) {c : Clause} (ht : LitsTyped K c.ctx c.lits) {t : Trace}
    (e : c.normalizeWithTrace = some t) (ho : CtxOrdered c.ctx)
    (hi : VarsInhabited M t.preCtx (· ∉ t.varIds)) (h : ClauseTrue M c) : ClauseTrue M t.clause := by
  simp only [Clause.normalizeWithTrace, Option.bind_eq_bind, Option.pure_def, Option.bind_eq_some_iff,
    Prod.exists] at e
  obtain ⟨c', ids, e1, e⟩ := e
  cases e
  intro σ hσ β
  obtain ⟨ρ, m, ha⟩ := normalizePrefilled_extend e1 List.nodup_nil ho hi hσ
  exact (normalizePrefilled_agree L ht e1 List.nodup_nil m ha β).2 (h ρ m β)

theorem withTrace_typed {c : Clause} (ht : LitsTyped K c.ctx c.lits) (L : Lawful K M) {ρ : Nat → M.D}
    (hρ : Models M c.ctx ρ) {t : Trace} (e : c.normalizeWithTrace = some t) : LitsTyped K t.clause.ctx t.clause.lits :=
  (normalizeWithTrace_back L ht e hρ).1

theorem withTrace_ctx {c : Clause} {t : Trace} (e : c.normalizeWithTrace = some t) :
    t.preCtx = c.ctx ∧ c.ctx.remap t.varIds = some t.clause.ctx := by
  simp only [Clause.normalizeWithTrace, Option.bind_eq_bind, Option.pure_def, Option.bind_eq_some_iff,
    Prod.exists] at e
  obtain ⟨c', ids, e1, e⟩ := e
  cases e
  exact ⟨rfl, (normalizePrefilled_remap e1 List.nodup_nil).1⟩

theorem ValueVars.typeAt (h : ValueVars K Γ) {i : Nat} {T : Term} (hi : Γ.get i = some T) : ValueTypeAt K Γ i T := by
  have hT := h i T hi
  refine ⟨.tyOf (hT.weaken fun j U e => by simp [LCtx.get] at e), hT.not_endsKind _ rfl, ?_⟩
  cases hv : T.atomicVariable with
  | none => rfl
  | some j =>
    unfold Term.atomicVariable at hv
    split at hv
    · have := hT.declared (i := j) (by cases hv; simp [hasVar, atoms])
      simp [LCtx.get] at this
    · cases hv

theorem guard_plain {W : Witnesses} {env : CheckEnv} (hE : UsesTables K W env) (L : Lawful K M) {s : Checker}
    (hs : KeysTrue M s.inhabited) {t : Trace} (hv : ValueVars K t.preCtx) (hg : Checker.guard env s t = true) :
    VarsInhabited M t.preCtx (· ∉ t.varIds) :=
  guard_inhabited hE L hs hv.ordered (fun _ _ hi _ => ValueVars.typeAt hv hi) hg

/-! ### What the checker does with a derived clause -/

/-- A true clause about values, well typed unless it is vacuous. -/
structure Fine (K : KCtx) (M : Interp.{u}) (c : Clause) : Prop where
  vars : ValueVars K c.ctx
  typed : ∀ ρ, Models M c.ctx ρ → LitsTyped K c.ctx c.lits
  truth : ClauseTrue M c

theorem Fine.prefilled (L : Lawful K M) {ls : List Literal} (hc : Fine K M ⟨ls, Γ⟩) {ids ids' : List Nat} {c : Clause}
    (hn : ids.Nodup) (e : normalizePrefilled ls Γ ids = some (c, ids')) (hi : VarsInhabited M Γ (· ∉ ids')) :
    Fine K M c := by
  refine ⟨hc.vars.remap (normalizePrefilled_remap e hn).1, fun σ hσ => ?_, fun σ hσ β => ?_⟩
  all_goals obtain ⟨ρ, m, ha⟩ := normalizePrefilled_extend e hn hc.vars.ordered hi hσ
  · exact (normalizePrefilled_spec L m (hc.typed ρ m) e).1
  · exact (normalizePrefilled_agree L (hc.typed ρ m) e hn m ha β).2 (hc.truth ρ m β)

theorem Fine.withTrace (L : Lawful K M) {c : Clause} (hc : Fine K M c) {t : Trace} (e : c.normalizeWithTrace = some t)
    (hi : VarsInhabited M t.preCtx (· ∉ t.varIds)) : Fine K M t.clause := by
  simp only [Clause.normalizeWithTrace, Option.bind_eq_bind, Option.pure_def, Option.bind_eq_some_iff,
    Prod.exists] at e
  obtain ⟨c', ids, e1, e⟩ := e
  cases e
  exact Fine.prefilled L (ls := c.lits) (Γ := c.ctx) hc List.nodup_nil e1 hi

theorem subterms_ctx {c d : Clause} {fuel : Nat} (e : c.normalizeSubterms fuel = some d) : d.ctx = c.ctx := by
  simp only [Clause.normalizeSubterms, Option.bind_eq_bind, Option.pure_def, Option.bind_eq_some_iff] at e
  obtain ⟨ls', _, e⟩ := e
  cases e
  rfl

theorem Fine.subterms (L : Lawful K M) {c d : Clause} (hc : Fine K M c) {fuel : Nat}
    (e : c.normalizeSubterms fuel = some d) : Fine K M d := by
  have ec := subterms_ctx e
  refine ⟨ec ▸ hc.vars, fun ρ hρ => ?_, fun ρ hρ β => ?_⟩
  all_goals rw [ec] at hρ
  · exact (Spec.normalizeSubterms_spec L (hc.typed ρ hρ) e hρ).2.1
  · exact ((Spec.normalizeSubterms_spec L (hc.typed ρ hρ) e hρ).2.2 β).2 (hc.truth ρ hρ β)

variable {W : Witnesses} {env : CheckEnv} {s : Checker}

/-- Steps after the first. -/
theorem Fine.checker (hE : UsesTables K W env) (L : Lawful K M) (hs : KeysTrue M s.inhabited) {t : Trace}
    (hc : VarsInhabited M t.preCtx (· ∉ t.varIds) → Fine K M t.clause) (hv : ValueVars K t.preCtx) {d : Clause}
    (e : Checker.normTrace env s t = some d) : Fine K M d := by
  simp only [Checker.normTrace, Trace.checkerClause] at e
  split at e
  · cases e
  · rename_i g1
    simp only [Bool.not_eq_true, Bool.not_eq_false'] at g1
    have f0 := hc (guard_plain hE L hs hv g1)
    simp only [Option.bind_eq_bind, Option.bind_eq_some_iff] at e
    obtain ⟨c, e1, t1, e2, e⟩ := e
    have f1 := f0.subterms L e1
    split at e
    · cases e
    · rename_i g2
      simp only [Bool.not_eq_true, Bool.not_eq_false'] at g2
      have f2 := f1.withTrace L e2 (guard_plain hE L hs ((withTrace_ctx e2).1 ▸ f1.vars) g2)
      simp only [Option.bind_eq_some_iff] at e
      obtain ⟨t2, e3, e⟩ := e
      split at e
      · cases e
      · rename_i g3
        simp only [Bool.not_eq_true, Bool.not_eq_false'] at g3
        cases e
        exact f2.withTrace L e3 (guard_plain hE L hs ((withTrace_ctx e3).1 ▸ f2.vars) g3)

theorem Fine.found (hE : UsesTables K W env) (L : Lawful K M) (hs : KeysTrue M s.inhabited) {ls : List Literal}
    (hc : Fine K M ⟨ls, Γ⟩) {d : Clause} (e : Checker.normFound env s ls Γ = some d) : Fine K M d := by
  simp only [Checker.normFound, Option.bind_eq_bind, Option.bind_eq_some_iff] at e
  obtain ⟨t, e1, e⟩ := e
  have ec : t.preCtx = Γ := (withTrace_ctx e1).1
  exact Fine.checker hE L hs (fun hi => hc.withTrace L e1 hi) (by rw [ec]; exact hc.vars) e

/-- The context of a boolean reduction. -/
theorem valueVars_reduction {c : Clause} (h : PlainClause K c) {fuel i : Nat} {k : BoolKind} {t : Trace}
    (e : c.boolReductionAt fuel K k i = some t) : ValueVars K t.preCtx := by
  obtain ⟨l, r, Γ', e1, e2, e3⟩ := boolReductionAt_parts e
  obtain ⟨rfl, _⟩ := normalizeBoolReduction_parts e3
  have hl := h.neat (List.mem_of_getElem? e1)
  rcases boolReplace_newctx e2 with e | ⟨b, A, body, el, e⟩
  · rw [e]; exact h.vars
  · rw [e]
    obtain ⟨T, hT, t1, _⟩ := hl.plain
    have := hl.left
    rw [el] at t1 this
    exact h.vars.push (.of_ctx h.vars (small_of_isTy t1.bind_dom rfl (SortFree.bind.1 this).1))

theorem fn_typed {c : Clause} (h : PlainClause K c) {fuel i : Nat} {t : Trace}
    (e : c.boolReductionAt fuel K .fnNeqToExists i = some t) {l : Literal} (hl : c.lits[i]? = some l) :
    FnTyped K c.ctx l := by
  obtain ⟨l', r, Γ', e1, e2, _⟩ := boolReductionAt_parts e
  rw [e1] at hl
  cases hl
  have h1 := h.neat (List.mem_of_getElem? e1)
  simp only [boolReplace, Option.bind_eq_bind, Option.bind_eq_some_iff] at e2
  obtain ⟨t, et, _⟩ := e2
  exact (FnDiseqSimple.of_plain (ls := [l]) fun a ha => by
    rw [List.mem_singleton] at ha; subst ha; exact h1.plain).at (ctxOk_of h.vars.ordered h.vars.closed)
      (by intro a ha; rw [List.mem_singleton] at ha; subst ha; exact h1.plain.typed) (by simp) (by rw [et]; rfl)

theorem Fine.reduction (L : Lawful K M) {c : Clause} (h : PlainClause K c) (ht : ClauseTrue M c) {fuel i : Nat}
    {k : BoolKind} {t : Trace} (e : c.boolReductionAt fuel K k i = some t)
    (hi : VarsInhabited M t.preCtx (· ∉ t.varIds)) : Fine K M t.clause := by
  have hv := valueVars_reduction h e
  obtain ⟨_, _, h3⟩ := boolReductionAt_sound (M := M) L h.vars.ordered h.vars.closed h.typed
    (fun hk l hl => fn_typed h (hk ▸ e) hl) e
  refine ⟨?_, fun σ hσ => ?_, fun σ hσ β => ?_⟩
  · obtain ⟨l, r, Γ', e1, e2, e3⟩ := boolReductionAt_parts e
    obtain ⟨rfl, ids, hn, e4⟩ := normalizeBoolReduction_parts e3
    exact hv.remap (normalizePrefilled_remap e4 hn).1
  all_goals
    obtain ⟨ρ, m, ha⟩ := boolReductionAt_extend e hv.ordered hi hσ
    obtain ⟨m', ht', hh⟩ := h3 ρ m
  · exact ht'
  · exact hh σ ha β (ht ρ m' β)

theorem Fine.reductions (hE : UsesTables K W env) (L : Lawful K M) (hs : KeysTrue M s.inhabited) {c : Clause}
    (h : PlainClause K c) (ht : ClauseTrue M c) {rs : List Clause} (e : Checker.boolReductions env s c = .done rs) :
    ∀ r ∈ rs, Fine K M r := by
  have hK := hE.sig
  subst hK
  simp only [Checker.boolReductions, Out.bind_done, Out.ofOption_done] at e
  obtain ⟨found, e1, e⟩ := e
  rw [Out.pure_done] at e
  subst e
  intro r hr
  obtain ⟨⟨k, i, t⟩, hm, er⟩ := List.mem_filterMap.1 hr
  dsimp only at er
  split at er
  · cases er
  · have e2 := (findBoolReductions_spec e1).2 k i t hm
    exact Fine.checker hE L hs (fun hi => Fine.reduction L h ht e2 hi) (valueVars_reduction h e2) er

/-! ### Marking types -/

theorem noVars_ids {t t' : Term} {ids : List Nat} (h : NoVars t) (e : t.normVars Γ [] = some (t', ids)) :
    t' = t ∧ ids = [] := by
  have key : ∀ (t : Term) (ids : List Nat), NoVars t → t.normVars Γ ids = some (t, ids) := by
    intro t
    induction t with
    | atom a =>
      intro ids h
      cases a with
      | fvar i => have := h i; simp [hasVar, atoms] at this
      | bvar i => rfl
      | sym s => rfl
    | app f a ihf iha =>
      intro ids h
      have h1 : NoVars f := fun i => by
        have := h i; cases e : f.hasVar i with
        | false => rfl
        | true => rw [hv_app.2 (.inl e)] at this; cases this
      have h2 : NoVars a := fun i => by
        have := h i; cases e : a.hasVar i with
        | false => rfl
        | true => rw [hv_app.2 (.inr e)] at this; cases this
      simp [Term.normVars, ihf ids h1, iha ids h2]
    | bind b f a ihf iha =>
      intro ids h
      have h1 : NoVars f := fun i => by
        have := h i; cases e : f.hasVar i with
        | false => rfl
        | true => rw [hv_bind.2 (.inl e)] at this; cases this
      have h2 : NoVars a := fun i => by
        have := h i; cases e : a.hasVar i with
        | false => rfl
        | true => rw [hv_bind.2 (.inr e)] at this; cases this
      simp [Term.normVars, ihf ids h1, iha ids h2]
  rw [key t [] h] at e
  cases e
  exact ⟨rfl, rfl⟩

/-- A true existence claim about values, with values for its variables, makes its type inhabited. -/
theorem markInhabited_true (L : Lawful K M) (hs : KeysTrue M s.inhabited) {c : Clause} (h : PlainClause K c)
    (ht : ClauseTrue M c) (hm : ∃ ρ, Models M c.ctx ρ) {key : Option (Term × LCtx)} {s' : Checker}
    (e : Checker.markInhabited K s c = .done (key, s')) : KeysTrue M s'.inhabited := by
  simp only [Checker.markInhabited, Out.bind_done, Out.ofOption_done] at e
  obtain ⟨o, eo, e⟩ := e
  cases o with
  | none =>
    dsimp only at e
    rw [Out.pure_done, Prod.mk.injEq] at e
    obtain ⟨_, rfl⟩ := e; exact hs
  | some A =>
    simp only [Out.bind_done, Out.ofOption_done] at e
    obtain ⟨k, ek, e⟩ := e
    split at e
    · rw [Out.pure_done, Prod.mk.injEq] at e
      obtain ⟨_, rfl⟩ := e; exact hs
    · rw [Out.pure_done, Prod.mk.injEq] at e
      obtain ⟨_, rfl⟩ := e
      obtain ⟨ls, Γ⟩ := c
      simp only [Checker.existsType] at eo
      split at eo
      · rename_i l
        split at eo
        · cases eo
        · split at eo
          · cases eo
          · split at eo
            · cases eo
            · rename_i hp
              simp only [Bool.or_eq_true, Bool.not_eq_true', not_or, Bool.not_eq_false] at hp
              split at eo
              · rename_i A' body el
                cases eo
                obtain ⟨σ, hσ⟩ := hm
                have hl := h.neat (l := l) (by simp)
                obtain ⟨t1, t2⟩ := signed_parts hl.plain.typed hp.1
                obtain ⟨j, hj, hh⟩ := ht σ hσ σ
                simp only [List.mem_cons, List.not_mem_nil, or_false] at hj
                subst hj
                rw [signed_holds hl.plain.typed hp.1] at hh
                have sl := hl.left
                rw [el] at t1 hh sl
                obtain ⟨_, hA, hbody⟩ := t1.quant_inv (Or.inr rfl)
                have hsm := Small.of_ctx h.vars (small_of_isTy hA rfl (SortFree.bind.1 sl).1)
                rw [tr_ex L hσ hbody bmodels_nil, hp.2] at hh
                obtain ⟨d, hd, _⟩ := hh.2 rfl
                intro T Γ1 hT ρ hρ
                rcases List.mem_cons.1 hT with hT | hT
                · simp only [Checker.typeKey, Option.bind_eq_bind, Option.pure_def, Option.bind_eq_some_iff,
                    Prod.exists] at ek
                  obtain ⟨T', ids, e1, Γ', e2, ek⟩ := ek
                  cases ek
                  obtain ⟨rfl, rfl⟩ := noVars_ids (Small.noVars hsm) e1
                  cases hT
                  refine ⟨d, fun β => ?_⟩
                  rw [eval_fvars M T ρ σ β (fun i hi => absurd hi (by rw [Small.noVars hsm i]; simp)),
                    eval_closed M σ β σ T (Small.closed hsm)]
                  exact hd
                · exact hs T Γ1 hT ρ hρ
              · cases eo
      · cases eo

/-- A true clause that says that a type is empty. -/
theorem emptyType_true (L : Lawful K M) {c : Clause} (h : PlainClause K c) (ht : ClauseTrue M c) (hm : ∃ ρ, Models M c.ctx ρ)
    {T : Term} {Δ : LCtx} (e : Checker.emptyType c = some (T, Δ)) : Δ = [] ∧ ∀ ρ β d, ¬ M.mem d (eval M ρ β T) := by
  obtain ⟨ls, Γ⟩ := c
  unfold Checker.emptyType at e
  dsimp only at e
  split at e
  · rename_i l
    split at e
    · cases e
    · rename_i hp
      simp only [Bool.or_eq_true, Bool.not_eq_true', not_or, Bool.not_eq_true, Bool.not_eq_false] at hp
      split at e
      · rename_i A body el
        split at e
        · rename_i hb
          obtain ⟨σ, hσ⟩ := hm
          have hl := h.neat (l := l) (by simp)
          obtain ⟨t1, t2⟩ := signed_parts hl.plain.typed hp.2
          obtain ⟨k, hk, hh⟩ := ht σ hσ σ
          simp only [List.mem_cons, List.not_mem_nil, or_false] at hk
          subst hk
          rw [signed_holds hl.plain.typed hp.2] at hh
          have sl := hl.left
          rw [el] at t1 hh sl
          obtain ⟨_, hA, hbody⟩ := t1.quant_inv (Or.inr rfl)
          have hsm := Small.of_ctx h.vars (small_of_isTy hA rfl (SortFree.bind.1 sl).1)
          rw [tr_ex L hσ hbody bmodels_nil, hp.1] at hh
          simp only [Checker.typeKey, Option.bind_eq_bind, Option.pure_def, Option.bind_eq_some_iff, Prod.exists] at e
          obtain ⟨T', ids, e1, Γ', e2, ek⟩ := e
          cases ek
          obtain ⟨rfl, rfl⟩ := noVars_ids (Small.noVars hsm) e1
          refine ⟨by cases e2; rfl, fun ρ β d hd => ?_⟩
          rw [eval_fvars M T ρ σ β (fun i hi => absurd hi (by rw [Small.noVars hsm i]; simp)),
            eval_closed M σ β σ T (Small.closed hsm)] at hd
          have := hh.1 ⟨d, hd, by rw [isTrue_eq hbody hb]; rfl⟩
          cases this
        · cases e
      · cases e
  · cases e

theorem noteEmpty_contra (L : Lawful K M) (hs : KeysTrue M s.inhabited) {c : Clause} (h : Sane K M c) :
    (s.noteEmpty c).contra = s.contra := by
  unfold Checker.noteEmpty
  split
  · rename_i key e
    obtain ⟨T, Δ⟩ := key
    obtain ⟨rfl, he⟩ := emptyType_true L h.plain h.truth h.model e
    rw [if_neg]
    intro hk
    obtain ⟨ρ, -⟩ := h.model
    obtain ⟨d, hd⟩ := hs T [] (by simpa using hk) ρ (by intro i T h; simp [LCtx.get] at h)
    exact he ρ ρ d (hd ρ)
  · rfl

theorem noteInhabited_contra (L : Lawful K M) (hs : KeysTrue M s.inhabited) (hx : ∀ d ∈ s.exact.keys, Sane K M d) {c : Clause}
    (h : Sane K M c) {b : Bool} {s' : Checker} (e : Checker.noteInhabited K s c = .done (b, s')) :
    s'.contra = s.contra ∧ KeysTrue M s'.inhabited := by
  simp only [Checker.noteInhabited, Out.bind_done, Prod.exists] at e
  obtain ⟨key, s2, e1, e⟩ := e
  have hk := markInhabited_true L hs h.plain h.truth h.model e1
  have same : s2.contra = s.contra ∧ s2.exact = s.exact ∧ ∀ k, key = some k → k ∈ s2.inhabited := by
    simp only [Checker.markInhabited, Out.bind_done, Out.ofOption_done] at e1
    obtain ⟨o, _, e1⟩ := e1
    split at e1
    · rw [Out.pure_done, Prod.mk.injEq] at e1
      obtain ⟨rfl, rfl⟩ := e1; exact ⟨rfl, rfl, fun k hk => by cases hk⟩
    · simp only [Out.bind_done, Out.ofOption_done] at e1
      obtain ⟨k, _, e1⟩ := e1
      split at e1
      · rw [Out.pure_done, Prod.mk.injEq] at e1
        obtain ⟨rfl, rfl⟩ := e1; exact ⟨rfl, rfl, fun k hk => by cases hk⟩
      · rw [Out.pure_done, Prod.mk.injEq] at e1
        obtain ⟨rfl, rfl⟩ := e1; exact ⟨rfl, rfl, fun k hk => by cases hk; simp⟩
  split at e
  · rw [Out.pure_done, Prod.mk.injEq] at e
    obtain ⟨_, rfl⟩ := e; exact ⟨same.1, hk⟩
  · rename_i k
    obtain ⟨T, Δ⟩ := k
    have hne : s2.knownEmpty (T, Δ) = false := by
      rw [Checker.knownEmpty, List.any_eq_false]
      intro d hd hd'
      rw [same.2.1] at hd
      have hd' := of_decide_eq_true hd'
      obtain ⟨rfl, he⟩ := emptyType_true L (hx d hd).plain (hx d hd).truth (hx d hd).model hd'
      obtain ⟨ρ, -⟩ := (hx d hd).model
      obtain ⟨v, hv⟩ := hk T [] (same.2.2 _ rfl) ρ (by intro i T h; simp [LCtx.get] at h)
      exact he ρ ρ v (hv ρ)
    rw [hne, Out.pure_done, Prod.mk.injEq] at e
    obtain ⟨_, rfl⟩ := e; exact ⟨same.1, hk⟩

end Acorn
