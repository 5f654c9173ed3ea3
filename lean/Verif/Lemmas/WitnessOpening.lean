/-
Lemmas about naming a witness.
-/
import Verif.Lemmas.WitnessOrder
import Verif.Spec.WitnessOpening
import Verif.Lemmas.CheckerRules
namespace Acorn.Opening

open Term Spec

universe u

variable {K : KCtx} {M : Interp.{u}} {Γ : LCtx}

theorem sym_convertAt {n : Nat} {t : Term} {s : Symbol} : ∀ {d : Nat}, .sym s ∈ (t.convertFreeToBoundAt n d).atoms → .sym s ∈ t.atoms := by
  induction t with
  | atom a =>
    intro d h
    cases a with
    | fvar i => simp only [convertFreeToBoundAt] at h; split at h <;> simp [atoms] at h
    | bvar i => simp only [convertFreeToBoundAt] at h; split at h <;> simp [atoms] at h
    | sym s' => exact h
  | app f a ihf iha =>
    intro d h
    simp only [convertFreeToBoundAt, atoms, List.mem_append] at h ⊢
    exact h.imp ihf iha
  | bind b A B ihA ihB =>
    intro d h
    simp only [convertFreeToBoundAt, atoms, List.mem_append] at h ⊢
    exact h.imp ihA ihB

theorem sym_convert {n : Nat} {t : Term} {s : Symbol} (h : .sym s ∈ (t.convertFreeToBound n).atoms) : .sym s ∈ t.atoms := by
  unfold convertFreeToBound at h
  split at h
  · exact h
  · exact sym_convertAt h

theorem sym_renumber {ids : List Nat} {t : Term} {s : Symbol} : ∀ {t'}, t.renumber ids = some t' → .sym s ∈ t'.atoms → .sym s ∈ t.atoms := by
  induction t with
  | atom a =>
    intro t' e h
    cases a with
    | fvar i => simp only [Term.renumber] at e; split at e <;> cases e; simp [atoms] at h
    | bvar i => simp only [Term.renumber] at e; cases e; exact h
    | sym s' => simp only [Term.renumber] at e; cases e; exact h
  | app f a ihf iha =>
    intro t' e h
    simp only [Term.renumber, Option.bind_eq_bind, Option.bind_eq_some_iff, Option.pure_def, Option.some.injEq] at e
    obtain ⟨f', ef, a', ea, rfl⟩ := e
    simp only [atoms, List.mem_append] at h ⊢
    exact h.imp (ihf ef) (iha ea)
  | bind b f a ihf iha =>
    intro t' e h
    simp only [Term.renumber, Option.bind_eq_bind, Option.bind_eq_some_iff, Option.pure_def, Option.some.injEq] at e
    obtain ⟨f', ef, a', ea, rfl⟩ := e
    simp only [atoms, List.mem_append] at h ⊢
    exact h.imp (ihf ef) (iha ea)

theorem sym_tails {H : Nat → Term} {R : Term} {n : Nat} {s : Symbol} : ∀ {m : Nat}, m ≤ n → .sym s ∈ (tails H R n m).atoms →
    .sym s ∈ R.atoms ∨ ∃ i, i < n ∧ .sym s ∈ (H i).atoms
  | 0, _, h => .inl (sym_convert h)
  | m + 1, hm, h => by
    simp only [tails, atoms, List.mem_append] at h
    rcases h with h | h
    · exact .inr ⟨_, by omega, sym_convert h⟩
    · exact sym_tails (by omega) h

/-- What opening does. -/
theorem openPositiveExists_parts {c : Clause} {A body : Term} {s : Symbol} {o : Opened} (e : openPositiveExists c A body s = some o) :
    ∃ H R body', c.ctx.remap (hoistOrder c.ctx) = some H ∧ A.renumber (hoistOrder c.ctx) = some R ∧
      body.renumber (hoistOrder c.ctx) = some body' ∧ witnessType H R = some o.type ∧
      o.witness = (Term.sym s).apply ((hoistOrder c.ctx).map Term.fvar) ∧
      o.literal = Literal.pos (inst 0 o.witness body) ∧
      normalizeBoolReduction (replaceLit c.lits 0 [o.literal]) c.ctx c.ctx.length = some o.trace := by
  simp only [openPositiveExists, Option.bind_eq_bind, Option.bind_eq_some_iff, Option.pure_def] at e
  obtain ⟨H, h1, R, h2, b', h3, T, h4, e⟩ := e
  split at e
  · cases e
  · simp only [Option.bind_eq_some_iff, Option.some.injEq] at e
    obtain ⟨b, h5, t, h6, rfl⟩ := e
    rw [Term.openBound_eq] at h5
    cases h5
    exact ⟨H, R, b', h1, h2, h3, h4, rfl, rfl, h6⟩

/-- The hoisted context, as a function. -/
theorem hoisted (ho : CtxOrdered Γ) (hcl : CtxClosed Γ) {H : LCtx} (e : Γ.remap (hoistOrder Γ) = some H) :
    H.length = Γ.length ∧ ∃ F : Nat → Term, (∀ i, i < Γ.length → H.get i = some (F i)) ∧
      (∀ i, i < Γ.length → (F i).escapes = false) ∧ (∀ i, i < Γ.length → ∀ j, (F i).hasVar j = true → j < i) ∧
      (∀ k i, (hoistOrder Γ)[k]? = some i → ∃ T, Γ.get i = some T ∧ (∀ j, T.hasVar j = true → j ∈ hoistOrder Γ) ∧
        F k = T.byIds (hoistOrder Γ) ∧ ∀ s, .sym s ∈ (F k).atoms → .sym s ∈ T.atoms) := by
  obtain ⟨hl, hs⟩ := remap_spec e
  rw [hoistOrder_length] at hl
  let F : Nat → Term := fun i => (H.get i).getD (.fvar 0)
  have hF : ∀ k i, (hoistOrder Γ)[k]? = some i → ∃ T, Γ.get i = some T ∧ (∀ j, T.hasVar j = true → j ∈ hoistOrder Γ) ∧
      H.get k = some (T.byIds (hoistOrder Γ)) ∧ F k = T.byIds (hoistOrder Γ) := by
    intro k i hk
    obtain ⟨T, h1, h2, h3⟩ := hs k i hk
    exact ⟨T, h1, h2, h3, by simp [F, h3]⟩
  have hget : ∀ k, k < Γ.length → ∃ i, (hoistOrder Γ)[k]? = some i := fun k hk =>
    ⟨_, List.getElem?_eq_getElem (by rw [hoistOrder_length]; exact hk)⟩
  refine ⟨hl, F, fun k hk => ?_, fun k hk => ?_, fun k hk j hj => ?_, fun k i hk => ?_⟩
  · obtain ⟨i, hi⟩ := hget k hk
    obtain ⟨T, -, -, h3, h4⟩ := hF k i hi
    rw [h3, h4]
  · obtain ⟨i, hi⟩ := hget k hk
    obtain ⟨T, h1, -, -, h4⟩ := hF k i hi
    rw [h4, Term.byIds, escapes, escapes_vmap]
    exact hcl i T h1
  · obtain ⟨i, hi⟩ := hget k hk
    obtain ⟨T, h1, h2, -, h4⟩ := hF k i hi
    rw [h4, Term.byIds] at hj
    obtain ⟨x, hx, rfl⟩ := hasVar_vmap hj
    have := hoistOrder_respects ho h1 hx
    have hk' : (hoistOrder Γ).idxOf i = k := by
      obtain ⟨hlt, rfl⟩ := List.getElem?_eq_some_iff.1 hi
      exact hoistOrder_nodup.idxOf_getElem k hlt
    rw [hk'] at this
    exact this
  · obtain ⟨T, h1, h2, h3, h4⟩ := hF k i hk
    refine ⟨T, h1, h2, h4, fun s hs => ?_⟩
    rw [h4] at hs
    exact sym_renumber (renumber_total T h2) hs

theorem bmodels_nil {ρ β : Nat → M.D} : BModels M BCtx.nil ρ β := by
  intro i T h; cases h

theorem scoped_atoms_fvars {n : Nat} {s : Symbol} : ∀ {l : List Nat}, .sym s ∈ ((Term.sym (.scoped n)).apply (l.map Term.fvar)).atoms →
    s = .scoped n := by
  intro l h
  rcases mem_atoms_apply h with h | ⟨t, ht, h⟩
  · simpa [atoms] using h
  · obtain ⟨i, -, rfl⟩ := List.mem_map.1 ht
    simp [atoms] at h

/-- The constant can be chosen. -/
theorem opened_true (L : Lawful K M) {c : Clause} {A body : Term} {n : Nat} {o : Opened} (hc : c.lits = [⟨true, .ex A body, .tt⟩])
    (ho : CtxOrdered c.ctx) (hcl : CtxClosed c.ctx) (ht : HasType K c.ctx (.ex A body) .boolTy) (ha : Avoids (.scoped n) c)
    (hu : Undeclared K n) (e : openPositiveExists c A body (.scoped n) = some o) (hT : ClauseTrue M c) :
    ∃ v, Lawful (declare K n o.type) (M.set (.scoped n) v) ∧ ClauseTrue (M.set (.scoped n) v) ⟨[o.literal], c.ctx⟩ := by
  obtain ⟨H, R, body', e1, e2, e3, e4, e5, e6, -⟩ := openPositiveExists_parts e
  obtain ⟨hl, F, f1, f2, f3, f4⟩ := hoisted ho hcl e1
  obtain ⟨r1, r2⟩ := renumber_spec A R e2
  obtain ⟨b1, -⟩ := renumber_spec body body' e3
  obtain ⟨tA, tB, -⟩ := Typed.quant_inv ht (.inr rfl)
  have cA : A.escapes = false := (tA.closed 0 BScoped.nil).1
  have hav : .sym (.scoped n) ∉ A.atoms ∧ .sym (.scoped n) ∉ body.atoms := by
    have h1 := ha.1 ⟨true, .ex A body, .tt⟩ (by rw [hc]; simp)
    simp only [atoms, Term.ex, List.mem_append, not_or] at h1
    exact h1.1
  have ty : o.type = tails F R c.ctx.length c.ctx.length := by
    have h1 := wrapPis_tails (R := R) f1 0 (Nat.zero_le _)
    simp only [witnessType, hl] at e4
    simp only [Nat.sub_zero, tails] at h1
    rw [h1] at e4
    exact (Option.some.inj e4).symm
  have good : ∀ ρ', Good M F c.ctx.length ρ' → Models M c.ctx (fun i => ρ' ((hoistOrder c.ctx).idxOf i)) := by
    intro ρ' hg i T hi β
    have hm : i ∈ hoistOrder c.ctx := mem_hoistOrder.2 (get_lt hi)
    have hlt := List.idxOf_lt_length_iff.2 hm
    obtain ⟨T', g1, -, g3, -⟩ := f4 _ i (by rw [List.getElem?_eq_getElem hlt, List.getElem_idxOf hlt])
    rw [hi] at g1
    cases g1
    have := hg _ (by rw [hoistOrder_length] at hlt; exact hlt) β
    rw [g3, Term.byIds, eval_vmap] at this
    exact this
  obtain ⟨d, d1, d2⟩ := choose_function L (P := fun ρ' w => ∀ β, eval M (fun i => ρ' ((hoistOrder c.ctx).idxOf i)) (push w β) body = vtt M)
    f2 f3 (R := R) (by rw [r2, Term.byIds, escapes, escapes_vmap]; exact cA)
    (by
      intro j hj
      rw [r2, Term.byIds] at hj
      obtain ⟨x, hx, rfl⟩ := hasVar_vmap hj
      have := List.idxOf_lt_length_iff.2 (r1 x hx)
      rwa [hoistOrder_length] at this)
    (by
      intro ρ σ w h hP β
      rw [← hP β]
      refine eval_fvars M body _ _ _ fun i hi => (h _ ?_).symm
      have := List.idxOf_lt_length_iff.2 (b1 i hi)
      rwa [hoistOrder_length] at this)
    (by
      intro ρ' hg
      have hm := good ρ' hg
      have bool : ∀ β a, M.mem a (eval M (fun i => ρ' ((hoistOrder c.ctx).idxOf i)) β A) →
          M.mem (eval M (fun i => ρ' ((hoistOrder c.ctx).idxOf i)) (push a β) body) (vbool M) := fun β a ha =>
        Typed.mem L hm tB _ (bmodels_nil.cons ha)
      obtain ⟨l, hl, hh⟩ := hT _ hm ρ'
      rw [hc, List.mem_singleton] at hl
      subst hl
      simp only [LitHolds, if_true] at hh
      have hex := (L.ex_tt _ _ (bool ρ')).1 hh
      obtain ⟨w, w1, w2⟩ := hex
      refine ⟨w, fun β => ?_, fun β => ?_⟩
      · rw [r2, Term.byIds, eval_vmap, eval_closed M _ β ρ' A cA]
        exact w1
      · rw [← w2]
        refine eval_escapes M _ body 1 _ _ (tB.closed 1 (BScoped.nil.cons cA)).1 fun i hi => ?_
        obtain rfl : i = 0 := by omega
        rfl)
  have at' : .sym (.scoped n) ∉ o.type.atoms := by
    rw [ty]
    intro h
    rcases sym_tails (Nat.le_refl _) h with h | ⟨i, hi, h⟩
    · exact hav.1 (sym_renumber e2 h)
    · have hlt : i < (hoistOrder c.ctx).length := by rw [hoistOrder_length]; exact hi
      obtain ⟨T, t1, -, -, t4⟩ := f4 i _ (List.getElem?_eq_getElem hlt)
      exact ha.2 _ T t1 (t4 _ h)
  refine ⟨d, ?_, ?_⟩
  · have L1 : Lawful K (M.set (.scoped n) d) := set_lawful L (.inr ⟨n, rfl⟩) hu.types hu.schemes (by
      intro T h
      have h' : K.scopedType n = some T := h
      rw [hu.none] at h'
      cases h')
    refine ⟨L1.tt_ne_ff, L1.mem_bool, L1.bind_congr, L1.beta, L1.mem_pi, L1.all_tt, L1.all_bool, L1.ex_tt, L1.ex_bool, L1.not_tt,
      L1.and_tt, L1.or_tt, L1.eq_tt, L1.ite_tt, L1.ite_ff, L1.pi_small, ?_, L1.class_type0, L1.class_extends, L1.class_inst,
      L1.class_scheme⟩
    intro s T h1 h2 h3 ρ β
    by_cases es : s = .scoped n
    · subst es
      have h4 : (if n = n then some o.type else K.scopedType n) = some T := h2
      rw [if_pos rfl] at h4
      cases h4
      rw [set_self]
      refine (mem_set at').2 ?_
      rw [ty]
      exact d1 ρ β
    · refine L1.sym_type s T h1 ?_ h3 ρ β
      cases s
      case «scoped» m =>
        have h4 : (if m = n then some o.type else K.scopedType m) = some T := h2
        rw [if_neg (fun h => es (by rw [h]))] at h4
        exact h4
      all_goals exact h2
  · intro ρ hρ β
    have hρ' : Models M c.ctx ρ := (models_set ha.2).1 hρ
    refine ⟨o.literal, by simp, ?_⟩
    rw [e6, holds_pos, Tr, eval_inst_zero]
    refine (eval_set (M := M) hav.2).trans ?_
    have hg : Good M F c.ctx.length (pullback (hoistOrder c.ctx) ρ) := fun i hi β =>
      models_remap e1 hρ' i _ (f1 i hi) β
    have := d2 _ hg β
    have ew : eval (M.set (.scoped n) d) ρ β o.witness = ((List.range c.ctx.length).map (pullback (hoistOrder c.ctx) ρ)).foldl M.app d := by
      rw [e5, eval_apply_foldl]
      have e7 : eval (M.set (.scoped n) d) ρ β (Term.sym (.scoped n)) = d := set_self
      rw [e7, List.map_map]
      have e8 : (hoistOrder c.ctx).map (eval (M.set (.scoped n) d) ρ β ∘ Term.fvar) =
          (List.range c.ctx.length).map (pullback (hoistOrder c.ctx) ρ) := by
        apply List.ext_getElem
        · simp [hoistOrder_length]
        · intro k h1 h2
          have hk : k < (hoistOrder c.ctx).length := by simpa using h1
          simp [pullback, List.getD_eq_getElem?_getD, List.getElem?_eq_getElem hk, eval]
      rw [e8]
      rfl
    rw [ew]
    show _ = vtt M
    rw [← this]
    exact eval_fvars M body _ _ _ fun i hi => (pullback_idx (b1 i hi)).symm

end Acorn.Opening
