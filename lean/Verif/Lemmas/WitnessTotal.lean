/-
Opening does not panic, and what it gives for values.
-/
import Verif.Lemmas.WitnessRun
import Verif.Lemmas.ClauseTotal
namespace Acorn.Opening

open Term Spec

universe u

variable {K : KCtx} {M : Interp.{u}} {Γ : LCtx}

theorem prefilled_total (ho : CtxOrdered Γ) {ls : List Literal} (hd : Declared Γ ls) {ids : List Nat} (ht : Topo Γ ids) :
    ∃ c ids', normalizePrefilled ls Γ ids = some (c, ids') ∧ Topo Γ ids' := by
  obtain ⟨ls', ids', e1, t1⟩ := litsNormVars_total ho _ ids ht (litsPass_declared hd)
  obtain ⟨Γ', e2⟩ := remap_total t1
  exact ⟨_, ids', by simp only [normalizePrefilled, e1, Option.bind_eq_bind, Option.bind_some, e2]; rfl, t1⟩

theorem boolReduction_total (ho : CtxOrdered Γ) {ls : List Literal} (hd : Declared Γ ls) :
    ∃ t, normalizeBoolReduction ls Γ Γ.length = some t := by
  obtain ⟨c, ids, e1, t1⟩ := prefilled_total ho hd .nil
  have hf : ids.filter (· < Γ.length) = ids := List.filter_eq_self.2 fun i hi => by
    obtain ⟨T, h1, -⟩ := t1.closed i hi
    simpa using get_lt h1
  obtain ⟨c', ids', e2, -⟩ := prefilled_total ho hd t1
  exact ⟨⟨c', ids', Γ⟩, by simp only [normalizeBoolReduction, e1, Option.bind_eq_bind, Option.bind_some, hf, e2]; rfl⟩

theorem wrapPis_total {H : LCtx} : ∀ (n : Nat) (r : Term), (∀ i, i < n → (H.get i).isSome = true) → ∃ T, wrapPis H n r = some T
  | 0, r, _ => ⟨r, rfl⟩
  | n + 1, r, h => by
    obtain ⟨T, hT⟩ := Option.isSome_iff_exists.1 (h n (by omega))
    simp only [wrapPis, hT, Option.bind_eq_bind, Option.bind_some]
    exact wrapPis_total n _ fun i hi => h i (by omega)

theorem hasVar_witness {s : Symbol} {l : List Nat} {i : Nat} (h : ((Term.sym s).apply (l.map Term.fvar)).hasVar i = true) : i ∈ l := by
  simp only [hasVar, List.any_eq_true, beq_iff_eq] at h
  obtain ⟨a, ha, rfl⟩ := h
  rcases mem_atoms_apply ha with h | ⟨t, ht, h⟩
  · simp [atoms] at h
  · obtain ⟨j, hj, rfl⟩ := List.mem_map.1 ht
    simp [atoms] at h
    rw [h]
    exact hj

theorem escapes_witness : ∀ {l : List Nat} {f : Term}, f.escapes = false → (f.apply (l.map Term.fvar)).escapes = false
  | [], _, h => h
  | i :: l, f, h => escapes_witness (l := l) (f := .app f (.fvar i)) (by
      simp only [escapes, escapesAt, Bool.or_eq_false_iff] at h ⊢
      exact ⟨h, trivial⟩)

theorem open_total {c : Clause} {A body : Term} (ho : CtxOrdered c.ctx) (hcl : CtxClosed c.ctx) (hg : ∀ i, i < c.ctx.length → (c.ctx.get i).isSome = true)
    (hc : c.lits = [⟨true, .ex A body, .tt⟩]) (ht : HasType K c.ctx (.ex A body) .boolTy) (s : Symbol) :
    ∃ o, openPositiveExists c A body s = some o := by
  have hfs := (HasType.fscoped (fun i T hi => ⟨hcl i T hi, fun j hj => (ho i T hi j hj).2⟩) ht).1
  have hvars : ∀ i, A.hasVar i = true ∨ body.hasVar i = true → (c.ctx.get i).isSome = true := fun i hi =>
    hfs i (by rw [Term.ex, hasVar_bind]; simpa using hi)
  have hin : ∀ i, (c.ctx.get i).isSome = true → i ∈ hoistOrder c.ctx := fun i hi => by
    obtain ⟨T, hT⟩ := Option.isSome_iff_exists.1 hi
    exact mem_hoistOrder.2 (get_lt hT)
  have hH : ∃ H, c.ctx.remap (hoistOrder c.ctx) = some H := by
    refine mapM_total fun i hi => ?_
    obtain ⟨T, hT⟩ := Option.isSome_iff_exists.1 (hg i (mem_hoistOrder.1 hi))
    refine ⟨some (T.byIds (hoistOrder c.ctx)), ?_⟩
    simp [hT, renumber_total T fun j hj => hin j (ho i T hT j hj).2]
  obtain ⟨H, hH⟩ := hH
  obtain ⟨hl, F, f1, -⟩ := hoisted ho hcl hH
  obtain ⟨T, hT⟩ := wrapPis_total (H := H) H.length ((A.byIds (hoistOrder c.ctx)).convertFreeToBound H.length) fun i hi => by
    rw [f1 i (by omega)]; rfl
  have hw := escapes_witness (l := hoistOrder c.ctx) (f := Term.sym s) rfl
  have hd : Declared c.ctx [Literal.pos (inst 0 ((Term.sym s).apply ((hoistOrder c.ctx).map Term.fvar)) body)] := by
    intro l hl i hi
    rw [List.mem_singleton] at hl
    subst hl
    have h1 : (inst 0 ((Term.sym s).apply ((hoistOrder c.ctx).map Term.fvar)) body).hasVar i = true := by
      simp only [Literal.pos, Literal.new, Literal.newWithFlip] at hi
      split at hi <;> rcases hi with hi | hi
      · simp [hasVar, atoms] at hi
      · exact hi
      · exact hi
      · simp [hasVar, atoms] at hi
    rcases hasVar_inst h1 with hb | hb
    · exact hvars i (.inr hb)
    · exact hg i (mem_hoistOrder.1 (hasVar_witness hb))
  obtain ⟨t, ht'⟩ := boolReduction_total ho hd
  refine ⟨⟨T, (Term.sym s).apply ((hoistOrder c.ctx).map Term.fvar), Literal.pos (inst 0 ((Term.sym s).apply ((hoistOrder c.ctx).map Term.fvar)) body), t⟩, ?_⟩
  simp only [openPositiveExists, hH, Option.bind_eq_bind, Option.bind_some, renumber_total A fun i hi => hin i (hvars i (.inl hi)),
    renumber_total body fun i hi => hin i (hvars i (.inr hi)), witnessType, hT, hw, Bool.false_eq_true, ↓reduceIte, openBound_eq]
  rw [show replaceLit c.lits 0 _ = [Literal.pos (inst 0 ((Term.sym s).apply ((hoistOrder c.ctx).map Term.fvar)) body)] from by
    rw [hc]; rfl, ht']
  rfl

/-! ### Values -/

theorem hoistOrder_values (h : ValueVars K Γ) : hoistOrder Γ = List.range Γ.length := by
  have hp : (List.range Γ.length).filter (fun i => (Γ.get i).any Term.isTypeParamKind) = [] := by
    rw [List.filter_eq_nil_iff]
    intro i _ hi
    cases e : Γ.get i with
    | none => rw [e] at hi; cases hi
    | some T =>
      rw [e] at hi
      have sT : Small K T := h i T e
      simp [isTypeParamKind, sT.not_type0, sT.not_class] at hi
  unfold hoistOrder
  rw [hp]
  simp

theorem tails_arrows {F : Nat → Term} {R : Term} {n : Nat} (hF : ∀ i, i < n → Small K (F i)) (hR : Small K R) : ∀ {m}, m ≤ n →
    tails F R n m = arrows ((List.range' (n - m) m).map F) R
  | 0, _ => by simp [tails, arrows, small_convert hR]
  | m + 1, hm => by
    have e : n - m = n - (m + 1) + 1 := by omega
    rw [tails, small_convert (hF _ (by omega)), tails_arrows hF hR (by omega), List.range'_succ, e]
    rfl

theorem opened_shape {c : Clause} (h : PlainClause K c) {A body : Term} {s : Symbol} {o : Opened} {As : List Term}
    (hctx : c.ctx = As.map some) (hc : c.lits = [⟨true, .ex A body, .tt⟩]) (e : openPositiveExists c A body s = some o) :
    o.type = arrows As A ∧ o.witness = (Term.sym s).apply (firstVars As.length) ∧
      o.literal = Literal.pos (inst 0 ((Term.sym s).apply (firstVars As.length)) body) := by
  obtain ⟨H, R, body', e1, e2, e3, e4, e5, e6, -⟩ := openPositiveExists_parts e
  have hcx := Small.ctxOk h.vars
  have ho : CtxOrdered c.ctx := fun i T hi j hj => by rw [Small.noVars (h.vars i T hi) j] at hj; cases hj
  obtain ⟨hl, F, f1, f2, f3, f4⟩ := hoisted ho (fun i T hi => (hcx i T hi).1) e1
  obtain ⟨r1, r2⟩ := renumber_spec A R e2
  have hlit : (⟨true, .ex A body, .tt⟩ : Literal) ∈ c.lits := by rw [hc]; simp
  obtain ⟨T, -, hex, -⟩ := h.lits _ hlit
  obtain ⟨-, tA, tB⟩ := STyped.quant_inv hex (.inr rfl)
  have sf : SortFree (.ex A body) := (h.neat hlit).left
  have sA : Small K A := Small.of_ctx h.vars (small_of_isTy tA rfl (SortFree.bind.1 sf).1)
  have eR : R = A := by rw [r2, small_byIds sA]
  subst eR
  have hlen : c.ctx.length = As.length := by rw [hctx]; simp
  have hF : ∀ i, i < As.length → As[i]? = some (F i) ∧ Small K (F i) := by
    intro i hi
    obtain ⟨T, t1, -, t3, -⟩ := f4 i i (by rw [hoistOrder_values h.vars, hlen]; simp [hi])
    have sT : Small K T := h.vars i T t1
    rw [small_byIds sT] at t3
    rw [t3]
    rw [hctx] at t1
    exact ⟨get_map_some.1 t1, sT⟩
  have eAs : (List.range' 0 As.length).map F = As := by
    apply List.ext_getElem?
    intro i
    by_cases hi : i < As.length
    · rw [(hF i hi).1]; simp [hi]
    · rw [List.getElem?_eq_none (by simp; omega), List.getElem?_eq_none (by omega)]
  have ty : o.type = tails F R c.ctx.length c.ctx.length := by
    have h1 := wrapPis_tails (R := R) f1 0 (Nat.zero_le _)
    simp only [witnessType, hl] at e4
    simp only [Nat.sub_zero, tails] at h1
    rw [h1] at e4
    exact (Option.some.inj e4).symm
  have ew : o.witness = (Term.sym s).apply (firstVars As.length) := by
    rw [e5, hoistOrder_values h.vars, hlen]
    rfl
  refine ⟨?_, ew, by rw [e6, ew]⟩
  rw [ty, hlen, tails_arrows (fun i hi => (hF i hi).2) sA (Nat.le_refl _), Nat.sub_self, eAs]

end Acorn.Opening
