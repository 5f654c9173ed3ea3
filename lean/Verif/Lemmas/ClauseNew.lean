/-
Taking apart a successful `Clause::new`.
-/
import Verif.Lemmas.LiteralOrder
namespace Acorn
open Term Spec

universe u

variable {M : Interp.{u}} {K : KCtx} {Γ : LCtx} {ls : List Literal} {c : Clause} {n : Nat}

theorem normVarsPinned_lits {ids : List Nat} {c : Clause}
    (e : Clause.normVarsPinned ⟨ls, Γ⟩ n = some (c, ids)) :
    c.lits = ls.map fun l => Literal.new l.positive (l.left.byIds ids) (l.right.byIds ids) := by
  simp only [Clause.normVarsPinned] at e
  cases e1 : litsNormVars Γ (List.range n) ls with
  | none => simp [e1] at e
  | some r1 =>
    obtain ⟨ls1, ids1⟩ := r1
    cases e2 : Γ.remap ids1 with
    | none => simp [e1, e2] at e
    | some Γ' =>
      simp [e1, e2] at e
      obtain ⟨rfl, rfl⟩ := e
      exact (litsNormVars_spec ls e1).2.2.2

theorem normalizePinned_parts (e : Clause.normalizePinned ⟨ls, Γ⟩ n = some c) :
    ∃ c1 ids1 c2 ids2, Clause.normVarsPinned ⟨litsPass ls, Γ⟩ n = some (c1, ids1) ∧
      Clause.normVarsPinned ⟨litsPass c1.lits, c1.ctx⟩ n = some (c2, ids2) ∧
      c = ⟨dedupAdj (sortLits c2.lits), c2.ctx⟩ := by
  simp only [Clause.normalizePinned] at e
  cases e1 : Clause.normVarsPinned ⟨litsPass ls, Γ⟩ n with
  | none => simp [e1] at e
  | some r1 =>
    obtain ⟨c1, ids1⟩ := r1
    cases e2 : Clause.normVarsPinned ⟨litsPass c1.lits, c1.ctx⟩ n with
    | none => simp [e1, e2] at e
    | some r2 =>
      obtain ⟨c2, ids2⟩ := r2
      simp [e1, e2] at e
      exact ⟨c1, ids1, c2, ids2, rfl, e2, e.symm⟩

theorem normalizePinned_negFirst (e : Clause.normalizePinned ⟨ls, Γ⟩ n = some c) :
    NegFirst c.lits := by
  obtain ⟨c1, ids1, c2, ids2, _, _, rfl⟩ := normalizePinned_parts e
  exact dedupSort_negFirst _

theorem normalizePinned_not_droppable (e : Clause.normalizePinned ⟨ls, Γ⟩ n = some c) :
    ∀ l ∈ c.lits, l.droppable = false := by
  obtain ⟨c1, ids1, c2, ids2, _, e2, rfl⟩ := normalizePinned_parts e
  intro l hl
  rw [mem_dedupAdj, mem_sortLits, normVarsPinned_lits e2] at hl
  obtain ⟨l0, h0, rfl⟩ := List.mem_map.1 hl
  cases h : (Literal.new l0.positive (l0.left.byIds ids2) (l0.right.byIds ids2)).droppable with
  | false => rfl
  | true => have := droppable_byIds h; rw [(mem_litsPass.1 h0).2] at this; exact this.symm

theorem normalizePinned_nodup (e : Clause.normalizePinned ⟨ls, Γ⟩ n = some c)
    (h : ∀ l ∈ c.lits, l.NoBinder) : c.lits.Nodup := by
  obtain ⟨c1, ids1, c2, ids2, _, _, rfl⟩ := normalizePinned_parts e
  exact dedupSort_nodup fun l hl => h l (by rw [mem_dedupAdj, mem_sortLits]; exact hl)

theorem new_new {p : Bool} {l r : Term} (h : Literal.needsFlip l r = false) :
    Literal.new p l r = ⟨p, l, r⟩ := by simp [Literal.new, Literal.newWithFlip, h]

theorem new_oriented (p : Bool) (l r : Term) :
    Literal.needsFlip (Literal.new p l r).left (Literal.new p l r).right = false := by
  simp only [Literal.new, Literal.newWithFlip]
  split
  · rename_i h
    simp only [Literal.needsFlip, beq_iff_eq] at h ⊢
    simp only [beq_eq_false_iff_ne]
    rw [extCmp_swap _ _ _ (Nat.le_refl _), h]
    decide
  · rename_i h; simpa using h

theorem normalizePinned_oriented (e : Clause.normalizePinned ⟨ls, Γ⟩ n = some c) :
    ∀ l ∈ c.lits, l.isNormalized = true := by
  obtain ⟨c1, ids1, c2, ids2, _, e2, rfl⟩ := normalizePinned_parts e
  intro l hl
  rw [mem_dedupAdj, mem_sortLits, normVarsPinned_lits e2] at hl
  obtain ⟨l0, h0, rfl⟩ := List.mem_map.1 hl
  simp only [Literal.isNormalized, new_oriented, Bool.not_false]

/-- The renaming behind a successful normalization. -/
theorem normalizePinned_spec (e : Clause.normalizePinned ⟨ls, Γ⟩ n = some c) :
    ∃ f : Nat → Nat, ∀ {K : KCtx} {M : Interp.{u}}, Lawful K M → LitsTyped K Γ ls →
      ∀ ρ, Models M Γ ρ → LitsTyped K c.ctx c.lits ∧ Models M c.ctx (ρ ∘ f) ∧
        ∀ β, (LitsHold M (ρ ∘ f) β c.lits ↔ LitsHold M ρ β ls) := by
  obtain ⟨c1, ids1, c2, ids2, e1, e2, rfl⟩ := normalizePinned_parts e
  refine ⟨fun k => ids1.getD (ids2.getD k 0) 0, ?_⟩
  intro K M L h ρ hρ
  obtain ⟨t1, h1⟩ := litsPass_spec L hρ h
  obtain ⟨t2, m2, h2⟩ := normVarsPinned_spec (K := K) hρ e1
  obtain ⟨t3, h3⟩ := litsPass_spec L m2 (t2 t1)
  obtain ⟨t4, m4, h4⟩ := normVarsPinned_spec (K := K) m2 e2
  refine ⟨dedupSort_typed.2 (t4 t3), m4, fun β => ?_⟩
  rw [← h1 β, ← h2 β, ← h3 β, ← h4 β]
  exact dedupSort_hold

/-- Assignments of the result extend to the source. -/
theorem normalizePinned_extend (e : Clause.normalizePinned ⟨ls, Γ⟩ n = some c)
    {K : KCtx} {M : Interp.{u}} (L : Lawful K M) (h : LitsTyped K Γ ls) (ho : CtxOrdered Γ)
    (hd : Declared Γ ls) (hn : ∀ i, i < n → (Γ.get i).isSome = true)
    (hi : CtxInhabited M Γ) {σ : Nat → M.D} (hσ : Models M c.ctx σ) :
    ∃ ρ, Models M Γ ρ ∧ ∀ β, (LitsHold M σ β c.lits ↔ LitsHold M ρ β ls) := by
  obtain ⟨c1, ids1, c2, ids2, e1, e2, rfl⟩ := normalizePinned_parts e
  obtain ⟨c1', ids1', e1', o1, d1, n1⟩ := normVarsPinned_total ho hn (litsPass_declared hd)
  rw [e1] at e1'
  cases e1'
  obtain ⟨r1, nd1⟩ := normVarsPinned_remap e1
  obtain ⟨r2, nd2⟩ := normVarsPinned_remap e2
  -- the intermediate context is inhabited as well
  have hi1 : CtxInhabited M c1.ctx := by
    intro k T hk ρ
    obtain ⟨s1, s2⟩ := remap_spec r1
    have hlt : k < ids1.length := by
      rw [← s1]
      rcases Nat.lt_or_ge k c1.ctx.length with h | h
      · exact h
      · simp [LCtx.get, List.getElem?_eq_none h] at hk
    obtain ⟨U, hU, hU', e⟩ := s2 k ids1[k] (List.getElem?_eq_getElem hlt)
    rw [hk] at e
    cases e
    obtain ⟨d, hd⟩ := hi _ _ hU (fun i => ρ (ids1.idxOf i))
    refine ⟨d, fun β => ?_⟩
    have := hd β
    rwa [Term.byIds, eval_vmap]
  obtain ⟨ρ1, m1, a1⟩ := extend_assignment nd2 r2 o1 hi1.vars hσ
  obtain ⟨ρ, m, a⟩ := extend_assignment nd1 r1 ho hi.vars m1
  refine ⟨ρ, m, fun β => ?_⟩
  -- evaluate along the two renumberings
  have key : ∀ {Γ0 : LCtx} {ls0 : List Literal} {c0 : Clause} {ids : List Nat} {τ σ : Nat → M.D},
      Clause.normVarsPinned ⟨ls0, Γ0⟩ n = some (c0, ids) → (∀ i ∈ ids, τ i = σ (ids.idxOf i)) →
      (LitsHold M σ β c0.lits ↔ LitsHold M τ β ls0) := by
    intro Γ0 ls0 c0 ids τ σ e a
    have hl := normVarsPinned_lits e
    have hv : ∀ l ∈ ls0, ∀ i, l.left.hasVar i = true ∨ l.right.hasVar i = true → i ∈ ids := by
      simp only [Clause.normVarsPinned] at e
      cases e1 : litsNormVars Γ0 (List.range n) ls0 with
      | none => simp [e1] at e
      | some r1 =>
        obtain ⟨ls1, ids1⟩ := r1
        cases e2 : Γ0.remap ids1 with
        | none => simp [e1, e2] at e
        | some Γ' =>
          simp [e1, e2] at e
          obtain ⟨rfl, rfl⟩ := e
          exact (litsNormVars_spec ls0 e1).2.1
    have ev : ∀ t : Term, (∀ i, t.hasVar i = true → i ∈ ids) →
        eval M σ β (t.byIds ids) = eval M τ β t := by
      intro t ht
      rw [Term.byIds, eval_vmap]
      exact eval_fvars M t _ _ _ fun i hi => (a i (ht i hi)).symm
    have lit : ∀ l ∈ ls0, (LitHolds M σ β (Literal.new l.positive (l.left.byIds ids)
        (l.right.byIds ids)) ↔ LitHolds M τ β l) := by
      intro l hl
      rw [litHolds_new]
      simp only [LitHolds]
      rw [ev _ fun i hi => hv l hl i (Or.inl hi), ev _ fun i hi => hv l hl i (Or.inr hi)]
    rw [hl]
    simp only [LitsHold, List.mem_map]
    constructor
    · rintro ⟨_, ⟨l, hl, rfl⟩, hh⟩; exact ⟨l, hl, (lit l hl).1 hh⟩
    · rintro ⟨l, hl, hh⟩; exact ⟨_, ⟨l, hl, rfl⟩, (lit l hl).2 hh⟩
  obtain ⟨t1, h1⟩ := litsPass_spec L m h
  obtain ⟨t2, _, _⟩ := normVarsPinned_spec (K := K) m e1
  obtain ⟨t3, h3⟩ := litsPass_spec L m1 (t2 t1)
  rw [dedupSort_hold, key e2 a1, h3 β, key e1 a, h1 β]

theorem normalizePinned_total (ho : CtxOrdered Γ) (hd : Declared Γ ls)
    (hn : ∀ i, i < n → (Γ.get i).isSome = true) : ∃ c, Clause.normalizePinned ⟨ls, Γ⟩ n = some c := by
  obtain ⟨c1, ids1, e1, o1, d1, n1⟩ := normVarsPinned_total ho hn (litsPass_declared hd)
  obtain ⟨c2, ids2, e2, o2, d2, n2⟩ := normVarsPinned_total o1 n1 (litsPass_declared d1)
  exact ⟨⟨dedupAdj (sortLits c2.lits), c2.ctx⟩, by simp [Clause.normalizePinned, e1, e2]⟩

/-- Well typed terms only use variables of the context. -/
theorem Spec.STyped.declared {Δ : BCtx} {t : Term} {J : Jdg} (h : STyped K Γ Δ t J) {i : Nat}
    (hi : t.hasVar i = true) : (Γ.get i).isSome = true := by
  induction h with
  | fvar h1 _ => rw [hv_fvar] at hi; subst hi; simp [h1]
  | bvar _ => simp [Term.hasVar, atoms] at hi
  | sym _ _ _ => simp [Term.hasVar, atoms] at hi
  | appVal _ _ _ _ ih1 ih2 => exact (hv_app.1 hi).elim ih1 ih2
  | appTy _ _ _ ih1 ih2 => exact (hv_app.1 hi).elim ih1 ih2
  | lam _ _ _ _ ih1 ih2 => exact (hv_bind.1 hi).elim ih1 ih2
  | all _ _ ih1 ih2 => exact (hv_bind.1 hi).elim ih1 ih2
  | ex _ _ ih1 ih2 => exact (hv_bind.1 hi).elim ih1 ih2
  | pi _ _ ih1 ih2 => exact (hv_bind.1 hi).elim ih1 ih2
  | inst _ _ => simp [Term.hasVar, atoms] at hi
  | scheme _ _ _ _ _ _ _ ih => exact ih hi
  | extend _ _ ih => exact ih hi
  | forget _ ih => exact ih hi
  | tyType0 => simp [Term.hasVar, atoms] at hi
  | tyClass => simp [Term.hasVar, atoms] at hi
  | tyOf _ ih => exact ih hi
  | tyPi _ _ ih1 ih2 => exact (hv_bind.1 hi).elim ih1 ih2

/-- Well typed literals only use variables of the context. -/
theorem Spec.LitsTyped.declared {ls : List Literal} (h : LitsTyped K Γ ls) : Declared Γ ls := by
  intro l hl i hi
  obtain ⟨T, h1, h2⟩ := h l hl
  rcases hi with hi | hi
  · exact h1.declared hi
  · exact h2.declared hi

end Acorn
