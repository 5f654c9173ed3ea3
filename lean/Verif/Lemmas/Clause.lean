/-
Clause normalization: helper lemmas.
-/
import Verif.Lemmas.Sorting
import Verif.Spec.Clauses
import Verif.Lemmas.VarIds
import Verif.Lemmas.NormalizeClauseTerm
namespace Acorn
open Spec Term

universe u
variable {K : KCtx} {M : Interp.{u}} {Γ : LCtx} {ρ : Nat → M.D}

theorem litHolds_new {ρ β : Nat → M.D} (p : Bool) (l r : Term) :
    LitHolds M ρ β (Literal.new p l r) ↔ LitHolds M ρ β ⟨p, l, r⟩ := by
  simp only [Literal.new, Literal.newWithFlip]
  split
  · simp only [LitHolds]
    cases p
    · simp only [Bool.false_eq_true, ↓reduceIte]; exact ne_comm
    · simp only [↓reduceIte]; exact eq_comm
  · rfl

theorem litTyped_new {p : Bool} {l r : Term} : LitTyped K Γ (Literal.new p l r) ↔
    LitTyped K Γ ⟨p, l, r⟩ := by
  simp only [Literal.new, Literal.newWithFlip]
  split
  · exact ⟨fun ⟨T, h1, h2⟩ => ⟨T, h2, h1⟩, fun ⟨T, h1, h2⟩ => ⟨T, h2, h1⟩⟩
  · rfl

theorem new_vars {p : Bool} {l r : Term} {i : Nat} :
    ((Literal.new p l r).left.hasVar i = true ∨ (Literal.new p l r).right.hasVar i = true) ↔
      (l.hasVar i = true ∨ r.hasVar i = true) := by
  simp only [Literal.new, Literal.newWithFlip]
  split
  · exact or_comm
  · rfl

/-- A literal `t = true` or `t ≠ true` holds exactly when the truth of `t` agrees with the sign. -/
theorem litHolds_signed {β : Nat → M.D} {t : Term} {p : Bool} :
    LitHolds M ρ β ⟨p, t, .tt⟩ ↔ (Tr M ρ β t ↔ p = true) := by
  cases p <;> simp [LitHolds, Tr, eval, vtt]

theorem litHolds_eq {β : Nat → M.D} {l r : Term} {p : Bool} :
    LitHolds M ρ β ⟨p, l, r⟩ ↔ (eval M ρ β l = eval M ρ β r ↔ p = true) := by
  cases p <;> simp [LitHolds]

theorem isTrue_eq {Δ : BCtx} {t : Term} {J : Jdg} (h : STyped K Γ Δ t J) (e : t.isTrue = true) :
    t = .tt := by
  simp only [Term.isTrue, beq_iff_eq] at e
  exact h.head_const (Or.inl rfl) e

theorem tt_type {Δ : BCtx} {T : Term} (h : STyped K Γ Δ .tt (.ty T)) : T = .boolTy :=
  (Typed.unique_of_not_kind (STyped.valueSym (K := K) (Γ := Γ) (Δ := Δ) (s := .true_) rfl rfl).typed
    h.typed rfl).symm

/-- Normalizing one literal. -/
theorem normalize_lit (L : Lawful K M) (hρ : Models M Γ ρ) {l : Literal} (h : LitTyped K Γ l) :
    LitTyped K Γ l.normalize ∧ ∀ β, (LitHolds M ρ β l.normalize ↔ LitHolds M ρ β l) := by
  obtain ⟨T, hl, hr⟩ := h
  have sr := normClauseTerm_same L hρ hr
  simp only [Literal.normalize]
  split
  · rename_i ht
    have hr' := isTrue_eq sr.typed ht
    have hT : T = .boolTy := by
      have := sr.typed
      rw [hr'] at this
      exact tt_type this
    subst hT
    have ss := normSigned_spec L hρ l.left.size l.positive (Nat.le_refl _) hl
    have hval : ∀ β, (LitHolds M ρ β ⟨(l.left.normSigned l.positive).2,
        (l.left.normSigned l.positive).1, .tt⟩ ↔ LitHolds M ρ β l) := by
      intro β
      rw [litHolds_signed]
      refine (ss.2 β (BModels.nil M ρ β)).trans ?_
      have e2 : eval M ρ β l.right = vtt M := by
        have := sr.eval β (BModels.nil M ρ β)
        rw [hr'] at this
        exact this.symm
      cases hp : l.positive <;> simp [LitHolds, Tr, hp, e2]
    have htyp : SHasType K Γ (l.left.normSigned l.positive).1 .boolTy := ss.1
    split
    · rename_i _ a b e
      obtain ⟨e1, e2⟩ := htyp.splitSym (s := .eq_) rfl e
      simp only [Term.apply, List.foldl] at e1
      rw [e1] at htyp
      obtain ⟨_, hT', ha, hb⟩ := htyp.eq_inv
      refine ⟨litTyped_new.2 ⟨_, ha, hb⟩, ?_⟩
      intro β
      rw [litHolds_new, ← hval β, litHolds_signed, e1, tr_eq L hρ htyp (BModels.nil M ρ β), litHolds_eq]
    · refine ⟨litTyped_new.2 ⟨_, htyp, STyped.valueSym rfl rfl⟩, ?_⟩
      intro β
      rw [Literal.fromSigned, litHolds_new, hval]
  · have sl := normClauseTerm_same L hρ hl
    refine ⟨litTyped_new.2 ⟨T, sl.typed, sr.typed⟩, ?_⟩
    intro β
    rw [litHolds_new, litHolds_eq, sl.eval β (BModels.nil M ρ β), sr.eval β (BModels.nil M ρ β)]
    exact litHolds_eq.symm

theorem droppable_false {β : Nat → M.D} {l : Literal} (h : l.droppable = true) :
    ¬ LitHolds M ρ β l := by
  simp only [Literal.droppable, Literal.isImpossible, Bool.and_eq_true, Bool.not_eq_true',
    decide_eq_true_eq] at h
  simp [LitHolds, h.1.1, h.1.2]

theorem mem_dedupAdj {α : Type} [DecidableEq α] {a : α} : ∀ {l : List α}, a ∈ dedupAdj l ↔ a ∈ l
  | [] => by simp [dedupAdj]
  | [b] => by simp [dedupAdj]
  | b :: c :: l => by
    have ih := mem_dedupAdj (a := a) (l := c :: l)
    simp only [dedupAdj]
    split
    · rename_i e
      subst e
      rw [ih]; simp
    · rw [List.mem_cons, ih, List.mem_cons (a := a) (b := b)]

theorem mem_sortLits {l : Literal} {ls : List Literal} : l ∈ sortLits ls ↔ l ∈ ls :=
  (insertSort_perm _ ls).mem_iff

theorem mem_litsPass {l : Literal} {ls : List Literal} :
    l ∈ litsPass ls ↔ (∃ l0 ∈ ls, l0.normalize = l) ∧ l.droppable = false := by
  simp [litsPass, mem_dedupAdj, mem_sortLits]

/-- The literal pass keeps typing and truth. -/
theorem litsPass_spec (L : Lawful K M) (hρ : Models M Γ ρ) {ls : List Literal}
    (h : LitsTyped K Γ ls) : LitsTyped K Γ (litsPass ls) ∧
      ∀ β, (LitsHold M ρ β (litsPass ls) ↔ LitsHold M ρ β ls) := by
  refine ⟨?_, ?_⟩
  · intro l hl
    obtain ⟨⟨l0, h0, rfl⟩, _⟩ := mem_litsPass.1 hl
    exact (normalize_lit L hρ (h l0 h0)).1
  · intro β
    constructor
    · rintro ⟨l, hl, hh⟩
      obtain ⟨⟨l0, h0, rfl⟩, _⟩ := mem_litsPass.1 hl
      exact ⟨l0, h0, ((normalize_lit L hρ (h l0 h0)).2 β).1 hh⟩
    · rintro ⟨l0, h0, hh⟩
      have hh' := ((normalize_lit L hρ (h l0 h0)).2 β).2 hh
      refine ⟨_, mem_litsPass.2 ⟨⟨l0, h0, rfl⟩, ?_⟩, hh'⟩
      cases e : l0.normalize.droppable with
      | false => rfl
      | true => exact absurd hh' (droppable_false e)

/-! ### Renumbering literals -/

theorem lit_normVars {ids ids' : List Nat} {l l' : Literal} (e : l.normVars Γ ids = some (l', ids')) :
    ids <+: ids' ∧ (∀ i, l.left.hasVar i = true ∨ l.right.hasVar i = true → i ∈ ids') ∧
      (ids.Nodup → ids'.Nodup) ∧
      l' = Literal.new l.positive (l.left.byIds ids') (l.right.byIds ids') := by
  simp only [Literal.normVars] at e
  cases e1 : l.left.normVars Γ ids with
  | none => simp [e1] at e
  | some r1 =>
    obtain ⟨a, ids1⟩ := r1
    cases e2 : l.right.normVars Γ ids1 with
    | none => simp [e1, e2] at e
    | some r2 =>
      obtain ⟨b, ids2⟩ := r2
      simp [e1, e2] at e
      obtain ⟨rfl, rfl⟩ := e
      obtain ⟨h1, h2, h3, h4⟩ := normVars_spec _ _ _ _ e1
      obtain ⟨k1, k2, k3, k4⟩ := normVars_spec _ _ _ _ e2
      refine ⟨h1.trans k1, ?_, fun h => k3 (h3 h), ?_⟩
      · intro i hi
        rcases hi with hi | hi
        · exact k1.subset (h2 i hi)
        · exact k2 i hi
      · rw [h4, k4, byIds_prefix k1 h2]

theorem litsNormVars_spec (ls : List Literal) : ∀ {ids ids' : List Nat} {ls' : List Literal},
    litsNormVars Γ ids ls = some (ls', ids') →
    ids <+: ids' ∧ (∀ l ∈ ls, ∀ i, l.left.hasVar i = true ∨ l.right.hasVar i = true → i ∈ ids') ∧
      (ids.Nodup → ids'.Nodup) ∧
      ls' = ls.map fun l => Literal.new l.positive (l.left.byIds ids') (l.right.byIds ids') := by
  induction ls with
  | nil => intro ids ids' ls' e; simp [litsNormVars] at e; obtain ⟨rfl, rfl⟩ := e; simp
  | cons l ls ih =>
    intro ids ids' ls' e
    simp only [litsNormVars] at e
    cases e1 : l.normVars Γ ids with
    | none => simp [e1] at e
    | some r1 =>
      obtain ⟨l1, ids1⟩ := r1
      cases e2 : litsNormVars Γ ids1 ls with
      | none => simp [e1, e2] at e
      | some r2 =>
        obtain ⟨ls2, ids2⟩ := r2
        simp [e1, e2] at e
        obtain ⟨rfl, rfl⟩ := e
        obtain ⟨h1, h2, h3, h4⟩ := lit_normVars e1
        obtain ⟨k1, k2, k3, k4⟩ := ih e2
        refine ⟨h1.trans k1, ?_, fun h => k3 (h3 h), ?_⟩
        · intro x hx i hi
          rcases List.mem_cons.1 hx with rfl | hx
          · exact k1.subset (h2 i hi)
          · exact k2 x hx i hi
        · rw [List.map_cons, k4, h4,
            byIds_prefix k1 (fun i hi => h2 i (Or.inl hi)), byIds_prefix k1 (fun i hi => h2 i (Or.inr hi))]

/-- Renumbering keeps typing and truth, under the corresponding assignment. -/
theorem renumber_lits {ls ls' : List Literal} {ids ids' : List Nat} {Γ' : LCtx}
    (e : litsNormVars Γ ids ls = some (ls', ids')) (e' : Γ.remap ids' = some Γ') :
    (LitsTyped K Γ ls → LitsTyped K Γ' ls') ∧
      ∀ (ρ β : Nat → M.D), (LitsHold M (pullback ids' ρ) β ls' ↔ LitsHold M ρ β ls) := by
  obtain ⟨_, h2, _, h4⟩ := litsNormVars_spec ls e
  subst h4
  refine ⟨?_, ?_⟩
  · intro h l hl
    obtain ⟨l0, h0, rfl⟩ := List.mem_map.1 hl
    obtain ⟨T, t1, t2⟩ := h l0 h0
    exact litTyped_new.2 ⟨_, t1.byIds e' (fun i hi => h2 l0 h0 i (Or.inl hi)),
      t2.byIds e' (fun i hi => h2 l0 h0 i (Or.inr hi))⟩
  · intro ρ β
    simp only [LitsHold, List.mem_map]
    have key : ∀ l0 ∈ ls, (LitHolds M (pullback ids' ρ) β
        (Literal.new l0.positive (l0.left.byIds ids') (l0.right.byIds ids')) ↔ LitHolds M ρ β l0) := by
      intro l0 h0
      rw [litHolds_new, litHolds_eq, eval_byIds M (fun i hi => h2 l0 h0 i (Or.inl hi)),
        eval_byIds M (fun i hi => h2 l0 h0 i (Or.inr hi))]
      exact litHolds_eq.symm
    constructor
    · rintro ⟨_, ⟨l0, h0, rfl⟩, hh⟩
      exact ⟨l0, h0, (key l0 h0).1 hh⟩
    · rintro ⟨l0, h0, hh⟩
      exact ⟨_, ⟨l0, h0, rfl⟩, (key l0 h0).2 hh⟩

theorem dedupSort_typed {ls : List Literal} : LitsTyped K Γ (dedupAdj (sortLits ls)) ↔
    LitsTyped K Γ ls := by
  simp only [LitsTyped, mem_dedupAdj, mem_sortLits]

theorem dedupSort_hold {β : Nat → M.D} {ls : List Literal} :
    LitsHold M ρ β (dedupAdj (sortLits ls)) ↔ LitsHold M ρ β ls := by
  simp only [LitsHold, mem_dedupAdj, mem_sortLits]

/-- Everything a successful `normalizePrefilled` guarantees. -/
theorem normalizePrefilled_spec (L : Lawful K M) (hρ : Models M Γ ρ) {ls : List Literal}
    {ids ids' : List Nat} {c : Clause} (h : LitsTyped K Γ ls)
    (e : normalizePrefilled ls Γ ids = some (c, ids')) :
    LitsTyped K c.ctx c.lits ∧ Models M c.ctx (pullback ids' ρ) ∧
      ∀ β, (LitsHold M (pullback ids' ρ) β c.lits ↔ LitsHold M ρ β ls) := by
  simp only [normalizePrefilled] at e
  cases e1 : litsNormVars Γ ids (litsPass ls) with
  | none => simp [e1] at e
  | some r1 =>
    obtain ⟨ls1, ids1⟩ := r1
    cases e2 : Γ.remap ids1 with
    | none => simp [e1, e2] at e
    | some Γ1 =>
      simp [e1, e2] at e
      obtain ⟨rfl, rfl⟩ := e
      obtain ⟨t1, t2⟩ := litsPass_spec L hρ h
      obtain ⟨k1, k2⟩ := renumber_lits (K := K) (M := M) e1 e2
      refine ⟨dedupSort_typed.2 (k1 t1), models_remap e2 hρ, ?_⟩
      intro β
      rw [dedupSort_hold, k2, t2]

theorem normVarsPinned_spec (hρ : Models M Γ ρ) {ls : List Literal} {n : Nat} {c : Clause}
    {ids : List Nat} (e : Clause.normVarsPinned ⟨ls, Γ⟩ n = some (c, ids)) :
    (LitsTyped K Γ ls → LitsTyped K c.ctx c.lits) ∧ Models M c.ctx (pullback ids ρ) ∧
      ∀ β, (LitsHold M (pullback ids ρ) β c.lits ↔ LitsHold M ρ β ls) := by
  simp only [Clause.normVarsPinned] at e
  cases e1 : litsNormVars Γ (List.range n) ls with
  | none => simp [e1] at e
  | some r1 =>
    obtain ⟨ls1, ids1⟩ := r1
    cases e2 : Γ.remap ids1 with
    | none => simp [e1, e2] at e
    | some Γ1 =>
      simp [e1, e2] at e
      obtain ⟨rfl, rfl⟩ := e
      obtain ⟨k1, k2⟩ := renumber_lits (K := K) (M := M) e1 e2
      exact ⟨k1, models_remap e2 hρ, k2 ρ⟩

/-- The variables of the output of `normVarsPinned`, as a list of old variables. -/
theorem normVarsPinned_remap {ls : List Literal} {n : Nat} {c : Clause}
    {ids : List Nat} (e : Clause.normVarsPinned ⟨ls, Γ⟩ n = some (c, ids)) :
    Γ.remap ids = some c.ctx ∧ ids.Nodup := by
  simp only [Clause.normVarsPinned] at e
  cases e1 : litsNormVars Γ (List.range n) ls with
  | none => simp [e1] at e
  | some r1 =>
    obtain ⟨ls1, ids1⟩ := r1
    cases e2 : Γ.remap ids1 with
    | none => simp [e1, e2] at e
    | some Γ1 =>
      simp [e1, e2] at e
      obtain ⟨rfl, rfl⟩ := e
      exact ⟨e2, (litsNormVars_spec _ e1).2.2.1 List.nodup_range⟩

/-! ### Extending an assignment to dropped variables -/

theorem Spec.CtxInhabited.vars {Γ : LCtx} {P : Nat → Prop} (h : CtxInhabited M Γ) : VarsInhabited M Γ P :=
  fun i T hi _ ρ _ => h i T hi ρ

theorem get_take {Γ : LCtx} {i n : Nat} {T : Term} (h : LCtx.get (Γ.take n) i = some T) :
    i < n ∧ Γ.get i = some T := by
  simp only [LCtx.get, List.getElem?_take] at h
  split at h
  · exact ⟨by assumption, h⟩
  · cases h

/-- If the types of the dropped variables are inhabited, an assignment for the kept variables comes from
an assignment for all. -/
theorem extend_assignment {Γ Γ' : LCtx} {ids : List Nat} (hn : ids.Nodup)
    (e : Γ.remap ids = some Γ') (ho : CtxOrdered Γ) (hi : VarsInhabited M Γ (· ∉ ids)) {σ : Nat → M.D}
    (hσ : Models M Γ' σ) : ∃ ρ, Models M Γ ρ ∧ ∀ i, i ∈ ids → ρ i = σ (ids.idxOf i) := by
  classical
  -- build the assignment variable by variable
  have step : ∀ n, ∃ ρ : Nat → M.D, (∀ i, i ∈ ids → ρ i = σ (ids.idxOf i)) ∧
      ∀ i T, i < n → Γ.get i = some T → ∀ β, M.mem (ρ i) (eval M ρ β T) := by
    intro n
    induction n with
    | zero =>
      exact ⟨fun i => σ (ids.idxOf i), fun i hi => rfl, fun i T h => absurd h (Nat.not_lt_zero _)⟩
    | succ n ih =>
      obtain ⟨ρ, h1, h2⟩ := ih
      by_cases hn' : n ∈ ids
      · refine ⟨ρ, h1, ?_⟩
        intro i T hlt hT β
        rcases Nat.lt_or_ge i n with h | h
        · exact h2 i T h hT β
        · have : i = n := by omega
          subst this
          have hlt' := List.idxOf_lt_length_iff.2 hn'
          obtain ⟨U, hU, hv, hU'⟩ := (remap_spec e).2 (ids.idxOf i) i (by
            rw [List.getElem?_eq_getElem hlt']; simp [List.getElem_idxOf])
          have hTU : T = U := by rw [hU] at hT; exact (Option.some.inj hT).symm
          subst hTU
          have := hσ _ _ hU' β
          rw [Term.byIds, eval_vmap] at this
          rw [h1 i hn']
          rw [eval_fvars M T ρ (fun j => σ (ids.idxOf j)) β (fun j hj => h1 j (hv j hj))]
          exact this
      · cases hg : Γ.get n with
        | none =>
          refine ⟨ρ, h1, ?_⟩
          intro i T hlt hT β
          rcases Nat.lt_or_ge i n with h | h
          · exact h2 i T h hT β
          · have : i = n := by omega
            subst this
            rw [hg] at hT; cases hT
        | some T =>
          obtain ⟨d, hd⟩ := hi n T hg hn' ρ fun i U hU => by
            obtain ⟨h3, h4⟩ := get_take hU
            exact h2 i U h3 h4
          refine ⟨fun i => if i = n then d else ρ i, ?_, ?_⟩
          · intro i hi'
            have : i ≠ n := fun h => hn' (h ▸ hi')
            simp [this, h1 i hi']
          · intro i U hlt hU β
            have hag : eval M (fun i => if i = n then d else ρ i) β U = eval M ρ β U := by
              refine eval_fvars M U _ _ β fun j hj => ?_
              have := (ho i U hU j hj).1
              have : j ≠ n := by omega
              simp [this]
            rw [hag]
            rcases Nat.lt_or_ge i n with h | h
            · have : i ≠ n := by omega
              simp only [this, if_false]
              exact h2 i U h hU β
            · have : i = n := by omega
              subst this
              rw [hg] at hU
              cases hU
              simp only [if_true]
              exact hd β
  obtain ⟨ρ, h1, h2⟩ := step Γ.length
  refine ⟨ρ, ?_, h1⟩
  intro i T hT β
  refine h2 i T ?_ hT β
  rcases Nat.lt_or_ge i Γ.length with h | h
  · exact h
  · rw [LCtx.get, List.getElem?_eq_none h] at hT; cases hT

end Acorn
