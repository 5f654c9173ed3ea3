/-
Boolean reductions of clauses.
-/
import Verif.Lemmas.BoolReplace
namespace Acorn
namespace Spec
open Term

universe u

section
variable {K : KCtx} {Γ : LCtx} {M : Interp.{u}}

/-! ### Replacing a literal of a list -/

theorem mem_replaceLit {ls rs : List Literal} {i : Nat} {a : Literal} (h : a ∈ replaceLit ls i rs) :
    a ∈ ls ∨ a ∈ rs := by
  simp only [replaceLit, List.mem_append] at h
  rcases h with (h | h) | h
  · exact Or.inl (List.mem_of_mem_take h)
  · exact Or.inr h
  · exact Or.inl (List.mem_of_mem_drop h)

theorem mem_or_replaced {ls rs : List Literal} {i : Nat} {l a : Literal} (hl : ls[i]? = some l)
    (h : a ∈ ls) : a = l ∨ a ∈ replaceLit ls i rs := by
  obtain ⟨j, hj, rfl⟩ := List.mem_iff_getElem.1 h
  by_cases e : j = i
  · left
    subst e
    rw [List.getElem?_eq_getElem hj] at hl
    exact Option.some.inj hl
  · right
    simp only [replaceLit, List.mem_append]
    rcases Nat.lt_or_ge j i with h1 | h1
    · exact Or.inl (Or.inl (List.mem_take_iff_getElem.2 ⟨j, by omega, rfl⟩))
    · refine Or.inr (List.mem_drop_iff_getElem.2 ⟨j - (i + 1), by omega, ?_⟩)
      congr 1
      omega

theorem mem_replaced {ls rs : List Literal} {i : Nat} {a : Literal} (h : a ∈ rs) :
    a ∈ replaceLit ls i rs := by
  simp [replaceLit, h]

theorem replace_sound {ρ β : Nat → M.D} {ls rs : List Literal} {i : Nat} {l : Literal}
    (hl : ls[i]? = some l) (h : LitHolds M ρ β l → LitsHold M ρ β rs) (hh : LitsHold M ρ β ls) :
    LitsHold M ρ β (replaceLit ls i rs) := by
  obtain ⟨a, ha, h1⟩ := hh
  rcases mem_or_replaced (rs := rs) hl ha with rfl | h2
  · obtain ⟨b, hb, h3⟩ := h h1
    exact ⟨b, mem_replaced hb, h3⟩
  · exact ⟨a, h2, h1⟩

theorem replace_cases {ρ β : Nat → M.D} {ls rs : List Literal} {i : Nat}
    (hh : LitsHold M ρ β (replaceLit ls i rs)) : LitsHold M ρ β ls ∨ LitsHold M ρ β rs := by
  obtain ⟨a, ha, h1⟩ := hh
  rcases mem_replaceLit ha with h | h
  · exact Or.inl ⟨a, h, h1⟩
  · exact Or.inr ⟨a, h, h1⟩

theorem replace_typed {ls rs : List Literal} {i : Nat} (h : LitsTyped K Γ ls) (h' : LitsTyped K Γ rs) :
    LitsTyped K Γ (replaceLit ls i rs) := fun a ha => (mem_replaceLit ha).elim (h a) (h' a)

theorem LitsTyped.weaken {Γ' : LCtx} {ls : List Literal} (h : LitsTyped K Γ ls)
    (hg : ∀ i T, Γ.get i = some T → Γ'.get i = some T) : LitsTyped K Γ' ls := by
  intro l hl
  obtain ⟨T, h1, h2⟩ := h l hl
  exact ⟨T, h1.weaken hg, h2.weaken hg⟩

/-! ### Assignments for the renumbered variables -/

/-- `σ` gives each new variable the value of the variable it stands for. -/
theorem holds_of_agree {c : Clause} (h : LitsTyped K c.ctx c.lits) {σ τ : Nat → M.D}
    (e : ∀ i, i < c.ctx.length → σ i = τ i) (β : Nat → M.D) :
    LitsHold M σ β c.lits ↔ LitsHold M τ β c.lits := by
  have ev : ∀ t, (∀ i, t.hasVar i = true → (c.ctx.get i).isSome = true) →
      eval M σ β t = eval M τ β t := by
    intro t ht
    refine eval_fvars M t _ _ _ fun i hi => ?_
    obtain ⟨T, hT⟩ := Option.isSome_iff_exists.1 (ht i hi)
    exact e i (get_lt hT)
  refine exists_congr fun l => and_congr_right fun hl => ?_
  obtain ⟨T, h1, h2⟩ := h l hl
  simp only [LitHolds]
  rw [ev l.left fun i hi => h1.declared hi, ev l.right fun i hi => h2.declared hi]

theorem normalizeBoolReduction_parts {ls : List Literal} {n : Nat} {t : Trace}
    (e : normalizeBoolReduction ls Γ n = some t) :
    t.preCtx = Γ ∧ ∃ ids, ids.Nodup ∧ normalizePrefilled ls Γ ids = some (t.clause, t.varIds) := by
  simp only [normalizeBoolReduction] at e
  cases e1 : normalizePrefilled ls Γ [] with
  | none => simp [e1] at e
  | some r1 =>
    obtain ⟨c1, ids1⟩ := r1
    cases e2 : normalizePrefilled ls Γ (ids1.filter (· < n)) with
    | none => simp [e1, e2] at e
    | some r2 =>
      obtain ⟨c2, ids2⟩ := r2
      simp [e1, e2] at e
      subst e
      refine ⟨rfl, _, ?_, e2⟩
      refine List.Pairwise.filter _ ?_
      simp only [normalizePrefilled] at e1
      cases e3 : litsNormVars Γ [] (litsPass ls) with
      | none => simp [e3] at e1
      | some r =>
        obtain ⟨ls', ids'⟩ := r
        simp only [e3, Option.bind_eq_bind, Option.bind_some, Option.pure_def,
          Option.bind_eq_some_iff] at e1
        obtain ⟨_, _, e1⟩ := e1
        cases e1
        exact (litsNormVars_spec _ e3).2.2.1 List.nodup_nil

theorem normalizePrefilled_remap {ls : List Literal} {ids ids' : List Nat} {c : Clause}
    (e : normalizePrefilled ls Γ ids = some (c, ids')) (hn : ids.Nodup) :
    Γ.remap ids' = some c.ctx ∧ ids'.Nodup := by
  simp only [normalizePrefilled] at e
  cases e1 : litsNormVars Γ ids (litsPass ls) with
  | none => simp [e1] at e
  | some r1 =>
    obtain ⟨ls1, ids1⟩ := r1
    cases e2 : Γ.remap ids1 with
    | none => simp [e1, e2] at e
    | some Γ1 =>
      simp [e1, e2] at e
      obtain ⟨rfl, rfl⟩ := e
      exact ⟨e2, (litsNormVars_spec _ e1).2.2.1 hn⟩

theorem remap_length {Γ' : LCtx} {ids : List Nat} (e : Γ.remap ids = some Γ') :
    Γ'.length = ids.length := (remap_spec e).1

/-- The meaning of the normalized clause of a trace, for each assignment before normalization. -/
theorem normalizePrefilled_agree (L : Lawful K M) {ls : List Literal} {ids ids' : List Nat} {c : Clause}
    (h : LitsTyped K Γ ls) (e : normalizePrefilled ls Γ ids = some (c, ids')) (hn : ids.Nodup)
    {ρ σ : Nat → M.D} (hρ : Models M Γ ρ) (hσ : ∀ k i, ids'[k]? = some i → σ k = ρ i) (β : Nat → M.D) :
    LitsHold M σ β c.lits ↔ LitsHold M ρ β ls := by
  obtain ⟨h1, h2, h3⟩ := normalizePrefilled_spec L hρ h e
  rw [← h3 β]
  refine holds_of_agree h1 (fun i hi => ?_) β
  rw [remap_length (normalizePrefilled_remap e hn).1] at hi
  rw [hσ i _ (List.getElem?_eq_getElem hi)]
  simp [pullback, List.getD_eq_getElem?_getD, List.getElem?_eq_getElem hi]

/-- An assignment of the normalized context comes from one before normalization, when the dropped
variables have inhabited types. -/
theorem normalizePrefilled_extend {ls : List Literal} {ids ids' : List Nat} {c : Clause}
    (e : normalizePrefilled ls Γ ids = some (c, ids')) (hn : ids.Nodup) (ho : CtxOrdered Γ)
    (hi : VarsInhabited M Γ (· ∉ ids')) {σ : Nat → M.D} (hσ : Models M c.ctx σ) :
    ∃ ρ, Models M Γ ρ ∧ ∀ k i, ids'[k]? = some i → σ k = ρ i := by
  obtain ⟨e1, nd⟩ := normalizePrefilled_remap e hn
  obtain ⟨ρ, m, h⟩ := extend_assignment nd e1 ho hi hσ
  refine ⟨ρ, m, fun k i hk => ?_⟩
  obtain ⟨hlt, rfl⟩ := List.getElem?_eq_some_iff.1 hk
  rw [h _ (List.getElem_mem hlt), nd.idxOf_getElem]

/-! ### Pairs -/

theorem boolReplace_ctx {fuel n : Nat} {l : Literal} {k : BoolKind} (hk : isHalf k = true)
    {r : List Literal} {Γ' : LCtx} (e : boolReplace fuel K Γ n l k = some (r, Γ')) : Γ' = Γ := by
  cases k <;> simp only [isHalf] at hk <;> try (cases hk)
  all_goals
    simp only [boolReplace] at e
    repeat' split at e
    all_goals first | cases e | skip
    all_goals first | rfl | skip

theorem boolReplace_pair {fuel n : Nat} {l : Literal} (L : Lawful K M) (hΓ : CtxOk Γ)
    (h : LitTyped K Γ l) {k k' : BoolKind} (hk : k.paired k' = true) {r r' : List Literal}
    {Γ1 Γ2 : LCtx} (e : boolReplace fuel K Γ n l k = some (r, Γ1))
    (e' : boolReplace fuel K Γ n l k' = some (r', Γ2)) {ρ : Nat → M.D} (hρ : Models M Γ ρ)
    (β : Nat → M.D) (h1 : LitsHold M ρ β r) (h2 : LitsHold M ρ β r') : LitHolds M ρ β l := by
  obtain ⟨T, hl, hr⟩ := h
  have h : LitTyped K Γ l := ⟨T, hl, hr⟩
  have sgn : ∀ {b : Bool}, (!signedBool K Γ l || b) ≠ true → l.right.isTrue = true ∧ b = false := by
    intro b hb
    cases es : signedBool K Γ l with
    | false => rw [es] at hb; exact absurd rfl hb
    | true =>
      rw [es] at hb
      cases b with
      | true => exact absurd rfl hb
      | false => exact ⟨(signedBool_iff.1 es).2, rfl⟩
  unfold BoolKind.paired at hk
  split at hk
  · -- if-then-else on the left
    simp only [boolReplace] at e e'
    split at e
    · rename_i T' c x y es
      rw [es] at e'
      cases e; cases e'
      obtain ⟨el, _⟩ := splitSymExact_eq es
      rw [el] at hl
      rw [lits_two, holds_neg, litHolds_new, litHolds_eq] at h1
      rw [lits_two, holds_pos, litHolds_new, litHolds_eq] at h2
      rw [litHolds_eq (l := l.left), el]
      exact (ite_branches L hρ hl β fun v => (v = eval M ρ β l.right ↔ l.positive = true)).2.2 h1 h2
    · cases e
  · simp only [boolReplace] at e e'
    split at e
    · rename_i T' c x y es
      rw [es] at e'
      cases e; cases e'
      obtain ⟨el, _⟩ := splitSymExact_eq es
      rw [el] at hr
      rw [lits_two, holds_neg, litHolds_new, litHolds_eq] at h1
      rw [lits_two, holds_pos, litHolds_new, litHolds_eq] at h2
      rw [litHolds_eq (r := l.right), el]
      exact (ite_branches L hρ hr β fun v => (eval M ρ β l.left = v ↔ l.positive = true)).2.2 h1 h2
    · cases e
  · simp only [boolReplace] at e e'
    split at e
    · cases e
    · rename_i hs
      rw [if_neg hs] at e'
      obtain ⟨hs, hp⟩ := sgn hs
      simp only [Bool.not_eq_eq_eq_not, Bool.not_false] at hp
      split at e
      · rename_i x y es
        rw [es] at e'
        cases e; cases e'
        obtain ⟨el, _⟩ := splitSymExact_eq es
        have hl := (signed_parts h hs).1
        rw [el] at hl
        obtain ⟨_, hx, hy⟩ := STyped.and_inv hl
        rw [lits_one, holds_pos] at h1 h2
        rw [signed_holds h hs, el]
        exact ⟨fun _ => hp, fun _ => (tr_and L hρ hx hy bmodels_nil).2 ⟨h1, h2⟩⟩
      · cases e
  · simp only [boolReplace] at e e'
    split at e
    · cases e
    · rename_i hs
      rw [if_neg hs] at e'
      obtain ⟨hs, hp⟩ := sgn hs
      split at e
      · rename_i x y es
        rw [es] at e'
        cases e; cases e'
        obtain ⟨el, _⟩ := splitSymExact_eq es
        have hl := (signed_parts h hs).1
        rw [el] at hl
        obtain ⟨_, hx, hy⟩ := STyped.or_inv hl
        rw [lits_one, holds_neg] at h1 h2
        rw [signed_holds h hs, el, hp]
        exact ⟨fun ht => ((tr_or L hρ hx hy bmodels_nil).1 ht).elim (fun h => absurd h h1)
          (fun h => absurd h h2), fun h => by cases h⟩
      · cases e
  · simp only [boolReplace] at e e'
    split at e
    · cases e
    · rename_i hs
      rw [if_neg hs] at e'
      cases e; cases e'
      simp only [ne_eq, Bool.not_eq_eq_eq_not, Bool.not_true, not_or, Decidable.not_not,
        Bool.not_eq_true, Bool.not_eq_false] at hs
      have := getType_unique hΓ hl hs.1 rfl
      subst this
      rw [lits_two, holds_pos, holds_neg] at h1
      rw [lits_two, holds_pos, holds_neg] at h2
      rw [litHolds_eq, hs.2.2]
      refine ⟨fun _ => rfl, fun _ => bool_ext L (hl.bool_mem L hρ bmodels_nil)
        (hr.bool_mem L hρ bmodels_nil) ⟨fun h => ?_, fun h => ?_⟩⟩
      · exact h2.resolve_left (fun hn => hn h)
      · exact h1.resolve_right (fun hn => hn h)
  · simp only [boolReplace] at e e'
    split at e
    · cases e
    · rename_i hs
      rw [if_neg hs] at e'
      cases e; cases e'
      simp only [ne_eq, not_or, Decidable.not_not, Bool.not_eq_true] at hs
      rw [lits_two, holds_neg, holds_neg] at h1
      rw [lits_two, holds_pos, holds_pos] at h2
      rw [litHolds_eq, hs.2.2]
      refine ⟨fun he => ?_, fun h => by cases h⟩
      simp only [Tr] at h1 h2
      rw [he] at h1 h2
      rcases h1 with h1 | h1 <;> rcases h2 with h2 | h2 <;> exact absurd h2 h1
  · cases hk

end
end Spec
end Acorn
