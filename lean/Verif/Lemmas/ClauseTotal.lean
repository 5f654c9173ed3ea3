/-
Clause normalization does not panic on ordered contexts.
-/
import Verif.Lemmas.Clause
namespace Acorn
open Spec Term

/-! ### Term normalization for clauses introduces no variables -/

namespace Term

theorem args_hasVar {t a : Term} {i : Nat} (ha : a ∈ t.args) (h : a.hasVar i = true) :
    t.hasVar i = true := by
  induction t with
  | atom _ => simp [args] at ha
  | bind _ _ _ => simp [args] at ha
  | app f x ihf _ =>
    rw [hv_app]
    simp only [args, List.mem_append, List.mem_singleton] at ha
    rcases ha with ha | rfl
    · exact Or.inl (ihf ha)
    · exact Or.inr h

theorem splitSym_hasVar {t a : Term} {s : Symbol} {n i : Nat} {as : List Term}
    (e : splitSym t s n = some as) (ha : a ∈ as) (h : a.hasVar i = true) : t.hasVar i = true := by
  cases t with
  | atom _ => simp [splitSym] at e
  | bind _ _ _ => simp [splitSym] at e
  | app f x =>
    simp only [splitSym] at e
    split at e
    · cases e; exact args_hasVar ha h
    · cases e

theorem hv_not {x : Term} {i : Nat} : (not x).hasVar i = true ↔ x.hasVar i = true := by
  rw [hv_app]; simp [hasVar, atoms]

theorem hv_and {x y : Term} {i : Nat} :
    (and x y).hasVar i = true ↔ x.hasVar i = true ∨ y.hasVar i = true := by
  rw [hv_app, hv_app]; simp [hasVar, atoms]

theorem hv_or {x y : Term} {i : Nat} :
    (or x y).hasVar i = true ↔ x.hasVar i = true ∨ y.hasVar i = true := by
  rw [hv_app, hv_app]; simp [hasVar, atoms]

theorem orientEq_hasVar {t : Term} {i : Nat} (h : ((orientEq t).getD t).hasVar i = true) :
    t.hasVar i = true := by
  simp only [orientEq] at h
  split at h
  · rename_i ty l r e
    split at h
    · exact h
    · simp only [Option.getD_some] at h
      rw [hv_app, hv_app, hv_app] at h
      rcases h with ((h | h) | h) | h
      · simp [hasVar, atoms] at h
      · exact splitSym_hasVar e (by simp) h
      · exact splitSym_hasVar e (by simp) h
      · exact splitSym_hasVar e (by simp) h
  · exact h

theorem normPolAux_hasVar {i : Nat} : ∀ (n : Nat) (t : Term) (p : Bool),
    (normPolAux n t p).hasVar i = true → t.hasVar i = true := by
  intro n
  induction n with
  | zero => intro t p h; exact h
  | succ n ih =>
    intro t p h
    simp only [normPolAux] at h
    split at h
    · rename_i e
      exact splitSym_hasVar e (by simp) (ih _ _ h)
    · split at h
      · rename_i e
        split at h
        · rcases hv_and.1 h with h | h
          · exact splitSym_hasVar e (by simp) (ih _ _ h)
          · exact splitSym_hasVar e (by simp) (ih _ _ h)
        · rcases hv_or.1 h with h | h
          · exact splitSym_hasVar e (by simp) (ih _ _ h)
          · exact splitSym_hasVar e (by simp) (ih _ _ h)
      · split at h
        · rename_i e
          split at h
          · rcases hv_or.1 h with h | h
            · exact splitSym_hasVar e (by simp) (ih _ _ h)
            · exact splitSym_hasVar e (by simp) (ih _ _ h)
          · rcases hv_and.1 h with h | h
            · exact splitSym_hasVar e (by simp) (ih _ _ h)
            · exact splitSym_hasVar e (by simp) (ih _ _ h)
        · match t with
          | .atom a =>
            simp only at h
            split at h
            · exact h
            · exact hv_not.1 h
          | .app f a =>
            simp only at h
            have key : ∀ {r : Term}, r = (app (normPolAux n f true) (normPolAux n a true)) →
                ((orientEq r).getD r).hasVar i = true → (app f a).hasVar i = true := by
              intro r e h
              have := orientEq_hasVar h
              rw [e, hv_app] at this
              rw [hv_app]
              exact this.imp (ih _ _) (ih _ _)
            split at h
            · exact key rfl h
            · exact key rfl (hv_not.1 h)
          | .bind b A B =>
            rw [hv_bind]
            cases b <;> simp only at h <;> split at h <;>
              first
              | exact (hv_bind.1 h).imp (ih _ _) (ih _ _)
              | exact (hv_bind.1 (hv_not.1 h)).imp (ih _ _) (ih _ _)

theorem normSignedAux_hasVar {i : Nat} : ∀ (n : Nat) (t : Term) (p : Bool),
    (normSignedAux n t p).1.hasVar i = true → t.hasVar i = true := by
  intro n
  induction n with
  | zero => intro t p h; exact h
  | succ n ih =>
    intro t p h
    simp only [normSignedAux] at h
    split at h
    · rename_i e
      exact splitSym_hasVar e (by simp) (ih _ _ h)
    · split at h
      · rename_i e
        rcases hv_and.1 h with h | h
        · exact splitSym_hasVar e (by simp) (normPolAux_hasVar _ _ _ h)
        · exact splitSym_hasVar e (by simp) (normPolAux_hasVar _ _ _ h)
      · exact normPolAux_hasVar _ _ _ h

end Term

/-- A variable occurs in a literal. -/
def Literal.HasVar (l : Literal) (i : Nat) : Prop := l.left.hasVar i = true ∨ l.right.hasVar i = true

theorem normalize_hasVar {l : Literal} {i : Nat} (h : l.normalize.HasVar i) : l.HasVar i := by
  have tt : ∀ i, ¬ (Term.tt).hasVar i = true := by simp [hasVar, atoms]
  simp only [Literal.normalize] at h
  split at h
  · split at h
    · rename_i e
      rcases new_vars.1 h with h | h
      · exact Or.inl (normSignedAux_hasVar _ _ _ (splitSym_hasVar e (by simp) h))
      · exact Or.inl (normSignedAux_hasVar _ _ _ (splitSym_hasVar e (by simp) h))
    · rcases new_vars.1 h with h | h
      · exact Or.inl (normSignedAux_hasVar _ _ _ h)
      · exact absurd h (tt i)
  · exact (new_vars.1 h).imp (normPolAux_hasVar _ _ _) (normPolAux_hasVar _ _ _)

/-- All variables of the literals are declared. -/
def Declared (Γ : LCtx) (ls : List Literal) : Prop :=
  ∀ l ∈ ls, ∀ i, l.HasVar i → (Γ.get i).isSome = true

theorem litsPass_declared {Γ : LCtx} {ls : List Literal} (h : Declared Γ ls) :
    Declared Γ (litsPass ls) := by
  intro l hl i hi
  obtain ⟨⟨l0, h0, rfl⟩, _⟩ := mem_litsPass.1 hl
  exact h l0 h0 i (normalize_hasVar hi)

/-! ### The list of kept variables -/

/-- Every variable in the list is declared and comes after the variables its type mentions. -/
inductive Topo (Γ : LCtx) : List Nat → Prop
  | nil : Topo Γ []
  | snoc {ids v T} : Topo Γ ids → v ∉ ids → Γ.get v = some T → (∀ j, T.hasVar j = true → j ∈ ids) →
      Topo Γ (ids ++ [v])

theorem addVar_total {Γ : LCtx} (ho : CtxOrdered Γ) : ∀ (n : Nat) (busy ids : List Nat) (v : Nat),
    v < n → (∀ b ∈ busy, v < b) → (Γ.get v).isSome = true → Topo Γ ids →
    ∃ ids', addVar Γ n busy ids v = some ids' ∧ Topo Γ ids' := by
  intro n
  induction n with
  | zero => intro busy ids v h; omega
  | succ n ih =>
    intro busy ids v hv hb hd ht
    obtain ⟨T, hT⟩ := Option.isSome_iff_exists.1 hd
    simp only [addVar]
    split
    · exact ⟨ids, rfl, ht⟩
    · rename_i hc
      simp at hc
      split
      · rename_i hb'
        simp at hb'
        exact absurd (hb v hb') (Nat.lt_irrefl _)
      · have fold : ∀ (deps : List Nat) (ids : List Nat), (∀ d ∈ deps, d < v ∧ (Γ.get d).isSome = true) →
            Topo Γ ids → ∃ ids', deps.foldlM (addVar Γ n (v :: busy)) ids = some ids' ∧ Topo Γ ids' ∧
              ids <+: ids' ∧ (∀ d ∈ deps, d ∈ ids') := by
          intro deps
          induction deps with
          | nil => intro ids _ h; exact ⟨ids, rfl, h, List.prefix_refl _, by simp⟩
          | cons d deps ihd =>
            intro ids hd h
            obtain ⟨h1, h2⟩ := hd d (by simp)
            obtain ⟨ids1, e1, t1⟩ := ih (v :: busy) ids d (by omega) (by
              intro b hb'
              rcases List.mem_cons.1 hb' with rfl | hb'
              · exact h1
              · exact Nat.lt_trans h1 (hb b hb')) h2 h
            obtain ⟨p1, m1, _, _⟩ := addVar_spec _ _ _ _ _ e1
            obtain ⟨ids2, e2, t2, p2, m2⟩ := ihd ids1 (fun x hx => hd x (List.mem_cons_of_mem _ hx)) t1
            refine ⟨ids2, ?_, t2, p1.trans p2, ?_⟩
            · rw [List.foldlM_cons, e1]; exact e2
            · intro x hx
              rcases List.mem_cons.1 hx with rfl | hx
              · exact p2.subset m1
              · exact m2 x hx
        obtain ⟨ids1, e1, t1, p1, m1⟩ := fold T.fvars ids (by
          intro d hd
          exact ho v T hT d (mem_fvars.1 hd)) ht
        have hnot : v ∉ ids1 := by
          have key := foldlM_inv (f := addVar Γ n (v :: busy)) (fun _ => True)
            (fun a b => ∀ x ∈ v :: busy, x ∉ a → x ∉ b)
            (fun b _ _ h => h) (fun a b c h1 h2 x hx h => h2 x hx (h1 x hx h))
            (fun b a b' _ e => ⟨trivial, (addVar_spec _ _ _ _ _ e).2.2.1⟩) _ _ _ trivial e1
          exact key.2 v (by simp) hc
        refine ⟨ids1 ++ [v], ?_, .snoc t1 hnot hT fun j hj => m1 j (mem_fvars.2 hj)⟩
        rw [hT]
        simp only [Option.elim]
        rw [e1]

theorem normVars_total {Γ : LCtx} (ho : CtxOrdered Γ) (t : Term) : ∀ (ids : List Nat), Topo Γ ids →
    (∀ i, t.hasVar i = true → (Γ.get i).isSome = true) →
    ∃ t' ids', t.normVars Γ ids = some (t', ids') ∧ Topo Γ ids' := by
  induction t with
  | atom a =>
    intro ids h hd
    cases a with
    | fvar i =>
      have hi := hd i (by simp [hasVar, atoms])
      have hlt : i < Γ.length + 1 := by
        rcases Nat.lt_or_ge i Γ.length with h | h
        · omega
        · rw [LCtx.get, List.getElem?_eq_none h] at hi; cases hi
      obtain ⟨ids', e, t⟩ := addVar_total ho (Γ.length + 1) [] ids i hlt (by simp) hi h
      exact ⟨_, ids', by simp only [Term.normVars, e]; rfl, t⟩
    | bvar i => exact ⟨_, ids, rfl, h⟩
    | sym s => exact ⟨_, ids, rfl, h⟩
  | app f a ihf iha =>
    intro ids h hd
    obtain ⟨f', ids1, e1, t1⟩ := ihf ids h fun i hi => hd i (hv_app.2 (Or.inl hi))
    obtain ⟨a', ids2, e2, t2⟩ := iha ids1 t1 fun i hi => hd i (hv_app.2 (Or.inr hi))
    exact ⟨_, ids2, by simp only [Term.normVars, e1]; simp [e2]; rfl, t2⟩
  | bind b f a ihf iha =>
    intro ids h hd
    obtain ⟨f', ids1, e1, t1⟩ := ihf ids h fun i hi => hd i (hv_bind.2 (Or.inl hi))
    obtain ⟨a', ids2, e2, t2⟩ := iha ids1 t1 fun i hi => hd i (hv_bind.2 (Or.inr hi))
    exact ⟨_, ids2, by simp only [Term.normVars, e1]; simp [e2]; rfl, t2⟩

theorem litsNormVars_total {Γ : LCtx} (ho : CtxOrdered Γ) (ls : List Literal) : ∀ (ids : List Nat),
    Topo Γ ids → Declared Γ ls → ∃ ls' ids', litsNormVars Γ ids ls = some (ls', ids') ∧ Topo Γ ids' := by
  induction ls with
  | nil => intro ids h _; exact ⟨[], ids, rfl, h⟩
  | cons l ls ih =>
    intro ids h hd
    obtain ⟨a, ids1, e1, t1⟩ := normVars_total ho l.left ids h
      fun i hi => hd l (by simp) i (Or.inl hi)
    obtain ⟨b, ids2, e2, t2⟩ := normVars_total ho l.right ids1 t1
      fun i hi => hd l (by simp) i (Or.inr hi)
    obtain ⟨ls', ids3, e3, t3⟩ := ih ids2 t2 fun x hx => hd x (List.mem_cons_of_mem _ hx)
    exact ⟨_, ids3, by simp [litsNormVars, Literal.normVars, e1, e2, e3]; rfl, t3⟩

theorem renumber_total {ids : List Nat} (t : Term) (h : ∀ i, t.hasVar i = true → i ∈ ids) :
    t.renumber ids = some (t.byIds ids) := by
  induction t with
  | atom a =>
    cases a with
    | fvar i =>
      have := h i (by simp [hasVar, atoms])
      simp [Term.renumber, this]
    | bvar i => rfl
    | sym s => rfl
  | app f a ihf iha =>
    rw [Term.renumber, ihf fun i hi => h i (hv_app.2 (Or.inl hi)),
      iha fun i hi => h i (hv_app.2 (Or.inr hi))]; rfl
  | bind b f a ihf iha =>
    rw [Term.renumber, ihf fun i hi => h i (hv_bind.2 (Or.inl hi)),
      iha fun i hi => h i (hv_bind.2 (Or.inr hi))]; simp [Term.byIds]

theorem Topo.closed {Γ : LCtx} {ids : List Nat} (h : Topo Γ ids) : ∀ i ∈ ids, ∃ T, Γ.get i = some T ∧
    ∀ j, T.hasVar j = true → j ∈ ids := by
  induction h with
  | nil => simp
  | snoc h hv hT hj ih =>
    intro i hi
    rcases List.mem_append.1 hi with hi | hi
    · obtain ⟨T, h1, h2⟩ := ih i hi
      exact ⟨T, h1, fun j hj => List.mem_append.2 (Or.inl (h2 j hj))⟩
    · simp at hi
      subst hi
      exact ⟨_, hT, fun j h => List.mem_append.2 (Or.inl (hj j h))⟩

theorem mapM_total {α β : Type} {f : α → Option β} : ∀ {l : List α}, (∀ a ∈ l, ∃ b, f a = some b) →
    ∃ l', l.mapM f = some l' := by
  intro l
  induction l with
  | nil => intro _; exact ⟨[], rfl⟩
  | cons a l ih =>
    intro h
    obtain ⟨b, hb⟩ := h a (by simp)
    obtain ⟨l', hl⟩ := ih fun x hx => h x (List.mem_cons_of_mem _ hx)
    exact ⟨b :: l', by rw [List.mapM_cons, hb, hl]; rfl⟩

theorem remap_total {Γ : LCtx} {ids : List Nat} (h : Topo Γ ids) : ∃ Γ', Γ.remap ids = some Γ' := by
  refine mapM_total fun i hi => ?_
  obtain ⟨T, h1, h2⟩ := h.closed i hi
  refine ⟨some (T.byIds ids), ?_⟩
  simp [h1, renumber_total T h2]

theorem hasVar_vmap {g : Nat → Nat} {t : Term} {j : Nat} (h : (t.vmap g).hasVar j = true) :
    ∃ i, t.hasVar i = true ∧ g i = j := by
  induction t with
  | atom a =>
    cases a with
    | fvar i => rw [vmap_fvar, hv_fvar] at h; exact ⟨i, by simp [hasVar, atoms], h.symm⟩
    | bvar i => simp [hasVar, atoms] at h
    | sym i => simp [hasVar, atoms] at h
  | app f a ihf iha =>
    rw [vmap_app, hv_app] at h
    rcases h with h | h
    · obtain ⟨i, h1, h2⟩ := ihf h; exact ⟨i, hv_app.2 (Or.inl h1), h2⟩
    · obtain ⟨i, h1, h2⟩ := iha h; exact ⟨i, hv_app.2 (Or.inr h1), h2⟩
  | bind b f a ihf iha =>
    rw [vmap_bind, hv_bind] at h
    rcases h with h | h
    · obtain ⟨i, h1, h2⟩ := ihf h; exact ⟨i, hv_bind.2 (Or.inl h1), h2⟩
    · obtain ⟨i, h1, h2⟩ := iha h; exact ⟨i, hv_bind.2 (Or.inr h1), h2⟩

theorem Topo.nodup {Γ : LCtx} {ids : List Nat} (h : Topo Γ ids) : ids.Nodup := by
  induction h with
  | nil => simp
  | snoc h hv hT hj ih =>
    rw [List.nodup_append]
    refine ⟨ih, by simp, ?_⟩
    intro a ha b hb e
    simp at hb
    subst hb; subst e
    exact hv ha

theorem Topo.earlier {Γ : LCtx} {ids : List Nat} (h : Topo Γ ids) : ∀ i ∈ ids, ∀ T, Γ.get i = some T →
    ∀ j, T.hasVar j = true → j ∈ ids ∧ ids.idxOf j < ids.idxOf i := by
  induction h with
  | nil => simp
  | @snoc ids v U h hv hT hj ih =>
    intro i hi T hiT j hjT
    by_cases hi' : i ∈ ids
    · obtain ⟨h1, h2⟩ := ih i hi' T hiT j hjT
      refine ⟨List.mem_append.2 (Or.inl h1), ?_⟩
      rw [List.idxOf_append, if_pos h1, List.idxOf_append, if_pos hi']
      exact h2
    · have : i = v := by
        rcases List.mem_append.1 hi with h | h
        · exact absurd h hi'
        · simpa using h
      subst this
      rw [hT] at hiT
      cases hiT
      have h1 := hj j hjT
      refine ⟨List.mem_append.2 (Or.inl h1), ?_⟩
      rw [List.idxOf_append, if_pos h1, List.idxOf_append, if_neg hi']
      have := List.idxOf_lt_length_iff.2 h1
      omega

theorem remap_ordered {Γ Γ' : LCtx} {ids : List Nat} (h : Topo Γ ids) (e : Γ.remap ids = some Γ') :
    CtxOrdered Γ' := by
  obtain ⟨h1, h2⟩ := remap_spec e
  intro k T hk j hj
  have hlt : k < ids.length := by
    rw [← h1]
    rcases Nat.lt_or_ge k Γ'.length with h | h
    · exact h
    · rw [LCtx.get, List.getElem?_eq_none h] at hk; cases hk
  obtain ⟨U, hU, hv, hU'⟩ := h2 k ids[k] (List.getElem?_eq_getElem hlt)
  rw [hU'] at hk
  cases hk
  obtain ⟨i, hi, rfl⟩ := hasVar_vmap hj
  obtain ⟨m1, m2⟩ := h.earlier ids[k] (List.getElem_mem hlt) U hU i hi
  have hk' : ids.idxOf ids[k] = k := h.nodup.idxOf_getElem _ _
  rw [hk'] at m2
  refine ⟨m2, ?_⟩
  obtain ⟨V, _, _, hV⟩ := h2 (ids.idxOf i) i (by
    rw [List.getElem?_eq_getElem (List.idxOf_lt_length_iff.2 m1)]; simp [List.getElem_idxOf])
  rw [hV]; rfl

theorem remap_declared {Γ Γ' : LCtx} {ids ids0 : List Nat} {ls ls' : List Literal}
    (e1 : litsNormVars Γ ids0 ls = some (ls', ids)) (e : Γ.remap ids = some Γ') : Declared Γ' ls' := by
  obtain ⟨_, h2, _, h4⟩ := litsNormVars_spec ls e1
  subst h4
  intro l hl j hj
  obtain ⟨l0, h0, rfl⟩ := List.mem_map.1 hl
  have : ∃ i, l0.HasVar i ∧ ids.idxOf i = j := by
    rcases new_vars.1 hj with h | h
    · obtain ⟨i, hi, e⟩ := hasVar_vmap h; exact ⟨i, Or.inl hi, e⟩
    · obtain ⟨i, hi, e⟩ := hasVar_vmap h; exact ⟨i, Or.inr hi, e⟩
  obtain ⟨i, hi, rfl⟩ := this
  have m1 := h2 l0 h0 i hi
  obtain ⟨V, _, _, hV⟩ := (remap_spec e).2 (ids.idxOf i) i (by
    rw [List.getElem?_eq_getElem (List.idxOf_lt_length_iff.2 m1)]; simp [List.getElem_idxOf])
  rw [hV]; rfl

theorem topo_range {Γ : LCtx} (ho : CtxOrdered Γ) : ∀ (n : Nat),
    (∀ i, i < n → (Γ.get i).isSome = true) → Topo Γ (List.range n) := by
  intro n
  induction n with
  | zero => intro _; exact .nil
  | succ n ih =>
    intro h
    obtain ⟨T, hT⟩ := Option.isSome_iff_exists.1 (h n (by omega))
    rw [List.range_succ]
    refine .snoc (ih fun i hi => h i (by omega)) (by simp) hT fun j hj => ?_
    simpa using (ho n T hT j hj).1

theorem normVarsPinned_total {Γ : LCtx} (ho : CtxOrdered Γ) {n : Nat}
    (hn : ∀ i, i < n → (Γ.get i).isSome = true) {ls : List Literal} (hd : Declared Γ ls) :
    ∃ c ids, Clause.normVarsPinned ⟨ls, Γ⟩ n = some (c, ids) ∧ CtxOrdered c.ctx ∧
      Declared c.ctx c.lits ∧ (∀ i, i < n → (c.ctx.get i).isSome = true) := by
  obtain ⟨ls', ids, e1, t1⟩ := litsNormVars_total ho ls (List.range n) (topo_range ho n hn) hd
  obtain ⟨Γ', e2⟩ := remap_total t1
  refine ⟨⟨ls', Γ'⟩, ids, by simp [Clause.normVarsPinned, e1, e2], remap_ordered t1 e2,
    remap_declared e1 e2, ?_⟩
  intro i hi
  have hp := (litsNormVars_spec ls e1).1
  obtain ⟨r, hr⟩ := hp
  have : ids[i]? = some i := by
    rw [← hr, List.getElem?_append_left (by simpa using hi)]
    simp [hi]
  obtain ⟨V, _, _, hV⟩ := (remap_spec e2).2 i i this
  rw [hV]; rfl

end Acorn
