/-
Renumbering of free variables.
-/
import Verif.Model.Clause
import Verif.Lemmas.SimplyTyped
namespace Acorn
open Spec Term

universe u

namespace Term

/-- Rename the free variables. -/
def vmap (g : Nat → Nat) (t : Term) : Term := sub (fun i => fvar (g i)) bid t

@[simp] theorem vmap_fvar (g : Nat → Nat) (i : Nat) : vmap g (fvar i) = fvar (g i) := rfl
@[simp] theorem vmap_bvar (g : Nat → Nat) (i : Nat) : vmap g (bvar i) = bvar i := rfl
@[simp] theorem vmap_sym (g : Nat → Nat) (s : Symbol) : vmap g (sym s) = sym s := rfl
@[simp] theorem vmap_app (g : Nat → Nat) (f a : Term) : vmap g (app f a) = app (vmap g f) (vmap g a) :=
  rfl
@[simp] theorem vmap_bind (g : Nat → Nat) (b : Binder) (A B : Term) :
    vmap g (bind b A B) = bind b (vmap g A) (vmap g B) := by
  simp only [vmap, sub, ups_bid]; rfl

theorem hv_app {f a : Term} {i : Nat} : (app f a).hasVar i = true ↔
    f.hasVar i = true ∨ a.hasVar i = true := by
  simp [hasVar, atoms]

theorem hv_bind {b : Binder} {f a : Term} {i : Nat} : (bind b f a).hasVar i = true ↔
    f.hasVar i = true ∨ a.hasVar i = true := by
  simp [hasVar, atoms]

theorem hv_fvar {i j : Nat} : (fvar i).hasVar j = true ↔ j = i := by
  simp only [hasVar, atoms, List.any_cons, List.any_nil, Bool.or_false, beq_iff_eq]
  exact ⟨fun h => by cases h; rfl, fun h => by subst h; rfl⟩

theorem mem_fvars {t : Term} {i : Nat} : i ∈ t.fvars ↔ t.hasVar i = true := by
  simp only [fvars, hasVar, List.mem_filterMap, List.any_eq_true]
  constructor
  · rintro ⟨a, ha, h⟩
    cases a with
    | fvar j => simp at h; subst h; exact ⟨_, ha, by simp⟩
    | bvar j => simp at h
    | sym s => simp at h
  · rintro ⟨a, ha, h⟩
    simp at h
    subst h
    exact ⟨_, ha, rfl⟩

theorem vmap_congr {g h : Nat → Nat} (t : Term) (e : ∀ i, t.hasVar i = true → g i = h i) :
    vmap g t = vmap h t := by
  induction t with
  | atom a =>
    cases a with
    | fvar i => simp [e i (by simp [hasVar, atoms])]
    | bvar i => rfl
    | sym s => rfl
  | app f a ihf iha =>
    rw [vmap_app, vmap_app, ihf fun i hi => e i (hv_app.2 (Or.inl hi)),
      iha fun i hi => e i (hv_app.2 (Or.inr hi))]
  | bind b f a ihf iha =>
    rw [vmap_bind, vmap_bind, ihf fun i hi => e i (hv_bind.2 (Or.inl hi)),
      iha fun i hi => e i (hv_bind.2 (Or.inr hi))]

theorem eval_vmap (M : Interp.{u}) (g : Nat → Nat) (ρ β : Nat → M.D) (t : Term) :
    eval M ρ β (vmap g t) = eval M (fun i => ρ (g i)) β t := by
  rw [vmap, eval_sub]; rfl

theorem escapes_vmap (g : Nat → Nat) (t : Term) : ∀ d, escapesAt d (vmap g t) = escapesAt d t := by
  induction t with
  | atom a => intro d; cases a <;> rfl
  | app f a ihf iha => intro d; simp [escapesAt, ihf, iha]
  | bind b f a ihf iha => intro d; simp [escapesAt, ihf, iha]

end Term

/-! ### What renumbering computes -/

theorem foldlM_inv {α β : Type} {f : β → α → Option β} (P : β → Prop) (R : β → β → Prop)
    (hr : ∀ b, R b b) (ht : ∀ a b c, R a b → R b c → R a c)
    (h : ∀ b a b', P b → f b a = some b' → P b' ∧ R b b') :
    ∀ (l : List α) (b b' : β), P b → l.foldlM f b = some b' → P b' ∧ R b b' := by
  intro l
  induction l with
  | nil => intro b b' hb e; simp at e; subst e; exact ⟨hb, hr _⟩
  | cons a l ih =>
    intro b b' hb e
    simp only [List.foldlM_cons] at e
    cases e1 : f b a with
    | none => rw [e1] at e; cases e
    | some b1 =>
      rw [e1] at e
      obtain ⟨h1, h2⟩ := h b a b1 hb e1
      obtain ⟨h3, h4⟩ := ih b1 b' h1 e
      exact ⟨h3, ht _ _ _ h2 h4⟩

/-- What `addVar` does to the list: it only appends, adds the variable, adds nothing that is in
progress and creates no duplicates. -/
theorem addVar_spec {Γ : LCtx} : ∀ (n : Nat) (busy ids : List Nat) (v : Nat) (ids' : List Nat),
    addVar Γ n busy ids v = some ids' →
    ids <+: ids' ∧ v ∈ ids' ∧ (∀ b ∈ busy, b ∉ ids → b ∉ ids') ∧ (ids.Nodup → ids'.Nodup) := by
  intro n
  induction n with
  | zero => intro busy ids v ids' e; simp [addVar] at e
  | succ n ih =>
    intro busy ids v ids' e
    simp only [addVar] at e
    split at e
    · rename_i hc
      cases e
      simp at hc
      exact ⟨List.prefix_refl _, hc, fun b _ h => h, fun h => h⟩
    · rename_i hc
      simp at hc
      split at e
      · cases e
      · rename_i hb
        simp at hb
        split at e
        · rename_i ids1 e1
          cases e
          have key := foldlM_inv (f := addVar Γ n (v :: busy)) (fun _ => True)
            (fun a b => a <+: b ∧ (∀ x ∈ v :: busy, x ∉ a → x ∉ b) ∧ (a.Nodup → b.Nodup))
            (fun b => ⟨List.prefix_refl _, fun _ _ h => h, fun h => h⟩)
            (fun a b c h1 h2 => ⟨h1.1.trans h2.1, fun x hx h => h2.2.1 x hx (h1.2.1 x hx h),
              fun h => h2.2.2 (h1.2.2 h)⟩)
            (fun b a b' _ e => by
              obtain ⟨h1, h2, h3, h4⟩ := ih _ _ _ _ e
              exact ⟨trivial, h1, h3, h4⟩) _ _ _ trivial e1
          obtain ⟨_, h1, h2, h3⟩ := key
          refine ⟨h1.trans (List.prefix_append _ _), by simp, ?_, ?_⟩
          · intro b hb' hn
            simp only [List.mem_append, List.mem_singleton, not_or]
            exact ⟨h2 b (List.mem_cons_of_mem _ hb') hn, fun e => hb (e ▸ hb')⟩
          · intro hn
            rw [List.nodup_append]
            refine ⟨h3 hn, by simp, ?_⟩
            intro a ha b hb e
            simp at hb
            subst hb
            subst e
            exact h2 a (by simp) hc ha
        · cases e

theorem idxOf_prefix {l l' : List Nat} (h : l <+: l') {i : Nat} (hi : i ∈ l) :
    l'.idxOf i = l.idxOf i := by
  obtain ⟨r, rfl⟩ := h
  rw [List.idxOf_append, if_pos hi]

/-- The renumbering of a term by a list. -/
abbrev Term.byIds (ids : List Nat) (t : Term) : Term := t.vmap (fun i => ids.idxOf i)

theorem byIds_prefix {l l' : List Nat} (h : l <+: l') {t : Term} (ht : ∀ i, t.hasVar i = true → i ∈ l) :
    t.byIds l' = t.byIds l :=
  vmap_congr t fun i hi => idxOf_prefix h (ht i hi)

theorem normVars_spec {Γ : LCtx} (t : Term) : ∀ (ids : List Nat) (t' : Term) (ids' : List Nat),
    t.normVars Γ ids = some (t', ids') →
    ids <+: ids' ∧ (∀ i, t.hasVar i = true → i ∈ ids') ∧ (ids.Nodup → ids'.Nodup) ∧
      t' = t.byIds ids' := by
  induction t with
  | atom a =>
    intro ids t' ids' e
    cases a with
    | fvar i =>
      simp only [Term.normVars] at e
      cases e1 : addVar Γ (Γ.length + 1) [] ids i with
      | none => rw [e1] at e; cases e
      | some ids1 =>
        rw [e1] at e
        cases e
        obtain ⟨h1, h2, _, h4⟩ := addVar_spec _ _ _ _ _ e1
        refine ⟨h1, ?_, h4, rfl⟩
        intro j hj
        rw [hv_fvar] at hj
        subst hj
        exact h2
    | bvar i =>
      simp only [Term.normVars] at e
      cases e
      exact ⟨List.prefix_refl _, by simp [hasVar, atoms], fun h => h, rfl⟩
    | sym s =>
      simp only [Term.normVars] at e
      cases e
      exact ⟨List.prefix_refl _, by simp [hasVar, atoms], fun h => h, rfl⟩
  | app f a ihf iha =>
    intro ids t' ids' e
    simp only [Term.normVars] at e
    cases e1 : f.normVars Γ ids with
    | none => rw [e1] at e; cases e
    | some r1 =>
      obtain ⟨f', ids1⟩ := r1
      rw [e1] at e
      cases e2 : a.normVars Γ ids1 with
      | none => simp [e2] at e
      | some r2 =>
        obtain ⟨a', ids2⟩ := r2
        simp [e2] at e
        obtain ⟨rfl, rfl⟩ := e
        obtain ⟨h1, h2, h3, h4⟩ := ihf _ _ _ e1
        obtain ⟨k1, k2, k3, k4⟩ := iha _ _ _ e2
        refine ⟨h1.trans k1, ?_, fun h => k3 (h3 h), ?_⟩
        · intro i hi
          rcases hv_app.1 hi with h | h
          · exact k1.subset (h2 i h)
          · exact k2 i h
        · rw [Term.byIds, vmap_app, h4, k4, ← byIds_prefix k1 h2]
  | bind b f a ihf iha =>
    intro ids t' ids' e
    simp only [Term.normVars] at e
    cases e1 : f.normVars Γ ids with
    | none => rw [e1] at e; cases e
    | some r1 =>
      obtain ⟨f', ids1⟩ := r1
      rw [e1] at e
      cases e2 : a.normVars Γ ids1 with
      | none => simp [e2] at e
      | some r2 =>
        obtain ⟨a', ids2⟩ := r2
        simp [e2] at e
        obtain ⟨rfl, rfl⟩ := e
        obtain ⟨h1, h2, h3, h4⟩ := ihf _ _ _ e1
        obtain ⟨k1, k2, k3, k4⟩ := iha _ _ _ e2
        refine ⟨h1.trans k1, ?_, fun h => k3 (h3 h), ?_⟩
        · intro i hi
          rcases hv_bind.1 hi with h | h
          · exact k1.subset (h2 i h)
          · exact k2 i h
        · rw [Term.byIds, vmap_bind, h4, k4, ← byIds_prefix k1 h2]

theorem renumber_spec {ids : List Nat} (t : Term) : ∀ t', t.renumber ids = some t' →
    (∀ i, t.hasVar i = true → i ∈ ids) ∧ t' = t.byIds ids := by
  induction t with
  | atom a =>
    intro t' e
    cases a with
    | fvar i =>
      simp only [Term.renumber] at e
      split at e
      · rename_i h
        cases e
        simp at h
        refine ⟨?_, rfl⟩
        intro j hj
        rw [hv_fvar] at hj
        subst hj
        exact h
      · cases e
    | bvar i => simp only [Term.renumber] at e; cases e; exact ⟨by simp [hasVar, atoms], rfl⟩
    | sym s => simp only [Term.renumber] at e; cases e; exact ⟨by simp [hasVar, atoms], rfl⟩
  | app f a ihf iha =>
    intro t' e
    simp only [Term.renumber] at e
    cases e1 : f.renumber ids with
    | none => simp [e1] at e
    | some f' =>
      cases e2 : a.renumber ids with
      | none => simp [e1, e2] at e
      | some a' =>
        simp [e1, e2] at e
        subst e
        obtain ⟨h1, h2⟩ := ihf _ e1
        obtain ⟨k1, k2⟩ := iha _ e2
        refine ⟨?_, by rw [Term.byIds, vmap_app, h2, k2]⟩
        intro i hi
        rcases hv_app.1 hi with h | h
        · exact h1 i h
        · exact k1 i h
  | bind b f a ihf iha =>
    intro t' e
    simp only [Term.renumber] at e
    cases e1 : f.renumber ids with
    | none => simp [e1] at e
    | some f' =>
      cases e2 : a.renumber ids with
      | none => simp [e1, e2] at e
      | some a' =>
        simp [e1, e2] at e
        subst e
        obtain ⟨h1, h2⟩ := ihf _ e1
        obtain ⟨k1, k2⟩ := iha _ e2
        refine ⟨?_, by rw [Term.byIds, vmap_bind, h2, k2]⟩
        intro i hi
        rcases hv_bind.1 hi with h | h
        · exact h1 i h
        · exact k1 i h

theorem mapM_get {α β : Type} {f : α → Option β} : ∀ {l : List α} {l' : List β}, l.mapM f = some l' →
    l'.length = l.length ∧ ∀ (k : Nat) (a : α), l[k]? = some a → ∃ b, f a = some b ∧ l'[k]? = some b := by
  intro l
  induction l with
  | nil => intro l' e; simp at e; subst e; exact ⟨rfl, by simp⟩
  | cons x l ih =>
    intro l' e
    rw [List.mapM_cons] at e
    cases e1 : f x with
    | none => simp [e1] at e
    | some y =>
      cases e2 : l.mapM f with
      | none => simp [e1, e2] at e
      | some l1 =>
        simp [e1, e2] at e
        subst e
        obtain ⟨h1, h2⟩ := ih e2
        refine ⟨by simp [h1], ?_⟩
        intro k a hk
        cases k with
        | zero => simp at hk; subst hk; exact ⟨y, e1, rfl⟩
        | succ k => simp at hk ⊢; exact h2 k a hk

/-- What a successful `remap` gives. -/
theorem remap_spec {Γ Γ' : LCtx} {ids : List Nat} (e : Γ.remap ids = some Γ') :
    Γ'.length = ids.length ∧ ∀ (k i : Nat), ids[k]? = some i → ∃ T, Γ.get i = some T ∧
      (∀ j, T.hasVar j = true → j ∈ ids) ∧ Γ'.get k = some (T.byIds ids) := by
  obtain ⟨h1, h2⟩ := mapM_get e
  refine ⟨h1, ?_⟩
  intro k i hk
  obtain ⟨b, hb, hb'⟩ := h2 k i hk
  cases e1 : Γ.get i with
  | none => simp [e1] at hb
  | some T =>
    cases e2 : T.renumber ids with
    | none => simp [e1, e2] at hb
    | some T' =>
      simp [e1, e2] at hb
      obtain ⟨h3, h4⟩ := renumber_spec T _ e2
      refine ⟨T, rfl, h3, ?_⟩
      rw [LCtx.get, hb', ← hb, h4]; rfl

/-! ### Semantics of renumbering -/

/-- The assignment for the renumbered variables. -/
def pullback {D : Type u} (ids : List Nat) (ρ : Nat → D) : Nat → D := fun k => ρ (ids.getD k 0)

theorem pullback_idx {D : Type u} {ids : List Nat} {ρ : Nat → D} {i : Nat} (h : i ∈ ids) :
    pullback ids ρ (ids.idxOf i) = ρ i := by
  rw [pullback]
  congr 1
  have h1 := List.idxOf_lt_length_iff.2 h
  rw [List.getD_eq_getElem?_getD, List.getElem?_eq_getElem h1]
  simp [List.getElem_idxOf]

theorem eval_byIds (M : Interp.{u}) {ids : List Nat} {t : Term} (h : ∀ i, t.hasVar i = true → i ∈ ids)
    (ρ β : Nat → M.D) : eval M (pullback ids ρ) β (t.byIds ids) = eval M ρ β t := by
  rw [Term.byIds, eval_vmap]
  exact eval_fvars M t _ _ _ fun i hi => pullback_idx (h i hi)

theorem models_remap {M : Interp.{u}} {Γ Γ' : LCtx} {ids : List Nat} (e : Γ.remap ids = some Γ')
    {ρ : Nat → M.D} (h : Models M Γ ρ) : Models M Γ' (pullback ids ρ) := by
  obtain ⟨h1, h2⟩ := remap_spec e
  intro k T hk β
  have hlt : k < ids.length := by
    rw [← h1]
    rcases Nat.lt_or_ge k Γ'.length with h | h
    · exact h
    · rw [LCtx.get, List.getElem?_eq_none h] at hk; cases hk
  obtain ⟨U, hU, hv, hU'⟩ := h2 k ids[k] (List.getElem?_eq_getElem hlt)
  rw [hU'] at hk
  cases hk
  rw [eval_byIds M hv]
  have := h _ _ hU β
  rw [pullback, List.getD_eq_getElem?_getD, List.getElem?_eq_getElem hlt]
  exact this

/-! ### Typing under renumbering -/

/-- Typing only depends on the context entries of the variables that occur. -/
theorem hasVar_sub {φ : Nat → Term} {t : Term} {i j : Nat} (hi : t.hasVar i = true)
    (hj : (φ i).hasVar j = true) : ∀ σ, (Term.sub φ σ t).hasVar j = true := by
  have hr : ∀ (t : Term) (r : Nat → Nat), (Term.ren r t).hasVar j = t.hasVar j := by
    intro t
    induction t with
    | atom a => intro r; cases a <;> rfl
    | app f a ihf iha =>
      intro r
      have h1 := ihf r
      have h2 := iha r
      simp only [hasVar] at h1 h2
      simp [Term.ren, hasVar, atoms, h1, h2]
    | bind b f a ihf iha =>
      intro r
      have h1 := ihf r
      have h2 := iha (upr r)
      simp only [hasVar] at h1 h2
      simp [Term.ren, hasVar, atoms, h1, h2]
  induction t generalizing φ with
  | atom a =>
    intro σ
    cases a with
    | fvar k => rw [hv_fvar] at hi; subst hi; exact hj
    | bvar k => simp [hasVar, atoms] at hi
    | sym k => simp [hasVar, atoms] at hi
  | app f a ihf iha =>
    intro σ
    rw [Term.sub, hv_app]
    rcases hv_app.1 hi with h | h
    · exact Or.inl (ihf h hj σ)
    · exact Or.inr (iha h hj σ)
  | bind b f a ihf iha =>
    intro σ
    rw [Term.sub, hv_bind]
    rcases hv_bind.1 hi with h | h
    · exact Or.inl (ihf h hj σ)
    · refine Or.inr (iha (φ := lift φ) h ?_ _)
      rw [lift, hr]; exact hj

theorem Spec.STyped.ctx_congr {K : KCtx} {Γ Γ' : LCtx} {Δ : BCtx} {t : Term} {J : Jdg}
    (h : STyped K Γ Δ t J) : (∀ i, t.hasVar i = true → Γ'.get i = Γ.get i) → STyped K Γ' Δ t J := by
  induction h with
  | fvar h1 h2 => intro h; exact .fvar ((h _ (by simp [hasVar, atoms])).trans h1) h2
  | bvar h1 => intro h; exact .bvar h1
  | sym h1 h2 h3 => intro h; exact .sym h1 h2 h3
  | appVal h1 h2 h3 h4 ih1 ih2 =>
    intro h
    exact .appVal (ih1 fun i hi => h i (hv_app.2 (Or.inl hi)))
      (ih2 fun i hi => h i (hv_app.2 (Or.inr hi))) h3 h4
  | appTy h1 h2 h3 ih1 ih2 =>
    intro h
    exact .appTy (ih1 fun i hi => h i (hv_app.2 (Or.inl hi)))
      (ih2 fun i hi => h i (hv_app.2 (Or.inr hi))) h3
  | lam h1 h2 h3 h4 ih1 ih2 =>
    intro h
    exact .lam (ih1 fun i hi => h i (hv_bind.2 (Or.inl hi)))
      (ih2 fun i hi => h i (hv_bind.2 (Or.inr hi))) h3 h4
  | all h1 h2 ih1 ih2 =>
    intro h
    exact .all (ih1 fun i hi => h i (hv_bind.2 (Or.inl hi)))
      (ih2 fun i hi => h i (hv_bind.2 (Or.inr hi)))
  | ex h1 h2 ih1 ih2 =>
    intro h
    exact .ex (ih1 fun i hi => h i (hv_bind.2 (Or.inl hi)))
      (ih2 fun i hi => h i (hv_bind.2 (Or.inr hi)))
  | pi h1 h2 ih1 ih2 =>
    intro h
    exact .pi (ih1 fun i hi => h i (hv_bind.2 (Or.inl hi)))
      (ih2 fun i hi => h i (hv_bind.2 (Or.inr hi)))
  | inst h1 h2 => intro h; exact .inst h1 h2
  | scheme φ hm hc hcl hφ ht ih iht =>
    intro h
    exact .scheme φ hm hc hcl (fun i T hi => ih i T hi fun j hj =>
      h j (hasVar_sub (hcl i T hi).2 hj _)) (iht h)
  | extend h1 h2 ih => intro h; exact .extend (ih h) h2
  | forget h1 ih => intro h; exact .forget (ih h)
  | tyType0 => intro h; exact .tyType0
  | tyClass => intro h; exact .tyClass
  | tyOf h1 ih => intro h; exact .tyOf (ih h)
  | tyPi h1 h2 ih1 ih2 =>
    intro h
    exact .tyPi (ih1 fun i hi => h i (hv_bind.2 (Or.inl hi)))
      (ih2 fun i hi => h i (hv_bind.2 (Or.inr hi)))

/-- The context restricted to some variables. -/
def restrict (Γ : LCtx) (p : Nat → Bool) : LCtx :=
  (List.range Γ.length).map fun i => if p i then Γ.get i else none

theorem get_restrict (Γ : LCtx) (p : Nat → Bool) (i : Nat) :
    (restrict Γ p).get i = if p i then Γ.get i else none := by
  rw [restrict, LCtx.get, List.getElem?_map]
  rcases Nat.lt_or_ge i Γ.length with h | h
  · rw [List.getElem?_range h]; rfl
  · rw [List.getElem?_eq_none (by simpa using h)]
    have : Γ.get i = none := by rw [LCtx.get, List.getElem?_eq_none h]; rfl
    rw [this]; simp

theorem Spec.STyped.byIds {K : KCtx} {Γ Γ' : LCtx} {ids : List Nat} (e : Γ.remap ids = some Γ')
    {t : Term} {J : Jdg} (h : STyped K Γ BCtx.nil t J) (ht : ∀ i, t.hasVar i = true → i ∈ ids) :
    STyped K Γ' BCtx.nil (t.byIds ids) (J.sub (fun i => .fvar (ids.idxOf i)) bid) := by
  have h1 : STyped K (restrict Γ fun i => ids.contains i) BCtx.nil t J := by
    refine h.ctx_congr fun i hi => ?_
    rw [get_restrict, if_pos (by simpa using ht i hi)]
  refine h1.sub _ _ _ ⟨?_, ?_, fun _ => rfl, fun _ => rfl⟩
  · intro i T hi hT
    rw [get_restrict] at hi
    split at hi
    · rename_i hc
      simp at hc
      have hlt := List.idxOf_lt_length_iff.2 hc
      obtain ⟨U, hU, hv, hU'⟩ := (remap_spec e).2 (ids.idxOf i) i (by
        rw [List.getElem?_eq_getElem hlt]; simp [List.getElem_idxOf])
      rw [hU] at hi
      cases hi
      refine .fvar hU' ?_
      exact (escapes_vmap _ _ _).trans hT
    · cases hi
  · intro i T hi
    simp [BCtx.nil] at hi

end Acorn
