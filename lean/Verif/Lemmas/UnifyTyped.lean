/-
Unification of well-typed terms whose variables have closed types.
-/
import Verif.Lemmas.Unifier
import Verif.Lemmas.MatchTyped
import Verif.Lemmas.Connectives
namespace Acorn

open Spec Term

/-- No free variables. -/
def NoVars (t : Term) : Prop := ∀ i, t.hasVar i = false

theorem NoVars.app {f a : Term} : NoVars (.app f a) ↔ NoVars f ∧ NoVars a := by
  simp only [NoVars, hasVar_app, Bool.or_eq_false_iff]
  exact ⟨fun h => ⟨fun i => (h i).1, fun i => (h i).2⟩, fun h i => ⟨h.1 i, h.2 i⟩⟩

theorem NoVars.bind {b : Binder} {f a : Term} : NoVars (.bind b f a) ↔ NoVars f ∧ NoVars a := by
  simp only [NoVars, hasVar_bind, Bool.or_eq_false_iff]
  exact ⟨fun h => ⟨fun i => (h i).1, fun i => (h i).2⟩, fun h i => ⟨h.1 i, h.2 i⟩⟩

theorem NoVars.fvar {i : Nat} : ¬ NoVars (.fvar i) := fun h => by
  have := h i; rw [hv_fvar.2 rfl] at this; cases this

theorem NoVars.apply {t : Term} (h : NoVars t) (m : VMap) : m.apply t = t :=
  apply_none fun j hj => by rw [h j] at hj; cases hj

theorem NoVars.of_isKind {t : Term} (h : isKind t = true) : NoVars t := by
  unfold isKind at h
  split at h
  · intro i; rfl
  · cases h

theorem NoVars.ren {r : Nat → Nat} {t : Term} : NoVars (Term.ren r t) ↔ NoVars t := by
  simp [NoVars, hasVar_ren]

/-- A closed type of values. -/
def Small (K : KCtx) (T : Term) : Prop := SHasType K [] T .type0

theorem Small.noVars {K : KCtx} {T : Term} (h : Small K T) : NoVars T := by
  intro i
  cases e : T.hasVar i with
  | false => rfl
  | true =>
    have := (HasType.fscoped (Γ := []) (by intro i T h; simp [LCtx.get] at h) h.typed).1 i e
    simp [LCtx.get] at this

theorem Small.closed {K : KCtx} {T : Term} (h : Small K T) : T.escapes = false := (HasType.closed h.typed).1

theorem Small.not_endsKind {K : KCtx} {T : Term} (h : Small K T) : endsKind T = false :=
  STyped.not_endsKind h _ rfl

theorem Small.not_type0 {K : KCtx} {T : Term} (h : Small K T) : T.isType0 = false := by
  have := h.not_endsKind
  cases e : T.isType0 with
  | false => rfl
  | true =>
    simp only [isType0, beq_iff_eq] at e
    subst e; cases this

theorem Small.not_class {K : KCtx} {T : Term} (h : Small K T) : T.asTypeclass = none := by
  have := h.not_endsKind
  unfold asTypeclass
  split
  · cases this
  · rfl

theorem Small.ctxOk {K : KCtx} {Γ : LCtx} (h : ∀ i T, Γ.get i = some T → Small K T) : CtxOk Γ :=
  fun i T hi => ⟨(h i T hi).closed, fun j hj => by rw [(h i T hi).noVars j] at hj; cases hj⟩


theorem NoVars.cons {Δ : BCtx} {A : Term} (hΔ : ∀ i T, Δ i = some T → NoVars T) (hA : NoVars A) :
    ∀ i T, BCtx.cons A Δ i = some T → NoVars T := by
  intro i T h
  cases i with
  | zero => simp only [BCtx.cons, Option.some.injEq] at h; subst h; exact NoVars.ren.2 hA
  | succ i =>
    simp only [BCtx.cons, Option.map_eq_some_iff] at h
    obtain ⟨U, h1, rfl⟩ := h
    exact NoVars.ren.2 (hΔ i U h1)

/-- If variables have closed types, so has everything, and types contain no variables. -/
theorem mono_ground {K : KCtx} {Γ : LCtx} (hΓ : ∀ i T, Γ.get i = some T → Small K T) {Δ : BCtx} {t : Term} {J : Jdg}
    (h : STyped K Γ Δ t J) : (∀ i T, Δ i = some T → NoVars T) →
      (∀ T, J = .ty T → NoVars T) ∧ (Typelike J → NoVars t) := by
  have sy : ∀ s : Symbol, NoVars (.sym s) := fun s i => by simp [hasVar, atoms]
  induction h with
  | fvar h1 h2 =>
    intro _
    refine ⟨fun T e => ?_, fun hJ => ?_⟩
    · cases e; exact (hΓ _ _ h1).noVars
    · rcases hJ with hJ | ⟨T, hJ, k⟩ <;> cases hJ
      rw [(hΓ _ _ h1).not_endsKind] at k; cases k
  | bvar h1 =>
    intro hΔ
    exact ⟨fun T e => by cases e; exact hΔ _ _ h1, fun _ i => by simp [hasVar, atoms]⟩
  | sym h1 h2 h3 => intro _; exact ⟨fun T e => by cases e; exact h3.2, fun _ => sy _⟩
  | appVal _ _ _ k ihf iha =>
    intro hΔ
    refine ⟨fun T e => ?_, fun hJ => ?_⟩
    · cases e
      exact NoVars.ren.1 (NoVars.bind.1 ((ihf hΔ).1 _ rfl)).2
    · rcases hJ with hJ | ⟨T, hJ, k'⟩ <;> cases hJ
      rw [k] at k'; cases k'
  | @appTy Δ f a A B hf ha k ihf iha =>
    intro hΔ
    have nf := (NoVars.bind.1 ((ihf hΔ).1 _ rfl)).2
    have na := (iha hΔ).2 (.inr ⟨_, rfl, k⟩)
    refine ⟨fun T e => ?_, fun hJ => ?_⟩
    · cases e
      intro i
      cases e : (Term.inst 0 a B).hasVar i with
      | false => rfl
      | true => rcases hasVar_inst e with h | h
                · rw [nf i] at h; cases h
                · rw [na i] at h; cases h
    · rcases hJ with hJ | ⟨T, hJ, k'⟩ <;> cases hJ
      rw [endsKind_inst (ha.not_endsKind _ rfl)] at k'
      exact NoVars.app.2 ⟨(ihf hΔ).2 (.inr ⟨_, rfl, k'⟩), na⟩
  | lam hA hb k1 k2 ihA ihb =>
    intro hΔ
    have nA := (ihA hΔ).2 (.inl rfl)
    refine ⟨fun T e => ?_, fun hJ => ?_⟩
    · cases e
      exact NoVars.bind.2 ⟨nA, (ihb (NoVars.cons hΔ nA)).1 _ rfl⟩
    · exact ((STyped.lam hA hb k1 k2).lam_not_typelike hJ).elim
  | all hA hb ihA ihb =>
    intro _
    refine ⟨fun T e => by cases e; exact sy _, fun hJ => ?_⟩
    exact ((STyped.all hA hb).quant_not_typelike (.inl rfl) hJ).elim
  | ex hA hb ihA ihb =>
    intro _
    refine ⟨fun T e => by cases e; exact sy _, fun hJ => ?_⟩
    exact ((STyped.ex hA hb).quant_not_typelike (.inr rfl) hJ).elim
  | pi hA hB ihA ihB =>
    intro hΔ
    have nA := (ihA hΔ).2 (.inr ⟨_, rfl, rfl⟩)
    exact ⟨fun T e => by cases e; exact sy _,
      fun _ => NoVars.bind.2 ⟨nA, (ihB (NoVars.cons hΔ nA)).2 (.inr ⟨_, rfl, rfl⟩)⟩⟩
  | inst => intro _; exact ⟨fun T e => by cases e; exact sy _, fun _ => sy _⟩
  | scheme φ _ _ _ _ _ _ ih =>
    intro hΔ
    exact ⟨fun T e => by cases e; exact sy _, fun _ => (ih hΔ).2 (.inr ⟨_, rfl, rfl⟩)⟩
  | extend _ _ ih =>
    intro hΔ
    exact ⟨fun T e => by cases e; exact sy _, fun _ => (ih hΔ).2 (.inr ⟨_, rfl, rfl⟩)⟩
  | forget _ ih =>
    intro hΔ
    exact ⟨fun T e => by cases e; exact sy _, fun _ => (ih hΔ).2 (.inr ⟨_, rfl, rfl⟩)⟩
  | tyType0 => intro _; exact ⟨fun T e => (by cases e), fun _ => sy _⟩
  | tyClass => intro _; exact ⟨fun T e => (by cases e), fun _ => sy _⟩
  | tyOf _ ih => intro hΔ; exact ⟨fun T e => (by cases e), fun _ => (ih hΔ).2 (.inr ⟨_, rfl, rfl⟩)⟩
  | tyPi _ _ ihA ihB =>
    intro hΔ
    have nA := (ihA hΔ).2 (.inl rfl)
    exact ⟨fun T e => (by cases e), fun _ => NoVars.bind.2 ⟨nA, (ihB (NoVars.cons hΔ nA)).2 (.inl rfl)⟩⟩

theorem hasVar_sub_of {φ : Nat → Term} {t : Term} {i j : Nat} (hi : t.hasVar i = true) (hj : (φ i).hasVar j = true) :
    ∀ {σ : Nat → Term}, (Term.sub φ σ t).hasVar j = true := by
  induction t generalizing φ with
  | atom a =>
    intro σ
    cases a with
    | fvar k => have := hv_fvar.1 hi; subst this; exact hj
    | _ => simp [hasVar, atoms] at hi
  | app f a ihf iha =>
    intro σ
    rcases hv_app.1 hi with h | h
    · exact hv_app.2 (.inl (ihf h hj))
    · exact hv_app.2 (.inr (iha h hj))
  | bind b f a ihf iha =>
    intro σ
    rcases hv_bind.1 hi with h | h
    · exact hv_bind.2 (.inl (ihf h hj))
    · refine hv_bind.2 (.inr (iha h ?_))
      simp only [lift, hasVar_ren]; exact hj

/-- Replacing the variables of a term by terms of the same closed types. -/
theorem mono_apply {K : KCtx} {Γ Γ' : LCtx} {m : VMap} (hΓ : ∀ i T, Γ.get i = some T → Small K T) {Δ : BCtx}
    {t : Term} {J : Jdg} (h : STyped K Γ Δ t J) : (∀ i T, Δ i = some T → NoVars T) →
      (∀ i T, t.hasVar i = true → Γ.get i = some T →
        match m.get i with
        | some u => SHasType K Γ' u T
        | none => Γ'.get i = some T) →
      STyped K Γ' Δ (m.apply t) J := by
  have na : ∀ {Δ : BCtx} {A : Term} {J : Jdg}, STyped K Γ Δ A J → (∀ i T, Δ i = some T → NoVars T) → Typelike J →
      m.apply A = A := fun h hΔ hJ => ((mono_ground hΓ h hΔ).2 hJ).apply m
  induction h with
  | @fvar Δ i T h1 h2 =>
    intro _ hm
    have := hm i T (hv_fvar.2 rfl) h1
    simp only [VMap.apply]
    cases e : m.get i with
    | none => rw [e] at this; exact .fvar this h2
    | some u =>
      rw [e] at this
      have h3 := this.ren (fun i => i) Δ (by intro i T h; cases h)
      have cl := HasType.closed this.typed
      rw [ren_closed _ _ cl.1] at h3
      simp only [Jdg.ren, ren_closed _ _ cl.2] at h3
      exact h3
  | bvar h1 => intro _ _; exact .bvar h1
  | sym h1 h2 h3 => intro _ _; exact .sym h1 h2 h3
  | appVal _ _ k1 k2 ihf iha =>
    intro hΔ hm
    exact .appVal (ihf hΔ fun i T hi => hm i T (hv_app.2 (.inl hi))) (iha hΔ fun i T hi => hm i T (hv_app.2 (.inr hi))) k1 k2
  | @appTy Δ f a A B hf ha k ihf iha =>
    intro hΔ hm
    have e := na ha hΔ (.inr ⟨_, rfl, k⟩)
    have h1 := ihf hΔ fun i T hi => hm i T (hv_app.2 (.inl hi))
    have h2 := iha hΔ fun i T hi => hm i T (hv_app.2 (.inr hi))
    rw [e] at h2
    simp only [VMap.apply, e]
    exact .appTy h1 h2 k
  | lam hA hb k1 k2 ihA ihb =>
    intro hΔ hm
    have e := na hA hΔ (.inl rfl)
    have h1 := ihA hΔ fun i T hi => hm i T (hv_bind.2 (.inl hi))
    have h2 := ihb (NoVars.cons hΔ ((mono_ground hΓ hA hΔ).2 (.inl rfl))) fun i T hi => hm i T (hv_bind.2 (.inr hi))
    rw [e] at h1
    simp only [VMap.apply, e]
    exact .lam h1 h2 k1 k2
  | all hA hb ihA ihb =>
    intro hΔ hm
    have e := na hA hΔ (.inl rfl)
    have h1 := ihA hΔ fun i T hi => hm i T (hv_bind.2 (.inl hi))
    have h2 := ihb (NoVars.cons hΔ ((mono_ground hΓ hA hΔ).2 (.inl rfl))) fun i T hi => hm i T (hv_bind.2 (.inr hi))
    rw [e] at h1
    simp only [VMap.apply, e]
    exact .all h1 h2
  | ex hA hb ihA ihb =>
    intro hΔ hm
    have e := na hA hΔ (.inl rfl)
    have h1 := ihA hΔ fun i T hi => hm i T (hv_bind.2 (.inl hi))
    have h2 := ihb (NoVars.cons hΔ ((mono_ground hΓ hA hΔ).2 (.inl rfl))) fun i T hi => hm i T (hv_bind.2 (.inr hi))
    rw [e] at h1
    simp only [VMap.apply, e]
    exact .ex h1 h2
  | pi hA hB ihA ihB =>
    intro hΔ hm
    have e := na hA hΔ (.inr ⟨_, rfl, rfl⟩)
    have h1 := ihA hΔ fun i T hi => hm i T (hv_bind.2 (.inl hi))
    have h2 := ihB (NoVars.cons hΔ ((mono_ground hΓ hA hΔ).2 (.inr ⟨_, rfl, rfl⟩))) fun i T hi => hm i T (hv_bind.2 (.inr hi))
    rw [e] at h1
    simp only [VMap.apply, e]
    exact .pi h1 h2
  | inst h1 h2 => intro _ _; exact .inst h1 h2
  | @scheme Δ c sctx target φ hm0 hc hcl hφ h0 ih iht =>
    intro hΔ hm
    have e := na h0 hΔ (.inr ⟨_, rfl, rfl⟩)
    have nv := (mono_ground hΓ h0 hΔ).2 (.inr ⟨_, rfl, rfl⟩)
    have h1 := iht hΔ hm
    rw [e] at h1 ⊢
    refine .scheme φ hm0 hc hcl (fun i T hi => ?_) h1
    have n1 : NoVars (φ i) := fun j => by
      cases ej : (φ i).hasVar j with
      | false => rfl
      | true =>
        have := hasVar_sub_of (σ := bid) (hcl i T hi).2 ej
        rw [nv j] at this; cases this
    have := ih i T hi hΔ fun j U hj => by rw [n1 j] at hj; cases hj
    rwa [n1.apply] at this
  | extend _ h1 ih => intro hΔ hm; exact .extend (ih hΔ hm) h1
  | forget _ ih => intro hΔ hm; exact .forget (ih hΔ hm)
  | tyType0 => intro _ _; exact .tyType0
  | tyClass => intro _ _; exact .tyClass
  | tyOf _ ih => intro hΔ hm; exact .tyOf (ih hΔ hm)
  | tyPi hA hB ihA ihB =>
    intro hΔ hm
    have e := na hA hΔ (.inl rfl)
    have h1 := ihA hΔ fun i T hi => hm i T (hv_bind.2 (.inl hi))
    have h2 := ihB (NoVars.cons hΔ ((mono_ground hΓ hA hΔ).2 (.inl rfl))) fun i T hi => hm i T (hv_bind.2 (.inr hi))
    rw [e] at h1
    simp only [VMap.apply, e]
    exact .tyPi h1 h2

/-- A type of values mentions neither sorts nor equality. -/
theorem plain_type {K : KCtx} {Γ : LCtx} {Δ : BCtx} {t : Term} {J : Jdg} (h : STyped K Γ Δ t J) :
    ∀ T, J = .ty T → endsKind T = true → ∀ a ∈ t.atoms, a ≠ .sym .eq_ ∧ a ≠ .sym .type0 ∧
      ∀ m l, a ≠ .sym (.typeclass m l) := by
  induction h with
  | fvar => intro T _ _ a ha; simp [atoms] at ha; subst ha; simp
  | bvar => intro T _ _ a ha; simp [atoms] at ha; subst ha; simp
  | @sym Δ s T0 h1 h2 h3 =>
    intro T e k a ha
    cases e
    simp [atoms] at ha; subst ha
    refine ⟨?_, ?_, fun m l => ?_⟩
    · intro e; cases e
      simp only [KCtx.symbolType] at h2
      cases h2; cases k
    · intro e; cases e; cases h1
    · intro e; cases e; cases h1
  | appVal _ _ _ k => intro T e k'; cases e; rw [k] at k'; cases k'
  | appTy hf ha k ihf iha =>
    intro T e k' a h
    cases e
    rw [endsKind_inst (ha.not_endsKind _ rfl)] at k'
    simp only [atoms, List.mem_append] at h
    rcases h with h | h
    · exact ihf _ rfl k' a h
    · exact iha _ rfl k a h
  | lam hA hb k1 k2 => intro T e k; exact ((STyped.lam hA hb k1 k2).lam_not_typelike (.inr ⟨T, e, k⟩)).elim
  | all hA hb => intro T e k; cases e; cases k
  | ex hA hb => intro T e k; cases e; cases k
  | pi hA hB ihA ihB =>
    intro T e k a h
    simp only [atoms, List.mem_append] at h
    rcases h with h | h
    · exact ihA _ rfl rfl a h
    · exact ihB _ rfl rfl a h
  | inst => intro T _ _ a ha; simp [atoms] at ha; subst ha; simp
  | scheme φ _ _ _ _ _ _ ih => intro T _ _; exact ih _ rfl rfl
  | extend _ _ ih => intro T _ _; exact ih _ rfl rfl
  | forget _ ih => intro T _ _; exact ih _ rfl rfl
  | tyType0 => intro T e; cases e
  | tyClass => intro T e; cases e
  | tyOf => intro T e; cases e
  | tyPi => intro T e; cases e

theorem Spec.Unified.plain {s t : Term} (h : Unified s t) (hs : ∀ a ∈ s.atoms, a ≠ .sym .eq_ ∧ a ≠ .sym .type0 ∧
    ∀ m l, a ≠ .sym (.typeclass m l)) : s = t := by
  induction h with
  | atom a => rfl
  | classType m l => exact absurd rfl ((hs _ (by simp [atoms])).2.2 m l)
  | typeClass m l => exact absurd rfl (hs _ (by simp [atoms])).2.1
  | app _ _ h1 h2 =>
    rw [h1 (fun a ha => hs a (by simp [atoms, ha])), h2 (fun a ha => hs a (by simp [atoms, ha]))]
  | bind c _ _ h1 h2 =>
    rw [h1 (fun a ha => hs a (by simp [atoms, ha])), h2 (fun a ha => hs a (by simp [atoms, ha]))]
  | swap => exact absurd rfl (hs _ (by simp [atoms])).1

theorem atoms_apply {m : VMap} {t : Term} {a : Atom} (h : a ∈ (m.apply t).atoms) :
    a ∈ t.atoms ∨ ∃ i u, m.get i = some u ∧ a ∈ u.atoms := by
  induction t with
  | atom b =>
    cases b with
    | fvar i =>
      simp only [VMap.apply] at h
      cases e : m.get i with
      | none => rw [e] at h; exact .inl h
      | some u => rw [e] at h; exact .inr ⟨i, u, e, h⟩
    | _ => exact .inl h
  | app f a ihf iha =>
    simp only [VMap.apply, atoms, List.mem_append] at h ⊢
    rcases h with h | h
    · rcases ihf h with h | h
      · exact .inl (.inl h)
      · exact .inr h
    · rcases iha h with h | h
      · exact .inl (.inr h)
      · exact .inr h
  | bind b f a ihf iha =>
    simp only [VMap.apply, atoms, List.mem_append] at h ⊢
    rcases h with h | h
    · rcases ihf h with h | h
      · exact .inl (.inl h)
      · exact .inr h
    · rcases iha h with h | h
      · exact .inl (.inr h)
      · exact .inr h

namespace Unifier

theorem apply_noVars {n : Nat} : ∀ {st st' : UState} {s : Nat} {t t' : Term}, NoVars t →
    apply n st s t = some (t', st') → t' = t ∧ st' = st := by
  induction n with
  | zero => intro st st' s t t' _ e; simp [apply] at e
  | succ n ih =>
    intro st st' s t t' h e
    cases t with
    | atom a =>
      cases a with
      | fvar i => exact absurd h NoVars.fvar
      | _ =>
        simp only [apply, Option.some.injEq, Prod.mk.injEq] at e
        exact ⟨e.1.symm, e.2.symm⟩
    | app f a =>
      rw [apply] at e
      split at e
      · cases e
      · rename_i f' st1 e1
        split at e
        · cases e
        · rename_i a' st2 e2
          simp only [Option.some.injEq, Prod.mk.injEq] at e
          obtain ⟨rfl, rfl⟩ := ih (NoVars.app.1 h).1 e1
          obtain ⟨rfl, rfl⟩ := ih (NoVars.app.1 h).2 e2
          exact ⟨e.1.symm, e.2.symm⟩
    | bind b f a =>
      rw [apply] at e
      split at e
      · cases e
      · rename_i f' st1 e1
        split at e
        · cases e
        · rename_i a' st2 e2
          simp only [Option.some.injEq, Prod.mk.injEq] at e
          obtain ⟨rfl, rfl⟩ := ih (NoVars.bind.1 h).1 e1
          obtain ⟨rfl, rfl⟩ := ih (NoVars.bind.1 h).2 e2
          exact ⟨e.1.symm, e.2.symm⟩

/-- Without variables nothing is bound. -/
theorem unify_noVars {K : KCtx} {n : Nat} : ∀ {st st' : UState} {s1 s2 : Nat} {t1 t2 : Term} {b : Bool},
    NoVars t1 → NoVars t2 → unify K n st s1 t1 s2 t2 = some (b, st') → st' = st := by
  induction n with
  | zero => intro st st' s1 s2 t1 t2 b _ _ e; simp [unify] at e
  | succ n ih =>
    intro st st' s1 s2 t1 t2 b h1 h2 e
    have th : ∀ {r : Res} {k : UState → Res} {b : Bool} {st' : UState}, andThen r k = some (b, st') →
        (∀ {b st1}, r = some (b, st1) → st1 = st) → (∀ {b st1}, k st = some (b, st1) → st1 = st) → st' = st := by
      intro r k b st' e hr hk
      rcases andThen_some e with ⟨e, _⟩ | ⟨st1, e1, e2⟩
      · exact hr e
      · have := hr e1; subst this; exact hk e2
    unfold unify at e
    split at e
    · exact absurd h1 NoVars.fvar
    · exact absurd h2 NoVars.fvar
    · simp only [NoVars.app] at h1 h2
      rcases orElse_some e with ⟨_, e⟩ | ⟨_, e⟩ | ⟨_, e⟩
      · exact th e (ih h1.1.1.2 h2.1.1.2) fun e => th e (ih h1.1.2 h2.1.2) (ih h1.2 h2.2)
      · exact th e (ih h1.1.1.2 h2.1.1.2) fun e => th e (ih h1.1.2 h2.2) (ih h1.2 h2.1.2)
      · exact e
    · simp only [Option.some.injEq, Prod.mk.injEq] at e; exact e.2.symm
    · rw [NoVars.app] at h1 h2
      exact th e (ih h1.1 h2.1) (ih h1.2 h2.2)
    · rw [NoVars.bind] at h1 h2
      split at e
      · exact th e (ih h1.1 h2.1) (ih h1.2 h2.2)
      · simp only [Option.some.injEq, Prod.mk.injEq] at e; exact e.2.symm
    · simp only [Option.some.injEq, Prod.mk.injEq] at e; exact e.2.symm

/-- All variables have closed types of values, and everything is bound to terms of its type, with atoms
as in `Q`. -/
structure Mono (K : KCtx) (Q : Atom → Prop) (st : UState) : Prop where
  inp : ∀ s Γ, st.inputs s = some Γ → ∀ i T, Γ.get i = some T → Small K T
  out : ∀ i T, st.out.get i = some T → Small K T
  fresh : ∀ i T, st.out.get i = some T → i < (st.maps 0).length
  vals : ∀ s i t, (st.maps s).get i = some t →
    (∃ Γ T, ctxOf st s = some Γ ∧ Γ.get i = some T ∧ SHasType K st.out t T) ∧ ∀ a ∈ t.atoms, Q a
  var : ∀ i, Q (.fvar i)

/-- Inputs and declared output variables stay as they are. -/
structure OutExt (st st' : UState) : Prop where
  inputs : st'.inputs = st.inputs
  out : ∀ i T, st.out.get i = some T → st'.out.get i = some T

theorem OutExt.refl (st : UState) : OutExt st st := ⟨rfl, fun _ _ h => h⟩

theorem OutExt.trans {a b c : UState} (h : OutExt a b) (h' : OutExt b c) : OutExt a c :=
  ⟨h'.inputs.trans h.inputs, fun i T hi => h'.out i T (h.out i T hi)⟩

/-- A well-typed term of some scope, possibly below some binders. -/
def Tm (K : KCtx) (Q : Atom → Prop) (st : UState) (s : Nat) (t : Term) : Prop :=
  ∃ Γ B d J, ctxOf st s = some Γ ∧ (∀ i, B (i + d) = none) ∧ (∀ i T, B i = some T → NoVars T) ∧ STyped K Γ B t J ∧
    ∀ a ∈ t.atoms, Q a

theorem Mono.ctx {K : KCtx} {Q : Atom → Prop} {st : UState} (h : Mono K Q st) {s : Nat} {Γ : LCtx} (e : ctxOf st s = some Γ) :
    ∀ i T, Γ.get i = some T → Small K T := by
  unfold ctxOf at e
  split at e
  · cases e; exact h.out
  · exact h.inp s Γ e

theorem OutExt.ctx {st st' : UState} (h : OutExt st st') {s : Nat} {Γ : LCtx} (e : ctxOf st s = some Γ) :
    ∃ Γ', ctxOf st' s = some Γ' ∧ ∀ i T, Γ.get i = some T → Γ'.get i = some T := by
  unfold ctxOf at e ⊢
  split at e
  · cases e; exact ⟨_, by simp [*], h.out⟩
  · refine ⟨Γ, ?_, fun _ _ h => h⟩
    rw [if_neg (by assumption), h.inputs]; exact e

theorem Tm.mono {K : KCtx} {Q : Atom → Prop} {st st' : UState} (h : OutExt st st') {s : Nat} {t : Term} (ht : Tm K Q st s t) :
    Tm K Q st' s t := by
  obtain ⟨Γ, B, d, J, e, h1, h2, h3, hq⟩ := ht
  obtain ⟨Γ', e', h'⟩ := h.ctx e
  exact ⟨Γ', B, d, J, e', h1, h2, h3.weaken h', hq⟩

theorem Tm.of_nil {K : KCtx} {Q : Atom → Prop} {st : UState} {s : Nat} {Γ : LCtx} {t T : Term} (e : ctxOf st s = some Γ)
    (h : SHasType K Γ t T) (hq : ∀ a ∈ t.atoms, Q a) : Tm K Q st s t :=
  ⟨Γ, BCtx.nil, 0, _, e, fun _ => rfl, (by intro i T h; cases h), h, hq⟩

theorem Tm.allQ {K : KCtx} {Q : Atom → Prop} {st : UState} {s : Nat} {t : Term} (h : Tm K Q st s t) :
    ∀ a ∈ t.atoms, Q a := by
  obtain ⟨Γ, B, d, J, e, h1, h2, h3, hq⟩ := h
  exact hq

theorem Tm.app {K : KCtx} {Q : Atom → Prop} {st : UState} {s : Nat} {f a : Term} (h : Tm K Q st s (.app f a)) :
    Tm K Q st s f ∧ Tm K Q st s a := by
  obtain ⟨Γ, B, d, J, e, h1, h2, h3, hq⟩ := h
  have q1 : ∀ x ∈ f.atoms, Q x := fun x hx => hq x (by simp [atoms, hx])
  have q2 : ∀ x ∈ a.atoms, Q x := fun x hx => hq x (by simp [atoms, hx])
  rcases h3.app_inv with ⟨A, B', _, hf, ha, _⟩ | ⟨A, B', hf, ha, _⟩
  · exact ⟨⟨Γ, B, d, _, e, h1, h2, hf, q1⟩, ⟨Γ, B, d, _, e, h1, h2, ha, q2⟩⟩
  · exact ⟨⟨Γ, B, d, _, e, h1, h2, hf, q1⟩, ⟨Γ, B, d, _, e, h1, h2, ha, q2⟩⟩

theorem Tm.bind {K : KCtx} {Q : Atom → Prop} {st : UState} (hst : Mono K Q st) {s : Nat} {b : Binder} {f a : Term}
    (h : Tm K Q st s (.bind b f a)) : Tm K Q st s f ∧ Tm K Q st s a := by
  obtain ⟨Γ, B, d, J, e, h1, h2, h3, hq⟩ := h
  have q1 : ∀ x ∈ f.atoms, Q x := fun x hx => hq x (by simp [atoms, hx])
  have q2 : ∀ x ∈ a.atoms, Q x := fun x hx => hq x (by simp [atoms, hx])
  have hf := h3.bind_dom
  have nf := (mono_ground (hst.ctx e) hf h2).2 (.inl rfl)
  have ha : ∃ J', STyped K Γ (BCtx.cons f B) a J' := by
    cases b with
    | pi => exact ⟨_, h3.pi_inv.2.2⟩
    | lam => obtain ⟨_, _, _, h, _⟩ := h3.lam_inv; exact ⟨_, h⟩
    | all => exact ⟨_, (h3.quant_inv (.inl rfl)).2.2⟩
    | ex => exact ⟨_, (h3.quant_inv (.inr rfl)).2.2⟩
  obtain ⟨J', ha⟩ := ha
  refine ⟨⟨Γ, B, d, _, e, h1, h2, hf, q1⟩, ⟨Γ, _, d + 1, _, e, fun i => ?_, NoVars.cons h2 nf, ha, q2⟩⟩
  show (BCtx.cons f B) (i + d + 1) = none
  simp only [BCtx.cons, h1, Option.map_none]

theorem Tm.fvar {K : KCtx} {Q : Atom → Prop} {st : UState} (hst : Mono K Q st) {s i : Nat} (h : Tm K Q st s (.fvar i)) :
    ∃ Γ T, ctxOf st s = some Γ ∧ Γ.get i = some T := by
  obtain ⟨Γ, B, d, J, e, h1, h2, h3, hq⟩ := h
  have := (Typed.fscoped (Small.ctxOk (hst.ctx e)) h3.typed
    (fun i T hi j hj => by rw [h2 i T hi j] at hj; cases hj)).1 i (hv_fvar.2 rfl)
  obtain ⟨T, hT⟩ := Option.isSome_iff_exists.1 this
  exact ⟨Γ, T, e, hT⟩

/-- The instance of a well-typed term is a well-typed output term. -/
theorem Tm.ap {K : KCtx} {Q : Atom → Prop} {st : UState} (hst : Mono K Q st) {s : Nat} {t : Term} (h : Tm K Q st s t)
    (hc : Cov st s t) : Tm K Q st 0 (ap st s t) := by
  obtain ⟨Γ, B, d, J, e, h1, h2, h3, hq⟩ := h
  refine ⟨st.out, B, d, J, by simp [ctxOf], h1, h2, mono_apply (hst.ctx e) h3 h2 fun i T hi hT => ?_,
    fun a ha => ?_⟩
  rotate_left
  · rcases atoms_apply ha with h | ⟨i, u, hu, h⟩
    · exact hq a h
    · exact (hst.vals s i u hu).2 a h
  cases em : (st.maps s).get i with
  | some u =>
    obtain ⟨⟨Γ', T', e', hT', hu⟩, -⟩ := hst.vals s i u em
    rw [e] at e'; cases e'
    rw [hT] at hT'; cases hT'
    exact hu
  | none =>
    by_cases hs : s = 0
    · subst hs; simp [ctxOf] at e; subst e; exact hT
    · have := hc hs i hi; rw [em] at this; cases this

theorem apply_mono {K : KCtx} {Q : Atom → Prop} {n : Nat} : ∀ {st st' : UState} {s : Nat} {t t' : Term}, Mono K Q st →
    apply n st s t = some (t', st') → Mono K Q st' ∧ OutExt st st' := by
  induction n with
  | zero => intro st st' s t t' _ e; simp [apply] at e
  | succ n ih =>
    intro st st' s t t' h e
    cases t with
    | atom a =>
      cases a with
      | fvar i =>
        rw [apply] at e
        split at e
        · simp only [Option.some.injEq, Prod.mk.injEq] at e; obtain ⟨_, rfl⟩ := e; exact ⟨h, .refl _⟩
        · rename_i em
          split at e
          · simp only [Option.some.injEq, Prod.mk.injEq] at e; obtain ⟨_, rfl⟩ := e; exact ⟨h, .refl _⟩
          · rename_i hs
            dsimp only at e
            split at e
            · cases e
            · rename_i T hT
              have hin : (setMap (pushNone st) s i (.fvar (st.maps 0).length)).inputs = st.inputs := rfl
              rw [hin] at hT
              obtain ⟨Γ, hΓ, hT'⟩ := Option.bind_eq_some_iff.1 hT
              have sm := h.inp s Γ hΓ i T hT'
              split at e
              · cases e
              · rename_i T' st2 e2
                obtain ⟨rfl, rfl⟩ := apply_noVars sm.noVars e2
                simp only [Option.some.injEq, Prod.mk.injEq] at e
                obtain ⟨_, rfl⟩ := e
                have hv : st.out.get (st.maps 0).length = none := by
                  cases ev : st.out.get (st.maps 0).length with
                  | none => rfl
                  | some U => exact absurd (h.fresh _ _ ev) (Nat.lt_irrefl _)
                have oe : OutExt st (setOut (setMap (pushNone st) s i (.fvar (st.maps 0).length)) (st.maps 0).length T') := by
                  refine ⟨rfl, fun j U hj => ?_⟩
                  show (LCtx.get (setSlot st.out _ T') j) = _
                  rw [LCtx.get_set, if_neg, hj]
                  rintro rfl; rw [hv] at hj; cases hj
                have hs0 : ¬ 0 = s := fun h => hs h.symm
                refine ⟨⟨h.inp, ?_, ?_, ?_, h.var⟩, oe⟩
                · intro j U hj
                  change LCtx.get (setSlot st.out _ T') j = _ at hj
                  rw [LCtx.get_set] at hj
                  split at hj
                  · cases hj; exact sm
                  · exact h.out j U hj
                · intro j U hj
                  change LCtx.get (setSlot st.out _ T') j = _ at hj
                  rw [LCtx.get_set] at hj
                  have hl : ((setOut (setMap (pushNone st) s i (.fvar (st.maps 0).length)) (st.maps 0).length T').maps 0).length
                      = (st.maps 0).length + 1 := by
                    simp [setOut, setMap, pushNone, hs0]
                  rw [hl]
                  split at hj
                  · rename_i hj'; omega
                  · have := h.fresh j U hj; omega
                · intro s' j u hu
                  change ((setMap (pushNone st) s i _).maps s').get j = some u at hu
                  rw [setMap_get, pushNone_get] at hu
                  split at hu
                  · rename_i hh
                    obtain ⟨rfl, rfl⟩ := hh
                    cases hu
                    refine ⟨⟨Γ, T', ?_, hT', .fvar ?_ sm.closed⟩, ?_⟩
                    rotate_right
                    · intro a ha; simp [atoms] at ha; subst ha; exact h.var _
                    · simp only [ctxOf, hs, if_false]; exact hΓ
                    · show LCtx.get (setSlot st.out _ T') _ = _
                      rw [LCtx.get_set, if_pos rfl]
                  · obtain ⟨⟨Γ1, T1, h1, h2, h3⟩, hq⟩ := h.vals s' j u hu
                    obtain ⟨Γ2, h4, h5⟩ := oe.ctx h1
                    exact ⟨⟨Γ2, T1, h4, h5 _ _ h2, h3.weaken oe.out⟩, hq⟩
      | _ =>
        simp only [apply, Option.some.injEq, Prod.mk.injEq] at e
        obtain ⟨_, rfl⟩ := e; exact ⟨h, .refl _⟩
    | app f a =>
      rw [apply] at e
      split at e
      · cases e
      · rename_i f' st1 e1
        split at e
        · cases e
        · rename_i a' st2 e2
          simp only [Option.some.injEq, Prod.mk.injEq] at e
          obtain ⟨_, rfl⟩ := e
          obtain ⟨h1, o1⟩ := ih h e1
          obtain ⟨h2, o2⟩ := ih h1 e2
          exact ⟨h2, o1.trans o2⟩
    | bind b f a =>
      rw [apply] at e
      split at e
      · cases e
      · rename_i f' st1 e1
        split at e
        · cases e
        · rename_i a' st2 e2
          simp only [Option.some.injEq, Prod.mk.injEq] at e
          obtain ⟨_, rfl⟩ := e
          obtain ⟨h1, o1⟩ := ih h e1
          obtain ⟨h2, o2⟩ := ih h1 e2
          exact ⟨h2, o1.trans o2⟩

theorem not_true {b : Bool} (h : ¬ b = true) : b = false := by
  cases b with
  | false => rfl
  | true => exact absurd rfl h

/-- The type test decides, and changes nothing. -/
theorem compatible_mono {K : KCtx} {Q : Atom → Prop} {n : Nat} {st st' : UState} {vs : Nat} {T t : Term} {b : Bool} (h : Solved st)
    (hm : Mono K Q st) (hT : Small K T) (ht : Tm K Q st 0 t) (hesc : t.escapes = false)
    (e : compatible K n st vs T t = some (b, st')) : st' = st ∧ (b = true → SHasType K st.out t T) := by
  cases n with
  | zero => simp [compatible] at e
  | succ n =>
    obtain ⟨Γ, B, d, J, e1, h1, h2, h3, -⟩ := ht
    simp [ctxOf] at e1
    subst e1
    have h4 := h3.closed_nil h1 hesc
    have co := Small.ctxOk hm.out
    have sc := (Typed.fscoped co h4.typed (by intro i T h; cases h)).1
    obtain ⟨S, eS, kS⟩ := getType_below co (.refl _) sc h4
    have nS : NoVars S := by
      cases k : isKind S with
      | true => exact .of_isKind k
      | false => exact (mono_ground hm.out h4 (by intro i T h; cases h)).1 S (kS k)
    unfold compatible at e
    rw [if_neg (by rw [hT.not_type0]; simp), eS] at e
    dsimp only at e
    rw [hT.not_class] at e
    dsimp only at e
    have est := unify_noVars hT.noVars nS e
    refine ⟨est, fun hb => ?_⟩
    have u := (((correct K n).unify h e).2 hb).unified
    have e1 : ap st' vs T = T := hT.noVars.apply _
    have e2 : ap st' 0 S = S := nS.apply _
    rw [e1, e2] at u
    have := u.plain (plain_type hT _ rfl rfl)
    subst this
    have k : isKind T = false := by
      cases k : isKind T with
      | false => rfl
      | true => have := hT.not_endsKind; rw [endsKind_of_isKind k] at this; cases this
    rw [kS k] at h4
    exact h4

/-- Binding an unbound input variable to a term of its type. -/
theorem mono_setMap {K : KCtx} {Q : Atom → Prop} {st : UState} (h : Mono K Q st) {s i : Nat} {Γ : LCtx} {T t : Term} (hs : s ≠ 0)
    (e : ctxOf st s = some Γ) (hT : Γ.get i = some T) (ht : SHasType K st.out t T) (hq : ∀ a ∈ t.atoms, Q a) :
    Mono K Q (setMap st s i t) ∧ OutExt st (setMap st s i t) := by
  refine ⟨⟨h.inp, h.out, fun j U hj => ?_, fun s' j u hu => ?_, h.var⟩, rfl, fun _ _ h => h⟩
  · have : (setMap st s i t).maps 0 = st.maps 0 := by
      have : ¬ 0 = s := fun h => hs h.symm
      simp [setMap, this]
    rw [this]; exact h.fresh j U hj
  · rw [setMap_get] at hu
    split at hu
    · rename_i hh
      obtain ⟨rfl, rfl⟩ := hh
      cases hu
      exact ⟨⟨Γ, T, e, hT, ht⟩, hq⟩
    · exact h.vals s' j u hu

theorem foldl_untangle {id : Nat} {T : Term} {Γ : LCtx} (h : ∀ i U, Γ.get i = some U → NoVars U) (l : List Nat) :
    l.foldl (untangle id T) Γ = Γ := by
  induction l with
  | nil => rfl
  | cons v l ih =>
    have : untangle id T Γ v = Γ := by
      unfold untangle
      split
      · rfl
      · rename_i U hU
        rw [if_neg]; rw [h v U hU id]; simp
    simp only [List.foldl_cons, this, ih]

theorem remapOut_get {Γ : LCtx} (h : ∀ i U, Γ.get i = some U → NoVars U) (id : Nat) (t : Term) (j : Nat) :
    (remapOut Γ id t).get j = Γ.get j := by
  have e : remapOut Γ id t = Γ.map (Option.map (Term.replaceVar id t)) := by
    unfold remapOut
    split
    · rfl
    · rw [foldl_untangle h]
  rw [e]
  have := get_map Γ (Term.replaceVar id t) j
  have e2 : LCtx.get (Γ.map (Option.map (Term.replaceVar id t))) j = (Γ.get j).map (Term.replaceVar id t) := this
  rw [e2]
  cases eg : Γ.get j with
  | none => rfl
  | some U => simp only [Option.map_some]; rw [replaceVar_not (h j U eg id)]

theorem setSlot_length (l : List (Option Term)) (i : Nat) (t : Term) : l.length ≤ (setSlot l i t).length := by
  simp only [setSlot]
  split <;> simp
  all_goals omega

/-- Replacing an output variable by a term of its type. -/
theorem mono_remap {K : KCtx} {Q : Atom → Prop} {st : UState} (h : Mono K Q st) {id : Nat} {T t : Term}
    (hT : st.out.get id = some T) (ht : SHasType K st.out t T) (hq : ∀ a ∈ t.atoms, Q a) :
    Mono K Q (remapTo st id t) ∧ OutExt st (remapTo st id t) := by
  have ho : ∀ j, (remapTo st id t).out.get j = st.out.get j :=
    fun j => remapOut_get (fun i U hU => (h.out i U hU).noVars) id t j
  have oe : OutExt st (remapTo st id t) := ⟨rfl, fun j U hj => by rw [ho, hj]⟩
  refine ⟨⟨h.inp, fun j U hj => h.out j U (by rw [← ho, hj]), fun j U hj => ?_, fun s j u hu => ?_, h.var⟩, oe⟩
  · rw [ho] at hj
    have := h.fresh j U hj
    refine Nat.lt_of_lt_of_le this ?_
    show _ ≤ (setSlot _ _ _).length
    refine Nat.le_trans ?_ (setSlot_length _ _ _)
    simp
  · have wk : ∀ {u U : Term}, SHasType K st.out u U → SHasType K (remapTo st id t).out u U :=
      fun hu => hu.weaken oe.out
    rw [remapTo_get] at hu
    split at hu
    · rename_i hh
      obtain ⟨rfl, rfl⟩ := hh
      cases hu
      exact ⟨⟨_, T, rfl, by rw [ho, hT], wk ht⟩, hq⟩
    · obtain ⟨u0, hu0, rfl⟩ := Option.map_eq_some_iff.1 hu
      obtain ⟨⟨Γ, U, h1, h2, h3⟩, hq0⟩ := h.vals s j u0 hu0
      obtain ⟨Γ', h4, h5⟩ := oe.ctx h1
      refine ⟨⟨Γ', U, h4, h5 _ _ h2, wk ?_⟩, fun a ha => ?_⟩
      rotate_left
      · rw [replaceVar_eq_apply] at ha
        rcases atoms_apply ha with h | ⟨i, v, hv, h⟩
        · exact hq0 a h
        · rw [VMap.get_set, get_nil] at hv
          split at hv
          · cases hv; exact hq a h
          · cases hv
      rw [replaceVar_eq_apply]
      refine mono_apply h.out h3 (by intro i T h; cases h) fun k V hk hV => ?_
      rw [VMap.get_set, get_nil]
      by_cases hki : k = id
      · subst hki; rw [hT] at hV; cases hV; simpa using ht
      · simp only [hki, if_false]; exact hV

/-- What the typed functions establish. -/
structure MonoOk (K : KCtx) (Q : Atom → Prop) (n : Nat) : Prop where
  unify : ∀ {st st' : UState} {s1 s2 : Nat} {t1 t2 : Term} {b : Bool}, Solved st → Mono K Q st → Tm K Q st s1 t1 →
    Tm K Q st s2 t2 → unify K n st s1 t1 s2 t2 = some (b, st') → Mono K Q st' ∧ OutExt st st'
  var : ∀ {st st' : UState} {vs i ts : Nat} {t : Term} {b : Bool}, Solved st → Mono K Q st → Tm K Q st vs (.fvar i) →
    Tm K Q st ts t → unifyVar K n st vs i ts t = some (b, st') → Mono K Q st' ∧ OutExt st st'
  remap : ∀ {st st' : UState} {i : Nat} {T t : Term} {b : Bool}, Solved st → Mono K Q st → st.out.get i = some T →
    SHasType K st.out t T → (∀ a ∈ t.atoms, Q a) → remap K n st i t = some (b, st') → Mono K Q st' ∧ OutExt st st'

theorem remapNow_mono {K : KCtx} {Q : Atom → Prop} {n : Nat} {st st' : UState} {i : Nat} {T t : Term} {b : Bool} (h : Solved st)
    (hm : Mono K Q st) (hT : st.out.get i = some T) (ht : SHasType K st.out t T) (hq : ∀ a ∈ t.atoms, Q a)
    (e : remap.remapNow n st i t = some (b, st')) : Mono K Q st' ∧ OutExt st st' := by
  unfold remap.remapNow at e
  split at e
  · cases e
  · rename_i t' st1 e1
    have h1 := apply_spec n h e1
    have := h1.same rfl
    subst this
    split at e
    · simp only [Option.some.injEq, Prod.mk.injEq] at e
      obtain ⟨rfl, rfl⟩ := e
      exact ⟨hm, .refl _⟩
    · split at e
      · cases e
      · simp only [Option.some.injEq, Prod.mk.injEq] at e
        obtain ⟨rfl, rfl⟩ := e
        refine mono_remap hm hT ?_ (fun a ha => ?_)
        rotate_left
        · rw [h1.eq] at ha
          rcases atoms_apply ha with h | ⟨i, u, hu, h⟩
          · exact hq a h
          · exact (hm.vals 0 i u hu).2 a h
        rw [h1.eq]
        refine mono_apply hm.out ht (by intro i T h; cases h) fun k V hk hV => ?_
        split
        · rename_i u hu
          obtain ⟨⟨Γ, U, g1, g2, g3⟩, -⟩ := hm.vals 0 k u hu
          simp [ctxOf] at g1; subst g1
          rw [hV] at g2; cases g2; exact g3
        · exact hV

theorem monoOk (K : KCtx) (Q : Atom → Prop) (n : Nat) : MonoOk K Q n := by
  induction n with
  | zero =>
    refine ⟨?_, ?_, ?_⟩
    · intro st st' s1 s2 t1 t2 b _ _ _ _ e; simp [unify] at e
    · intro st st' vs i ts t b _ _ _ _ e; simp [unifyVar] at e
    · intro st st' i T t b _ _ _ _ _ e; simp [remap] at e
  | succ n ih =>
    have th : ∀ {st : UState} {s1 s2 s3 s4 : Nat} {a a' c c' : Term} {k : UState → Res} {b : Bool} {st' : UState},
        Solved st → Mono K Q st → Tm K Q st s1 a → Tm K Q st s2 a' →
        andThen (unify K n st s1 a s2 a') k = some (b, st') →
        (∀ {st1}, Solved st1 → Mono K Q st1 → OutExt st st1 → k st1 = some (b, st') → Mono K Q st' ∧ OutExt st1 st') →
        Mono K Q st' ∧ OutExt st st' := by
      intro st s1 s2 s3 s4 a a' c c' k b st' h hm ha ha' e hk
      rcases andThen_some e with ⟨e0, -⟩ | ⟨st1, e1, e2⟩
      · exact ih.unify h hm ha ha' e0
      · obtain ⟨m1, o1⟩ := ih.unify h hm ha ha' e1
        obtain ⟨m2, o2⟩ := hk ((correct K n).unify h e1).1.solved m1 o1 e2
        exact ⟨m2, o1.trans o2⟩
    refine ⟨?_, ?_, ?_⟩
    · intro st st' s1 s2 t1 t2 b h hm h1 h2 e
      unfold unify at e
      split at e
      · exact ih.var h hm h1 h2 e
      · exact ih.var h hm h2 h1 e
      · rcases orElse_some e with ⟨rfl, e'⟩ | ⟨rfl, e'⟩ | ⟨rfl, rfl⟩
        · exact th (s3 := 0) (s4 := 0) (c := .type0) (c' := .type0) h hm h1.app.1.app.1.app.2 h2.app.1.app.1.app.2 e'
            fun hs m o e => th (s3 := 0) (s4 := 0) (c := .type0) (c' := .type0) hs m
              (h1.app.1.app.2.mono o) (h2.app.1.app.2.mono o) e
              fun hs m o' e => ih.unify hs m (h1.app.2.mono (o.trans o')) (h2.app.2.mono (o.trans o')) e
        · exact th (s3 := 0) (s4 := 0) (c := .type0) (c' := .type0) h hm h1.app.1.app.1.app.2 h2.app.1.app.1.app.2 e'
            fun hs m o e => th (s3 := 0) (s4 := 0) (c := .type0) (c' := .type0) hs m
              (h1.app.1.app.2.mono o) (h2.app.2.mono o) e
              fun hs m o' e => ih.unify hs m (h1.app.2.mono (o.trans o')) (h2.app.1.app.2.mono (o.trans o')) e
        · exact ⟨hm, .refl _⟩
      · simp only [Option.some.injEq, Prod.mk.injEq] at e
        obtain ⟨rfl, rfl⟩ := e
        exact ⟨hm, .refl _⟩
      · exact th (s3 := 0) (s4 := 0) (c := .type0) (c' := .type0) h hm h1.app.1 h2.app.1 e
          fun hs m o e => ih.unify hs m (h1.app.2.mono o) (h2.app.2.mono o) e
      · split at e
        · exact th (s3 := 0) (s4 := 0) (c := .type0) (c' := .type0) h hm (h1.bind hm).1 (h2.bind hm).1 e
            fun hs m o e => ih.unify hs m ((h1.bind hm).2.mono o) ((h2.bind hm).2.mono o) e
        · simp only [Option.some.injEq, Prod.mk.injEq] at e
          obtain ⟨rfl, rfl⟩ := e
          exact ⟨hm, .refl _⟩
      · simp only [Option.some.injEq, Prod.mk.injEq] at e
        obtain ⟨rfl, rfl⟩ := e
        exact ⟨hm, .refl _⟩
    · intro st st' vs i ts t b h hm hv ht e
      unfold unifyVar at e
      split at e
      · split at e
        · cases e
        · rename_i t' st1 e1
          have h1 := apply_spec n h e1
          obtain ⟨m1, o1⟩ := apply_mono hm e1
          have ht' : Tm K Q st1 0 t' := by rw [h1.eq]; exact (ht.mono o1).ap m1 h1.cov
          obtain ⟨m2, o2⟩ := ih.var h1.solved m1 (hv.mono o1) ht' e
          exact ⟨m2, o1.trans o2⟩
      · rename_i hts
        have hts : ts = 0 := Classical.byContradiction fun h => hts h
        subst hts
        obtain ⟨Γ, T, hΓ, hT⟩ := hv.fvar hm
        have sm := hm.ctx hΓ i T hT
        split at e
        · rename_i u hu
          obtain ⟨⟨Γ1, T1, e1, e2, e3⟩, hq⟩ := hm.vals vs i u hu
          exact ih.unify h hm (.of_nil (by simp [ctxOf]) e3 hq) ht e
        · rename_i hn
          split at e
          · rename_i hvs
            subst hvs
            simp [ctxOf] at hΓ
            subst hΓ
            split at e
            · simp only [Option.some.injEq, Prod.mk.injEq] at e
              obtain ⟨rfl, rfl⟩ := e
              exact ⟨hm, .refl _⟩
            · split at e
              · simp only [Option.some.injEq, Prod.mk.injEq] at e
                obtain ⟨rfl, rfl⟩ := e
                exact ⟨hm, .refl _⟩
              · split at e
                · simp only [Option.some.injEq, Prod.mk.injEq] at e
                  obtain ⟨rfl, rfl⟩ := e
                  exact ⟨hm, .refl _⟩
                · rename_i hesc
                  have hesc' := not_true hesc
                  rw [hT] at e
                  dsimp only at e
                  rcases andThen_some e with ⟨e0, rfl⟩ | ⟨st1, e1, e'⟩
                  · obtain ⟨rfl, _⟩ := compatible_mono h hm sm ht hesc' e0
                    exact ⟨hm, .refl _⟩
                  · obtain ⟨rfl, hty⟩ := compatible_mono h hm sm ht hesc' e1
                    exact ih.remap h hm hT (hty rfl) ht.allQ e'
          · rename_i hvs
            rw [hΓ] at e
            simp only [Option.bind_some, hT] at e
            split at e
            · simp only [Option.some.injEq, Prod.mk.injEq] at e
              obtain ⟨rfl, rfl⟩ := e
              exact ⟨hm, .refl _⟩
            · rename_i hesc
              have hesc' := not_true hesc
              rcases andThen_some e with ⟨e0, rfl⟩ | ⟨st1, e1, e'⟩
              · obtain ⟨rfl, _⟩ := compatible_mono h hm sm ht hesc' e0
                exact ⟨hm, .refl _⟩
              · obtain ⟨rfl, hty⟩ := compatible_mono h hm sm ht hesc' e1
                split at e'
                · cases e'
                · rename_i t' st2 e2
                  have h1 := apply_spec n h e2
                  have := h1.same rfl
                  subst this
                  split at e'
                  · cases e'
                  · simp only [Option.some.injEq, Prod.mk.injEq] at e'
                    obtain ⟨rfl, rfl⟩ := e'
                    refine mono_setMap hm hvs hΓ hT ?_ (fun a ha => ?_)
                    rotate_left
                    · rw [h1.eq] at ha
                      rcases atoms_apply ha with h | ⟨i, u, hu, h⟩
                      · exact ht.allQ a h
                      · exact (hm.vals 0 i u hu).2 a h
                    rw [h1.eq]
                    refine mono_apply hm.out (hty rfl) (by intro i T h; cases h) fun k V hk hV => ?_
                    split
                    · rename_i u hu
                      obtain ⟨⟨Γ, U, g1, g2, g3⟩, -⟩ := hm.vals 0 k u hu
                      simp [ctxOf] at g1; subst g1
                      rw [hV] at g2; cases g2; exact g3
                    · exact hV
    · intro st st' i T t b h hm hT ht hq e
      unfold remap at e
      split at e
      · rename_i j hj
        split at e
        · have : t = .fvar j := by
            unfold atomicVariable at hj
            split at hj
            · cases hj; rfl
            · cases hj
          subst this
          exact ih.var h hm (.of_nil (by simp [ctxOf]) ht hq)
            (.of_nil (by simp [ctxOf]) (.fvar hT (hm.out i T hT).closed)
              (by intro a ha; simp [atoms] at ha; subst ha; exact hm.var _)) e
        · exact remapNow_mono h hm hT ht hq e
      · exact remapNow_mono h hm hT ht hq e

end Unifier

end Acorn
