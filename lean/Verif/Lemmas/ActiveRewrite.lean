/-
Rewriting a literal without variables.
-/
import Verif.Lemmas.ActiveResolve
import Verif.Lemmas.Path
import Verif.Lemmas.ClaimSound
namespace Acorn
namespace Active
open Spec Term Unifier
open Passive (Step)

universe u

variable {R : Type} {E : Env R} {M : Interp.{u}} {K : KCtx}

/-! ### Replacing a value -/

/-- A subterm of a well-typed term is well-typed. -/
theorem getAt_typed {Γ : LCtx} : ∀ {p : List PathStep} {t u T : Term}, t.getAt p = some u → SHasType K Γ t T →
    ∃ U, SHasType K Γ u U := by
  intro p
  induction p with
  | nil => intro t u T e h; rw [getAt_nil] at e; cases e; exact ⟨T, h⟩
  | cons x p ih =>
    intro t u T e h
    cases t with
    | app f a =>
      obtain ⟨A, B, hf, ha⟩ : ∃ A B, SHasType K Γ f (.pi A B) ∧ SHasType K Γ a A := by
        rcases h.app_inv with ⟨A, B, -, h1, h2, -, -⟩ | ⟨A, B, h1, h2, -, -⟩
        · exact ⟨_, _, h1, h2⟩
        · exact ⟨_, _, h1, h2⟩
      cases x with
      | function => exact ih e hf
      | argument => exact ih e ha
    | _ => simp [Term.getAt] at e

theorem getAt_atoms : ∀ {p : List PathStep} {t u : Term}, t.getAt p = some u → ∀ a ∈ u.atoms, a ∈ t.atoms := by
  intro p
  induction p with
  | nil => intro t u e; rw [getAt_nil] at e; cases e; exact fun _ h => h
  | cons x p ih =>
    intro t u e a ha
    cases t with
    | app f b =>
      cases x with
      | function => exact List.mem_append_left _ (ih (t := f) e a ha)
      | argument => exact List.mem_append_right _ (ih (t := b) e a ha)
    | _ => simp [Term.getAt] at e

theorem replaceAt_atoms : ∀ {p : List PathStep} {t v t' : Term}, t.replaceAt p v = some t' → ∀ a ∈ t'.atoms,
    a ∈ t.atoms ∨ a ∈ v.atoms := by
  intro p
  induction p with
  | nil => intro t v t' e; rw [replaceAt_nil] at e; cases e; exact fun _ h => .inr h
  | cons x p ih =>
    intro t v t' e a ha
    cases t with
    | app f b =>
      cases x with
      | function =>
        simp only [Term.replaceAt, Option.map_eq_some_iff] at e
        obtain ⟨f', e, rfl⟩ := e
        rcases List.mem_append.1 ha with ha | ha
        · rcases ih e a ha with h | h
          · exact .inl (List.mem_append_left _ h)
          · exact .inr h
        · exact .inl (List.mem_append_right _ ha)
      | argument =>
        simp only [Term.replaceAt, Option.map_eq_some_iff] at e
        obtain ⟨f', e, rfl⟩ := e
        rcases List.mem_append.1 ha with ha | ha
        · exact .inl (List.mem_append_left _ ha)
        · rcases ih e a ha with h | h
          · exact .inl (List.mem_append_right _ h)
          · exact .inr h
    | _ => simp [Term.replaceAt] at e

/-- Replacing a value by one of the same type keeps the type. -/
theorem replaceAt_typed {Γ : LCtx} {u v : Term}
    (huv : ∀ T, SHasType K Γ u T → SHasType K Γ v T ∧ endsKind T = false) : ∀ {p : List PathStep} {t t' T : Term},
    t.getAt p = some u → t.replaceAt p v = some t' → SHasType K Γ t T →
    SHasType K Γ t' T ∧ (endsKind T = true → t' = t) := by
  intro p
  induction p with
  | nil =>
    intro t t' T e e' h
    rw [getAt_nil] at e; cases e
    rw [replaceAt_nil] at e'; cases e'
    obtain ⟨h1, h2⟩ := huv T h
    exact ⟨h1, fun h => by rw [h2] at h; cases h⟩
  | cons x p ih =>
    intro t t' T e e' h
    cases t with
    | app f a =>
      have key : ∀ {f' a' : Term}, (∀ {T}, SHasType K Γ f T → SHasType K Γ f' T ∧ (endsKind T = true → f' = f)) →
          (∀ {T}, SHasType K Γ a T → SHasType K Γ a' T ∧ (endsKind T = true → a' = a)) →
          SHasType K Γ (.app f' a') T ∧ (endsKind T = true → Term.app f' a' = .app f a) := by
        intro f' a' hf ha
        rcases h.app_inv with ⟨A, B, hT, h1, h2, h3, h4⟩ | ⟨A, B, h1, h2, h3, h4⟩
        · cases hT
          exact ⟨.appVal (hf h1).1 (ha h2).1 h3 h4, fun h => by rw [h4] at h; cases h⟩
        · have hA := (ha h2).2 h3
          subst hA
          have hB : endsKind (Term.inst 0 a' B) = true → f' = f := fun hb => by
            rw [endsKind_inst (h2.not_endsKind _ rfl)] at hb
            exact (hf h1).2 hb
          rcases h4 with h4 | ⟨hk, h4⟩
          · cases h4
            exact ⟨.appTy (hf h1).1 h2 h3, fun hk => by rw [hB hk]⟩
          · have hff := hB (endsKind_of_isKind hk)
            subst hff
            exact ⟨h, fun _ => rfl⟩
      cases x with
      | function =>
        simp only [Term.replaceAt, Option.map_eq_some_iff] at e'
        obtain ⟨f', e', rfl⟩ := e'
        exact key (fun h => ih (t := f) e e' h) (fun h => ⟨h, fun _ => rfl⟩)
      | argument =>
        simp only [Term.replaceAt, Option.map_eq_some_iff] at e'
        obtain ⟨a', e', rfl⟩ := e'
        exact key (fun h => ⟨h, fun _ => rfl⟩) (fun h => ih (t := a) e e' h)
    | _ => simp [Term.getAt] at e

/-- Replacing a term by one with the same value keeps the value. -/
theorem replaceAt_eval {u v : Term} {ρ β : Nat → M.D} (huv : eval M ρ β u = eval M ρ β v) : ∀ {p : List PathStep}
    {t t' : Term}, t.getAt p = some u → t.replaceAt p v = some t' → eval M ρ β t' = eval M ρ β t := by
  intro p
  induction p with
  | nil =>
    intro t t' e e'
    rw [getAt_nil] at e; cases e
    rw [replaceAt_nil] at e'; cases e'
    exact huv.symm
  | cons x p ih =>
    intro t t' e e'
    cases t with
    | app f a =>
      cases x with
      | function =>
        simp only [Term.replaceAt, Option.map_eq_some_iff] at e'
        obtain ⟨f', e', rfl⟩ := e'
        have := ih (t := f) e e'
        simp only [eval, this]
      | argument =>
        simp only [Term.replaceAt, Option.map_eq_some_iff] at e'
        obtain ⟨a', e', rfl⟩ := e'
        have := ih (t := a) e e'
        simp only [eval, this]
    | _ => simp [Term.getAt] at e

/-! ### The new term -/

/-- The literal compares values. -/
def Valued (K : KCtx) (Γ : LCtx) (l : Literal) : Prop := ∃ T, Small K T ∧ SHasType K Γ l.left T

/-- The clause is one positive literal that compares values. -/
def IsPattern (K : KCtx) (c : Clause) : Prop := ∃ l, c.lits = [l] ∧ l.positive = true ∧ Valued K c.ctx l

/-- A term replaced by another of the same type, which has the same value. -/
structure Swap (K : KCtx) (M : Interp.{u}) (Γ : LCtx) (holds : Prop) (u v : Term) : Prop where
  vars : ValueVars K Γ
  type : ∃ T, Small K T ∧ SHasType K [] u T ∧ SHasType K Γ v T
  sorts : SortFree v
  value : holds → ∀ ρ β, Models M Γ ρ → eval M ρ β u = eval M ρ β v

theorem apply_noVars {st : UState} {s : Nat} {u : Term} (h : NoVars u) : ap st s u = u := by
  exact apply_none fun j hj => by rw [h j] at hj; cases hj

theorem rewriteTerm_sound (L : Lawful E.K M) (hN : NoEmpty E.K M) {c : Clause} {l : Literal} (hp : PlainClause E.K c)
    (hl : c.lits = [l]) (pos : l.positive = true) (hv : Valued E.K c.ctx l) {forwards : Bool} {u v U : Term} {Γ : LCtx}
    (hu : SHasType E.K [] u U) (nu : NoVars u) (su : SortFree u)
    (e : rewriteTerm E c.ctx (patternSides l forwards).1 (patternSides l forwards).2 u = some (some (v, Γ))) :
    Swap E.K M Γ (ClauseTrue M c) u v := by
  obtain ⟨T, hT, h1, h2, s1, s2⟩ : ∃ T, Small E.K T ∧ SHasType E.K c.ctx (patternSides l forwards).1 T ∧
      SHasType E.K c.ctx (patternSides l forwards).2 T ∧ SortFree (patternSides l forwards).1 ∧
      SortFree (patternSides l forwards).2 := by
    obtain ⟨⟨T, _, h1, h2⟩, s1, s2⟩ := hp.neat (l := l) (by rw [hl]; simp)
    obtain ⟨T', hT', h1'⟩ := hv
    have : T' = T := Typed.unique_of_not_kind h1'.typed h1.typed (by
      cases hk : isKind T' with
      | false => rfl
      | true => have := hT'.not_endsKind; rw [endsKind_of_isKind hk] at this; cases this)
    subst this
    cases forwards
    · exact ⟨_, hT', h2, h1, s2, s1⟩
    · exact ⟨_, hT', h1, h2, s1, s2⟩
  have hval : ∀ ρ, ClauseTrue M c → Models M c.ctx ρ → ∀ β, eval M ρ β (patternSides l forwards).1 =
      eval M ρ β (patternSides l forwards).2 := by
    intro ρ ht hρ β
    obtain ⟨k, hk, hh⟩ := ht ρ hρ β
    rw [hl, List.mem_singleton] at hk
    subst hk
    simp only [LitHolds, pos, if_true] at hh
    cases forwards
    · exact hh.symm
    · exact hh
  generalize (patternSides l forwards).1 = s at *
  generalize (patternSides l forwards).2 = t at *
  unfold rewriteTerm at e
  split at e
  · cases e
  · cases e
  rename_i st e1
  split at e
  · cases e
  rename_i v' st' e2
  obtain ⟨sv, m1, i1, -, same⟩ := unify_step (pairUnifier_solved _ _) (pairUnifier_mono hp.vars .nil notSort_fvar)
    (Γ := c.ctx) (Δ := []) rfl rfl h1 hu s1 su e1
  obtain ⟨sb, cov, rfl⟩ := stable_apply sv m1 e2
  have same : Unifier.Same st' 1 s 2 u :=
    ⟨sb.cov _ _ same.cov1, sb.cov _ _ same.cov2, by
      rw [sb.ap _ _ same.cov1, sb.ap _ _ same.cov2]; exact same.unified⟩
  have in1 : st'.inputs 1 = some c.ctx := by rw [sb.ext.inputs, i1]; rfl
  have in2 : st'.inputs 2 = some [] := by rw [sb.ext.inputs, i1]; rfl
  have hTU : T = U := by
    rcases same_typeAt (by decide) (by decide) sb.mono in1 in2 h1 hu s1 same with h | ⟨h, _⟩
    · exact h
    · have := hT.not_endsKind; rw [endsKind_of_isKind h] at this; cases this
  subst hTU
  simp only [Option.some.injEq] at e
  split at e
  · cases e
    refine ⟨sb.mono.out, ⟨T, hT, hu, ap_typedAt (by decide) sb.mono in1 h2 cov⟩, ap_notSort (by decide) sb.mono s2,
      fun ht ρ β hρ => ?_⟩
    obtain ⟨ρ1, a1, b1⟩ := assignmentAt L (by decide : 1 ≠ 0) sb.solved sb.mono in1
      (fun i T h => .inr (hN T (hp.vars i T h))) hρ
    have v1 := same_valueAt L (by decide : 1 ≠ 0) sb.mono in1 h1 s1 same hρ β
    rw [apply_noVars nu] at v1
    rw [← v1, ← b1 _ _ same.cov1, hval ρ1 ht a1, b1 _ _ cov]
  · cases e

/-! ### The new step -/

theorem get_setSlot_ctx (Γ : LCtx) (i : Nat) (T : Term) (j : Nat) :
    LCtx.get (setSlot Γ i T) j = if j = i then some T else Γ.get j := by
  have := get_setSlot Γ i T j
  simpa [LCtx.get, VMap.get, Option.join] using this

theorem joinCtx_get_eq (Γ Δ : LCtx) (j : Nat) : (joinCtx Γ Δ).get j = (Δ.get j).or (Γ.get j) := by
  have key : ∀ (n : Nat), ((List.range n).foldl (fun out i =>
      match Δ.get i with
      | none => out
      | some T => setSlot out i T) Γ).get j = if j < n then (Δ.get j).or (Γ.get j) else Γ.get j := by
    intro n
    induction n with
    | zero => simp
    | succ n ih =>
      rw [List.range_succ, List.foldl_append, List.foldl_cons, List.foldl_nil]
      cases e : Δ.get n with
      | none =>
        dsimp only
        rw [ih]
        by_cases hj : j = n
        · subst hj; simp [e]
        · by_cases hlt : j < n
          · rw [if_pos hlt, if_pos (by omega)]
          · rw [if_neg hlt, if_neg (by omega)]
      | some T =>
        dsimp only
        rw [get_setSlot_ctx, ih]
        by_cases hj : j = n
        · subst hj; simp [e]
        · rw [if_neg hj]
          by_cases hlt : j < n
          · rw [if_pos hlt, if_pos (by omega)]
          · rw [if_neg hlt, if_neg (by omega)]
  have := key Δ.length
  change (joinCtx Γ Δ).get j = _ at this
  rw [this]
  split
  · rfl
  · rename_i h
    have : Δ.get j = none := by
      unfold LCtx.get
      rw [List.getElem?_eq_none (by omega)]
      rfl
    rw [this]; rfl

theorem joinCtx_get {Γ Δ : LCtx} {i : Nat} {T : Term} (h : Δ.get i = some T) : (joinCtx Γ Δ).get i = some T := by
  rw [joinCtx_get_eq, h]; rfl

theorem joinCtx_vars {Γ Δ : LCtx} (h : ValueVars K Γ) (h' : ValueVars K Δ) : ValueVars K (joinCtx Γ Δ) := by
  intro i T e
  rw [joinCtx_get_eq, Option.or_eq_some_iff] at e
  rcases e with e | ⟨_, e⟩
  · exact h' i T e
  · exact h i T e

/-- A subterm of one side of the only literal of a clause, which has no variables. -/
structure PlaceIn (c : Clause) (left : Bool) (p : List PathStep) (u : Term) : Prop where
  lit : ∃ l, c.lits = [l] ∧ l.hasAnyVar = false ∧ (if left then l.left else l.right).getAt p = some u

theorem rewriteStep_sound (L : Lawful E.K M) (hN : NoEmpty E.K M) (hA : AliasesHold M E.aliases)
    (hA' : AliasesOk E.K E.aliases) {i j : Nat} {pattern target n : Step (Info R)} {left : Bool} {p : List PathStep}
    {u v : Term} {Γ : LCtx} (pt : PlainClause E.K target.clause) (hu : PlaceIn target.clause left p u)
    (hs : Swap E.K M Γ (ClauseTrue M pattern.clause) u v)
    (e : rewriteStep E i pattern j target left p v Γ = some n) :
    PlainClause E.K n.clause ∧ (ClauseTrue M pattern.clause → ClauseTrue M target.clause → ClauseTrue M n.clause) ∧
      n.info.truth = pattern.info.truth.combine target.info.truth := by
  obtain ⟨l, hl, nv, hp⟩ := hu.lit
  unfold rewriteStep at e
  rw [hl] at e
  simp only [Option.bind_eq_bind, Option.bind_eq_some_iff, Option.pure_def, Option.some.injEq] at e
  obtain ⟨l1, e1, t, e2, rfl⟩ := e
  obtain ⟨⟨T, hT, h1, h2⟩, s1, s2⟩ := pt.neat (l := l) (by rw [hl]; simp)
  rw [Literal.hasAnyVar, Bool.or_eq_false_iff] at nv
  have n1 := noVars_of_any nv.1
  have n2 := noVars_of_any nv.2
  have c1 : SHasType E.K (joinCtx target.clause.ctx Γ) l.left T :=
    h1.ctx_congr fun i hi => by rw [n1 i] at hi; cases hi
  have c2 : SHasType E.K (joinCtx target.clause.ctx Γ) l.right T :=
    h2.ctx_congr fun i hi => by rw [n2 i] at hi; cases hi
  have vv := joinCtx_vars pt.vars hs.vars
  have models : ∀ {ρ}, Models M (joinCtx target.clause.ctx Γ) ρ → Models M Γ ρ := fun h i T hi => h i T (joinCtx_get hi)
  obtain ⟨U, hU, hu1, hv1⟩ := hs.type
  have hv2 : SHasType E.K (joinCtx target.clause.ctx Γ) v U := hv1.weaken fun i T h => joinCtx_get h
  have hu2 : SHasType E.K (joinCtx target.clause.ctx Γ) u U := hu1.weaken fun i T h => by simp [LCtx.get] at h
  have huv : ∀ T, SHasType E.K (joinCtx target.clause.ctx Γ) u T →
      SHasType E.K (joinCtx target.clause.ctx Γ) v T ∧ endsKind T = false := by
    intro T h
    have : U = T := Typed.unique_of_not_kind hu2.typed h.typed (by
      cases hk : isKind U with
      | false => rfl
      | true => have := hU.not_endsKind; rw [endsKind_of_isKind hk] at this; cases this)
    subst this
    exact ⟨hv2, hU.not_endsKind⟩
  -- The replaced literal.
  have key : ∃ x y, l1 = Literal.new l.positive x y ∧ SHasType E.K (joinCtx target.clause.ctx Γ) x T ∧
      SHasType E.K (joinCtx target.clause.ctx Γ) y T ∧ SortFree x ∧ SortFree y ∧
      (∀ ρ β, eval M ρ β u = eval M ρ β v → eval M ρ β x = eval M ρ β l.left ∧ eval M ρ β y = eval M ρ β l.right) := by
    have sf : ∀ {t t' : Term}, SortFree t → t.replaceAt p v = some t' → SortFree t' := fun h e a ha => by
      rcases replaceAt_atoms e a ha with h' | h'
      · exact h a h'
      · exact hs.sorts a h'
    unfold replaceSide at e1
    cases left with
    | true =>
      simp only [if_true, Option.map_eq_some_iff] at e1 hp
      obtain ⟨x, ex, rfl⟩ := e1
      exact ⟨x, l.right, rfl, (replaceAt_typed huv hp ex c1).1, c2, sf s1 ex, s2, fun ρ β h =>
        ⟨replaceAt_eval h hp ex, rfl⟩⟩
    | false =>
      simp only [Bool.false_eq_true, if_false, Option.map_eq_some_iff] at e1 hp
      obtain ⟨x, ex, rfl⟩ := e1
      exact ⟨l.left, x, rfl, c1, (replaceAt_typed huv hp ex c2).1, s1, sf s2 ex, fun ρ β h =>
        ⟨rfl, replaceAt_eval h hp ex⟩⟩
  obtain ⟨x, y, rfl, tx, ty, sx, sy, ev⟩ := key
  -- The literal with names of instances.
  have nt : Neat E.K (joinCtx target.clause.ctx Γ) (Literal.new l.positive x y) := neat_new.2 ⟨⟨T, hT, tx, ty⟩, sx, sy⟩
  generalize hk : Literal.new l.positive x y = k at nt e2
  have hv : ∀ ρ β, LitHolds M ρ β k ↔ LitHolds M ρ β ⟨l.positive, x, y⟩ := by
    intro ρ β; rw [← hk]; exact litHolds_new _ _ _
  obtain ⟨⟨T', hT', k1, k2⟩, q1, q2⟩ := nt
  have hp' : PlainClause E.K ⟨[Literal.new k.positive (E.aliases.canon k.left) (E.aliases.canon k.right)],
      joinCtx target.clause.ctx Γ⟩ := plainClause_iff.2 ⟨vv, fun a ha => by
    rw [List.mem_singleton] at ha
    subst ha
    exact neat_new.2 ⟨⟨T', hT', canon_typed L hA hA'.typed k1, canon_typed L hA hA'.typed k2⟩,
      canonSpine_sortFree hA'.const q1 (by simp), canonSpine_sortFree hA'.const q2 (by simp)⟩⟩
  have rn := renewed_withTrace L hN hp' e2
  refine ⟨rn.plain, fun ht ht' => rn.truth.2 fun ρ hρ β => ⟨_, List.mem_singleton.2 rfl, ?_⟩, rfl⟩
  obtain ⟨ρ0, hρ0⟩ := pt.vars.model (M := M) hN
  obtain ⟨a, ha, hh⟩ := ht' ρ0 hρ0 β
  rw [hl, List.mem_singleton] at ha
  subst ha
  have hh := lit_const (ρ' := ρ) (l := a) (by rw [Literal.hasAnyVar, nv.1, nv.2]; rfl) hh
  obtain ⟨ex, ey⟩ := ev ρ β (hs.value ht ρ β (models hρ))
  rw [litHolds_new]
  have hk' : LitHolds M ρ β k := by
    rw [hv]
    unfold LitHolds at hh ⊢
    dsimp only
    rw [ex, ey]
    exact hh
  unfold LitHolds at hk' ⊢
  dsimp only
  rw [canon_eval hA, canon_eval hA]
  exact hk'

end Active
end Acorn
