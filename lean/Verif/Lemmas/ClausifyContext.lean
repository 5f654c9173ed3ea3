/-
Contexts made of pinned type variables followed by variables for values.
-/
import Verif.Spec.Clausifier
import Verif.Lemmas.ClauseNew
import Verif.Lemmas.BoolSound
import Verif.Lemmas.PlainTypes
import Verif.Lemmas.Inhabited
namespace Acorn
open Spec Term

universe u
variable {K : KCtx} {Γ Γ' : LCtx} {M : Interp.{u}} {n : Nat}

/-- The first `n` variables have kinds as their types, the others are values. -/
structure GoodCtx (K : KCtx) (n : Nat) (Γ : LCtx) : Prop where
  le : n ≤ Γ.length
  full : ∀ i, i < Γ.length → (Γ.get i).isSome = true
  kind : ∀ i T, i < n → Γ.get i = some T → isKind T = true
  value : ∀ i T, n ≤ i → Γ.get i = some T → endsKind T = false ∧ T.escapes = false ∧
    ∀ j, T.hasVar j = true → j < n
  isTy : ∀ i T, n ≤ i → Γ.get i = some T → STyped K (Γ.take n) BCtx.nil T .isTy

/-- A type does not mention variables for values. -/
theorem type_no_var {x : Nat} (hx : ∀ U, Γ.get x = some U → endsKind U = false) {Δ : BCtx} {t : Term}
    {J : Jdg} (h : STyped K Γ Δ t J) : Typelike J → t.hasVar x = false := by
  induction h with
  | @fvar Δ i T h _ =>
    intro hJ
    cases e : (Term.fvar i).hasVar x with
    | false => rfl
    | true =>
      simp [hasVar, atoms] at e
      subst e
      rcases hJ with hJ | ⟨T, hJ, k⟩ <;> cases hJ
      rw [hx _ h] at k; cases k
  | bvar => intro _; rfl
  | sym => intro _; rfl
  | appVal _ _ _ k =>
    intro hJ
    rcases hJ with hJ | ⟨T, hJ, k'⟩ <;> cases hJ
    rw [k] at k'; cases k'
  | appTy hf ha k ihf iha =>
    intro hJ
    rcases hJ with hJ | ⟨T, hJ, k'⟩ <;> cases hJ
    rw [endsKind_inst (ha.not_endsKind _ rfl)] at k'
    simp only [hasVar_app, ihf (.inr ⟨_, rfl, k'⟩), iha (.inr ⟨_, rfl, k⟩), Bool.or_false]
  | lam hA hb k1 k2 => intro hJ; exact ((STyped.lam hA hb k1 k2).lam_not_typelike hJ).elim
  | all hA hb => intro hJ; exact ((STyped.all hA hb).quant_not_typelike (.inl rfl) hJ).elim
  | ex hA hb => intro hJ; exact ((STyped.ex hA hb).quant_not_typelike (.inr rfl) hJ).elim
  | pi _ _ ihA ihB =>
    intro _
    simp only [hasVar_bind, ihA (.inr ⟨_, rfl, rfl⟩), ihB (.inr ⟨_, rfl, rfl⟩), Bool.or_false]
  | inst => intro _; rfl
  | scheme _ _ _ _ _ _ _ ih => intro _; exact ih (.inr ⟨_, rfl, rfl⟩)
  | extend _ _ ih => intro _; exact ih (.inr ⟨_, rfl, rfl⟩)
  | forget _ ih => intro _; exact ih (.inr ⟨_, rfl, rfl⟩)
  | tyType0 => intro _; rfl
  | tyClass => intro _; rfl
  | tyOf _ ih => intro _; exact ih (.inr ⟨_, rfl, rfl⟩)
  | tyPi _ _ ihA ihB =>
    intro _
    simp only [hasVar_bind, ihA (.inl rfl), ihB (.inl rfl), Bool.or_false]

theorem hasVar_inst {a t : Term} {d x : Nat} (h : t.hasVar x = false) (ha : a.hasVar x = false) :
    (Term.inst d a t).hasVar x = false := by
  induction t generalizing d with
  | atom y =>
    cases y with
    | bvar i =>
      simp only [Term.inst]
      split
      · rfl
      · split
        · rw [up_eq_ren, hasVar_ren]; exact ha
        · rfl
    | fvar i => exact h
    | sym s => rfl
  | app f y ihf ihy =>
    simp only [hasVar_app, Bool.or_eq_false_iff] at h
    simp only [Term.inst, hasVar_app, ihf h.1, ihy h.2, Bool.or_false]
  | bind b f y ihf ihy =>
    simp only [hasVar_bind, Bool.or_eq_false_iff] at h
    simp only [Term.inst, hasVar_bind, ihf h.1, ihy h.2, Bool.or_false]

/-- The type of a term does not mention a variable for values. -/
theorem typeOf_no_var {x : Nat} (hx : ∀ U, Γ.get x = some U → endsKind U = false)
    (hΓ : ∀ i U, Γ.get i = some U → U.hasVar x = false) {Δ : BCtx} {t : Term} {J : Jdg}
    (h : STyped K Γ Δ t J) : (∀ i U, Δ i = some U → U.hasVar x = false) →
      ∀ T, J = .ty T → T.hasVar x = false := by
  have cons : ∀ {Δ : BCtx} {A : Term}, (∀ i U, Δ i = some U → U.hasVar x = false) →
      A.hasVar x = false → ∀ i U, BCtx.cons A Δ i = some U → U.hasVar x = false := by
    intro Δ A hΔ hA i U hU
    cases i with
    | zero => simp only [BCtx.cons, Option.some.injEq] at hU; subst hU; rw [hasVar_ren]; exact hA
    | succ i =>
      simp only [BCtx.cons, Option.map_eq_some_iff] at hU
      obtain ⟨V, h1, rfl⟩ := hU
      rw [hasVar_ren]; exact hΔ _ _ h1
  induction h with
  | fvar h _ => intro _ T e; cases e; exact hΓ _ _ h
  | bvar h => intro hΔ T e; cases e; exact hΔ _ _ h
  | sym _ _ h => intro _ T e; cases e; exact h.2 x
  | appVal _ _ _ _ ihf _ =>
    intro hΔ T e; cases e
    have := ihf hΔ _ rfl
    simp only [hasVar_bind, Bool.or_eq_false_iff, hasVar_ren] at this
    exact this.2
  | appTy _ ha k ihf _ =>
    intro hΔ T e; cases e
    have := ihf hΔ _ rfl
    simp only [hasVar_bind, Bool.or_eq_false_iff] at this
    exact hasVar_inst this.2 (type_no_var hx ha (.inr ⟨_, rfl, k⟩))
  | lam hA _ _ _ _ ihb =>
    intro hΔ T e; cases e
    have hA' := type_no_var hx hA (.inl rfl)
    simp only [hasVar_bind, hA', Bool.false_or]
    exact ihb (cons hΔ hA') _ rfl
  | all => intro _ T e; cases e; rfl
  | ex => intro _ T e; cases e; rfl
  | pi => intro _ T e; cases e; rfl
  | inst => intro _ T e; cases e; rfl
  | scheme => intro _ T e; cases e; rfl
  | extend => intro _ T e; cases e; rfl
  | forget => intro _ T e; cases e; rfl
  | tyType0 => intro _ T e; cases e
  | tyClass => intro _ T e; cases e
  | tyOf => intro _ T e; cases e
  | tyPi => intro _ T e; cases e

theorem GoodCtx.ordered (h : GoodCtx K n Γ) : CtxOrdered Γ := by
  intro i T hT j hj
  rcases Nat.lt_or_ge i n with hi | hi
  · rw [isKind_noVar (h.kind i T hi hT)] at hj; cases hj
  · have := (h.value i T hi hT).2.2 j hj
    have hl := h.le
    exact ⟨by omega, h.full j (by omega)⟩

theorem isKind_escapes {T : Term} (h : isKind T = true) : T.escapes = false := by
  cases T with
  | atom a => cases a <;> simp_all [isKind, escapes, escapesAt]
  | app _ _ => simp [isKind] at h
  | bind _ _ _ => simp [isKind] at h

theorem GoodCtx.closed (h : GoodCtx K n Γ) : CtxClosed Γ := by
  intro i T hT
  rcases Nat.lt_or_ge i n with hi | hi
  · exact isKind_escapes (h.kind i T hi hT)
  · exact (h.value i T hi hT).2.1

theorem GoodCtx.ok (h : GoodCtx K n Γ) : CtxOk Γ := ctxOk_of h.ordered h.closed

/-- A variable for a value does not occur in the types of the context. -/
theorem GoodCtx.no_var (h : GoodCtx K n Γ) {x : Nat} (hx : n ≤ x) {i : Nat} {U : Term}
    (hU : Γ.get i = some U) : U.hasVar x = false := by
  cases e : U.hasVar x with
  | false => rfl
  | true =>
    rcases Nat.lt_or_ge i n with hi | hi
    · rw [isKind_noVar (h.kind i U hi hU)] at e; cases e
    · have := (h.value i U hi hU).2.2 x e; omega

theorem GoodCtx.type_no_var (h : GoodCtx K n Γ) {x : Nat} (hx : n ≤ x) {t T : Term}
    (ht : SHasType K Γ t T) : T.hasVar x = false :=
  typeOf_no_var (fun U hU => (h.value x U hx hU).1) (fun _ _ hU => h.no_var hx hU) ht
    (fun _ _ e => by cases e) _ rfl

theorem GoodCtx.ty_no_var (h : GoodCtx K n Γ) {x : Nat} (hx : n ≤ x) {A : Term}
    (hA : STyped K Γ BCtx.nil A .isTy) : A.hasVar x = false :=
  Acorn.type_no_var (fun U hU => (h.value x U hx hU).1) hA (.inl rfl)

theorem get_take_of {i m : Nat} {T : Term} (h : Γ.get i = some T) (hi : i < m) :
    LCtx.get (Γ.take m) i = some T := by
  simp only [LCtx.get] at h ⊢
  rw [List.getElem?_take_of_lt hi]; exact h

/-- A closed term that only uses some variables is typed in the part of the context with these
variables. -/
theorem STyped.restrict {Δ : BCtx} {t : Term} {J : Jdg} (h : STyped K Γ Δ t J) {P : Nat → Prop}
    (hP : ∀ i T, Γ.get i = some T → P i → ∀ j, T.hasVar j = true → P j)
    (hG : ∀ i T, P i → Γ.get i = some T → Γ'.get i = some T) :
    (∀ j, t.hasVar j = true → P j) → STyped K Γ' Δ t J := by
  induction h with
  | @fvar Δ i T h h1 => intro hv; exact .fvar (hG _ _ (hv i (by simp [hasVar, atoms])) h) h1
  | bvar h => intro _; exact .bvar h
  | sym h1 h2 h3 => intro _; exact .sym h1 h2 h3
  | appVal _ _ h3 h4 ih1 ih2 =>
    intro hv
    exact .appVal (ih1 fun j hj => hv j (by simp [hasVar_app, hj])) (ih2 fun j hj => hv j (by simp [hasVar_app, hj])) h3 h4
  | appTy _ _ h3 ih1 ih2 =>
    intro hv
    exact .appTy (ih1 fun j hj => hv j (by simp [hasVar_app, hj])) (ih2 fun j hj => hv j (by simp [hasVar_app, hj])) h3
  | lam _ _ h3 h4 ih1 ih2 =>
    intro hv
    exact .lam (ih1 fun j hj => hv j (by simp [hasVar_bind, hj])) (ih2 fun j hj => hv j (by simp [hasVar_bind, hj])) h3 h4
  | all _ _ ih1 ih2 =>
    intro hv
    exact .all (ih1 fun j hj => hv j (by simp [hasVar_bind, hj])) (ih2 fun j hj => hv j (by simp [hasVar_bind, hj]))
  | ex _ _ ih1 ih2 =>
    intro hv
    exact .ex (ih1 fun j hj => hv j (by simp [hasVar_bind, hj])) (ih2 fun j hj => hv j (by simp [hasVar_bind, hj]))
  | pi _ _ ih1 ih2 =>
    intro hv
    exact .pi (ih1 fun j hj => hv j (by simp [hasVar_bind, hj])) (ih2 fun j hj => hv j (by simp [hasVar_bind, hj]))
  | inst h1 h2 => intro _; exact .inst h1 h2
  | @scheme Δ c sctx target φ hm hc hcl hφ _ ihφ iht =>
    intro hv
    refine .scheme φ hm hc hcl (fun i T hi => ihφ i T hi fun j hj => hv j ?_) (iht hv)
    exact hasVar_sub (hcl i T hi).2 hj _
  | extend _ h2 ih => intro hv; exact .extend (ih hv) h2
  | forget _ ih => intro hv; exact .forget (ih hv)
  | tyType0 => intro _; exact .tyType0
  | tyClass => intro _; exact .tyClass
  | tyOf _ ih => intro hv; exact .tyOf (ih hv)
  | tyPi _ _ ih1 ih2 =>
    intro hv
    exact .tyPi (ih1 fun j hj => hv j (by simp [hasVar_bind, hj])) (ih2 fun j hj => hv j (by simp [hasVar_bind, hj]))

theorem get_pushTy_inv {A T : Term} {i : Nat} (h : (Γ.pushTy A).get i = some T) :
    Γ.get i = some T ∨ (i = Γ.length ∧ T = A) := by
  simp only [LCtx.get, LCtx.pushTy] at h ⊢
  rcases Nat.lt_or_ge i Γ.length with hi | hi
  · rw [List.getElem?_append_left hi] at h; exact .inl h
  · rw [List.getElem?_append_right hi] at h
    cases e : i - Γ.length with
    | zero => rw [e] at h; simp at h; exact .inr ⟨by omega, h.symm⟩
    | succ k => rw [e] at h; simp at h

/-- A type that is not a kind only mentions type variables. -/
theorem GoodCtx.ty_lt (h : GoodCtx K n Γ) {A : Term} (hA : STyped K Γ BCtx.nil A .isTy) {j : Nat}
    (hj : A.hasVar j = true) : j < n := by
  rcases Nat.lt_or_ge j n with h1 | h1
  · exact h1
  · rw [h.ty_no_var h1 hA] at hj; cases hj

theorem GoodCtx.ty_take (h : GoodCtx K n Γ) {A : Term} (hA : STyped K Γ BCtx.nil A .isTy) :
    STyped K (Γ.take n) BCtx.nil A .isTy :=
  STyped.restrict hA (P := (· < n))
    (fun i T hT hi j hj => by rw [isKind_noVar (h.kind i T hi hT)] at hj; cases hj)
    (fun _ _ hi hT => get_take_of hT hi) fun _ hj => h.ty_lt hA hj

theorem GoodCtx.push (h : GoodCtx K n Γ) {A : Term} (hA : STyped K Γ BCtx.nil A .isTy)
    (kA : endsKind A = false) : GoodCtx K n (Γ.pushTy A) := by
  have hl := h.le
  have ht : (Γ.pushTy A).take n = Γ.take n := by
    rw [LCtx.pushTy, List.take_append_of_le_length hl]
  refine ⟨?_, ?_, ?_, ?_, ?_⟩
  · simp [LCtx.pushTy]; omega
  · intro i hi
    simp only [LCtx.pushTy, List.length_append, List.length_cons, List.length_nil] at hi
    rcases Nat.lt_or_ge i Γ.length with h1 | h1
    · obtain ⟨T, hT⟩ := Option.isSome_iff_exists.1 (h.full i h1)
      rw [get_pushTy hT]; rfl
    · have : i = Γ.length := by omega
      subst this; rw [get_pushTy_eq]; rfl
  · intro i T hi hT
    rcases get_pushTy_inv hT with h1 | ⟨h1, _⟩
    · exact h.kind i T hi h1
    · omega
  · intro i T hi hT
    rcases get_pushTy_inv hT with h1 | ⟨_, rfl⟩
    · exact h.value i T hi h1
    · exact ⟨kA, isTy_closed hA, fun j hj => h.ty_lt hA hj⟩
  · intro i T hi hT
    rw [ht]
    rcases get_pushTy_inv hT with h1 | ⟨_, rfl⟩
    · exact h.isTy i T hi h1
    · exact h.ty_take hA

/-- Types that are not kinds have elements. -/
theorem isTy_inhabited (L : Lawful K M) (hne : NoEmptyTypes M) {ρ : Nat → M.D} (hρ : Models M Γ ρ)
    (A : Term) : ∀ {Δ : BCtx}, STyped K Γ Δ A .isTy → endsKind A = false → ∀ β, BModels M Δ ρ β →
      ∃ d, M.mem d (eval M ρ β A) := by
  induction A with
  | atom a =>
    intro Δ h k β hβ
    rcases h.isTy_inv with h1 | h1 | ⟨A, B, h1, _⟩
    · rw [endsKind_of_isKind h1] at k; cases k
    · exact hne _ (h1.val_mem L hρ hβ)
    · cases h1
  | app f a _ _ =>
    intro Δ h k β hβ
    rcases h.isTy_inv with h1 | h1 | ⟨A, B, h1, _⟩
    · cases h1
    · exact hne _ (h1.val_mem L hρ hβ)
    · cases h1
  | bind b A B _ ihB =>
    intro Δ h k β hβ
    rcases h.isTy_inv with h1 | h1 | ⟨A', B', h1, h2, h3⟩
    · cases h1
    · exact hne _ (h1.val_mem L hρ hβ)
    · cases h1
      have hc : ∀ d, M.mem d (eval M ρ β A) → ∃ c, M.mem c (eval M ρ (push d β) B) :=
        fun d hd => ihB h3 k _ (hβ.cons hd)
      classical
      let g : M.D → M.D := fun d => if h : M.mem d (eval M ρ β A) then (hc d h).choose else d
      refine ⟨M.bind .lam (eval M ρ β A) g, ?_⟩
      simp only [eval]
      rw [L.mem_pi]
      refine ⟨L.bind_congr _ _ _ _ fun a ha => L.beta _ _ _ ha, fun a ha => ?_⟩
      rw [L.beta _ _ _ ha]
      simp only [g, dif_pos ha]
      exact (hc a ha).choose_spec

/-- Assignments agree on the variables of a context. -/
def Agree (Γ : LCtx) (ρ ρ' : Nat → M.D) : Prop := ∀ i, i < Γ.length → ρ' i = ρ i

theorem Agree.refl {ρ : Nat → M.D} : Agree Γ ρ ρ := fun _ _ => rfl
theorem Agree.trans {ρ ρ' ρ'' : Nat → M.D} (h : Agree Γ ρ ρ') (h' : Agree Γ' ρ' ρ'')
    (hl : Γ.length ≤ Γ'.length) : Agree Γ ρ ρ'' :=
  fun i hi => (h' i (by omega)).trans (h i hi)

theorem STyped.lt {Δ : BCtx} {t : Term} {J : Jdg} (h : STyped K Γ Δ t J) {i : Nat}
    (hi : t.hasVar i = true) : i < Γ.length := by
  obtain ⟨T, hT⟩ := Option.isSome_iff_exists.1 (h.declared hi)
  exact get_lt hT

theorem Agree.eval {ρ ρ' : Nat → M.D} (h : Agree Γ ρ ρ') {Δ : BCtx} {t : Term} {J : Jdg}
    (ht : STyped K Γ Δ t J) (β : Nat → M.D) : eval M ρ' β t = eval M ρ β t :=
  eval_fvars M t _ _ _ fun i hi => h i (STyped.lt ht hi)

theorem Agree.lits {ρ ρ' : Nat → M.D} (h : Agree Γ ρ ρ') {ls : List Literal}
    (ht : LitsTyped K Γ ls) (β : Nat → M.D) : LitsHold M ρ' β ls ↔ LitsHold M ρ β ls := by
  have key : ∀ l ∈ ls, (LitHolds M ρ' β l ↔ LitHolds M ρ β l) := by
    intro l hl
    obtain ⟨T, h1, h2⟩ := ht l hl
    simp only [LitHolds, h.eval h1, h.eval h2]
  exact ⟨fun ⟨l, hl, h⟩ => ⟨l, hl, (key l hl).1 h⟩, fun ⟨l, hl, h⟩ => ⟨l, hl, (key l hl).2 h⟩⟩

/-- A longer context. -/
def Ctx.Le (Γ Γ' : LCtx) : Prop := Γ <+: Γ'

theorem Ctx.Le.get (h : Ctx.Le Γ Γ') {i : Nat} {T : Term} (hT : Γ.get i = some T) :
    Γ'.get i = some T := by
  obtain ⟨r, rfl⟩ := h
  have := get_lt hT
  simp only [LCtx.get] at hT ⊢
  rw [List.getElem?_append_left this]; exact hT

theorem Ctx.Le.refl : Ctx.Le Γ Γ := List.prefix_rfl
theorem Ctx.Le.trans {Γ'' : LCtx} (h : Ctx.Le Γ Γ') (h' : Ctx.Le Γ' Γ'') : Ctx.Le Γ Γ'' :=
  List.IsPrefix.trans h h'
theorem Ctx.Le.push (A : Term) : Ctx.Le Γ (Γ.pushTy A) := ⟨_, rfl⟩
theorem Ctx.Le.length (h : Ctx.Le Γ Γ') : Γ.length ≤ Γ'.length := h.length_le
theorem Ctx.Le.models (h : Ctx.Le Γ Γ') {ρ : Nat → M.D} (hρ : Models M Γ' ρ) : Models M Γ ρ :=
  fun i T hT => hρ i T (h.get hT)
theorem Ctx.Le.typed (h : Ctx.Le Γ Γ') {Δ : BCtx} {t : Term} {J : Jdg} (ht : STyped K Γ Δ t J) :
    STyped K Γ' Δ t J := ht.weaken fun _ _ hT => h.get hT
theorem Ctx.Le.lits (h : Ctx.Le Γ Γ') {ls : List Literal} (ht : LitsTyped K Γ ls) :
    LitsTyped K Γ' ls := fun l hl => (ht l hl).imp fun _ h1 => ⟨h.typed h1.1, h.typed h1.2⟩

/-- Changing the value of a variable for a value. -/
theorem GoodCtx.models_set (hg : GoodCtx K n Γ) {ρ : Nat → M.D} (hρ : Models M Γ ρ) {x : Nat}
    (hx : n ≤ x) {A : Term} (hA : Γ.get x = some A) {d : M.D} (hd : ∀ β, M.mem d (eval M ρ β A)) :
    Models M Γ (setAt ρ x d) := by
  intro i T hT β
  have e : eval M (setAt ρ x d) β T = eval M ρ β T := by
    refine eval_fvars M T _ _ _ fun j hj => ?_
    have : j ≠ x := by rintro rfl; rw [hg.no_var hx hT] at hj; cases hj
    simp [setAt, this]
  rw [e]
  by_cases h : i = x
  · subst h
    rw [hA] at hT; cases hT
    simp only [setAt, if_true]; exact hd β
  · simp only [setAt, h, if_false]; exact hρ i T hT β

/-- An assignment for a context extends to a longer one when no type is empty. -/
theorem GoodCtx.extend (L : Lawful K M) (hne : NoEmptyTypes M) (hg : GoodCtx K n Γ')
    (hle : Ctx.Le Γ Γ') (hn : n ≤ Γ.length) {ρ : Nat → M.D} (hρ : Models M Γ ρ) :
    ∃ ρ', Models M Γ' ρ' ∧ Agree Γ ρ ρ' := by
  classical
  have inh : ∀ i, ∃ d, ∀ T, n ≤ i → Γ'.get i = some T → ∀ β, M.mem d (eval M ρ β T) := by
    intro i
    cases e : Γ'.get i with
    | none => exact ⟨ρ 0, fun T _ h => by cases h⟩
    | some T =>
      by_cases hi : n ≤ i
      · have hm : Models M (Γ'.take n) ρ := by
          intro j U hU
          obtain ⟨h1, h2⟩ := get_take hU
          apply hρ j U
          obtain ⟨r, rfl⟩ := hle
          simp only [LCtx.get] at h2 ⊢
          rwa [List.getElem?_append_left (by omega)] at h2
        obtain ⟨d, hd⟩ := isTy_inhabited L hne hm T (hg.isTy i T hi e) (hg.value i T hi e).1 ρ bmodels_nil
        refine ⟨d, fun U _ h β => ?_⟩
        cases h
        rw [eval_closed M ρ β ρ T (hg.value i T hi e).2.1]; exact hd
      · exact ⟨ρ 0, fun T h => absurd h hi⟩
  let ρ' : Nat → M.D := fun i => if i < Γ.length then ρ i else (inh i).choose
  have ha : Agree Γ ρ ρ' := fun i hi => by simp [ρ', hi]
  refine ⟨ρ', ?_, ha⟩
  intro i T hT β
  have e : eval M ρ' β T = eval M ρ β T := by
    refine eval_fvars M T _ _ _ fun j hj => ?_
    rcases Nat.lt_or_ge i n with h1 | h1
    · rw [isKind_noVar (hg.kind i T h1 hT)] at hj; cases hj
    · have := (hg.value i T h1 hT).2.2 j hj
      exact ha j (by omega)
  rw [e]
  rcases Nat.lt_or_ge i Γ.length with h1 | h1
  · rw [ha i h1]
    apply hρ i T
    obtain ⟨r, rfl⟩ := hle
    simp only [LCtx.get] at hT ⊢
    rwa [List.getElem?_append_left h1] at hT
  · simp only [ρ', Nat.not_lt.2 h1, if_false]
    exact (inh i).choose_spec T (by omega) hT β

/-! ### Normalizing a clause over such a context -/

theorem vmap_id {g : Nat → Nat} {t : Term} (h : ∀ j, t.hasVar j = true → g j = j) :
    Term.vmap g t = t := by
  rw [vmap_congr t (h := id) h]
  clear h
  induction t with
  | atom a => cases a <;> rfl
  | app f a ihf iha => rw [vmap_app, ihf, iha]
  | bind b f a ihf iha => rw [vmap_bind, ihf, iha]

theorem idxOf_range {ids : List Nat} (h : List.range n <+: ids) {j : Nat} (hj : j < n) :
    ids.idxOf j = j := by
  rw [idxOf_prefix h (by simpa using hj)]
  have := (List.nodup_range (n := n)).idxOf_getElem j (by simpa using hj)
  simpa using this

theorem getElem_range {ids : List Nat} (h : List.range n <+: ids) {j : Nat} (hj : j < n) :
    ids[j]? = some j := by
  obtain ⟨r, rfl⟩ := h
  rw [List.getElem?_append_left (by simpa using hj)]
  simp [hj]

theorem GoodCtx.vars_lt (h : GoodCtx K n Γ) {i : Nat} {T : Term} (hT : Γ.get i = some T) {j : Nat}
    (hj : T.hasVar j = true) : j < n := by
  rcases Nat.lt_or_ge i n with h1 | h1
  · rw [isKind_noVar (h.kind i T h1 hT)] at hj; cases hj
  · exact (h.value i T h1 hT).2.2 j hj

theorem list_ext_get {Γ Γ' : LCtx} (hl : Γ.length = Γ'.length) (hf : ∀ i, i < Γ.length → (Γ.get i).isSome)
    (h : ∀ i T, Γ.get i = some T → Γ'.get i = some T) : Γ = Γ' := by
  apply List.ext_getElem hl
  intro i h1 h2
  obtain ⟨T, hT⟩ := Option.isSome_iff_exists.1 (hf i h1)
  have hT' := h i T hT
  simp only [LCtx.get, List.getElem?_eq_getElem h1, List.getElem?_eq_getElem h2,
    Option.join_some, id] at hT hT'
  rw [hT, hT']

theorem GoodCtx.remap (h : GoodCtx K n Γ) {ids : List Nat} (hp : List.range n <+: ids)
    (nd : ids.Nodup) (e : Γ.remap ids = some Γ') : GoodCtx K n Γ' ∧ Γ'.take n = Γ.take n := by
  obtain ⟨s1, s2⟩ := remap_spec e
  have hlen : n ≤ ids.length := by simpa using hp.length_le
  have key : ∀ k T, Γ'.get k = some T → ∃ i, ids[k]? = some i ∧ Γ.get i = some T := by
    intro k T hk
    have hlt : k < ids.length := s1 ▸ get_lt hk
    obtain ⟨U, hU, _, hU'⟩ := s2 k ids[k] (List.getElem?_eq_getElem hlt)
    rw [hk] at hU'
    refine ⟨ids[k], List.getElem?_eq_getElem hlt, ?_⟩
    cases hU'
    rw [Term.byIds, vmap_id fun j hj => idxOf_range hp (h.vars_lt hU hj)]
    exact hU
  have ge : ∀ k i, ids[k]? = some i → n ≤ k → n ≤ i := by
    intro k i hk hn
    rcases Nat.lt_or_ge i n with h1 | h1
    · have h2 := getElem_range hp h1
      have : k = i := by
        have hk' : k < ids.length := by
          rcases Nat.lt_or_ge k ids.length with h | h
          · exact h
          · rw [List.getElem?_eq_none h] at hk; cases hk
        have hi' : i < ids.length := by omega
        rw [List.getElem?_eq_getElem hk'] at hk
        rw [List.getElem?_eq_getElem hi'] at h2
        have e1 := nd.idxOf_getElem k hk'
        have e2 := nd.idxOf_getElem i hi'
        rw [Option.some.inj hk] at e1
        rw [Option.some.inj h2] at e2
        exact e1.symm.trans e2
      omega
    · exact h1
  have full' : ∀ i, i < Γ'.length → (Γ'.get i).isSome = true := by
    intro k hk
    obtain ⟨U, _, _, hU'⟩ := s2 k _ (List.getElem?_eq_getElem (s1 ▸ hk : k < ids.length))
    rw [hU']; rfl
  have ht : Γ'.take n = Γ.take n := by
    apply list_ext_get
    · simp only [List.length_take, s1]; have := h.le; omega
    · intro i hi
      simp only [List.length_take] at hi
      obtain ⟨T, hT⟩ := Option.isSome_iff_exists.1 (full' i (by omega))
      rw [get_take_of hT (by omega)]; rfl
    · intro i T hT
      obtain ⟨h1, h2⟩ := get_take hT
      obtain ⟨j, hj, hj'⟩ := key i T h2
      rw [getElem_range hp h1] at hj
      cases hj
      exact get_take_of hj' h1
  refine ⟨⟨s1 ▸ hlen, full', ?_, ?_, ?_⟩, ht⟩
  · intro i T hi hT
    obtain ⟨j, hj, hj'⟩ := key i T hT
    rw [getElem_range hp hi] at hj
    cases hj
    exact h.kind _ _ hi hj'
  · intro i T hi hT
    obtain ⟨j, hj, hj'⟩ := key i T hT
    exact h.value j T (ge i j hj hi) hj'
  · intro i T hi hT
    obtain ⟨j, hj, hj'⟩ := key i T hT
    rw [ht]
    exact h.isTy j T (ge i j hj hi) hj'

theorem GoodCtx.varsInhabited (L : Lawful K M) (hne : NoEmptyTypes M) (h : GoodCtx K n Γ) :
    VarsInhabited M Γ (n ≤ ·) := by
  intro i T hT hi ρ hρ
  have hm : Models M (Γ.take n) ρ := by
    intro j U hU
    obtain ⟨h1, h2⟩ := get_take hU
    exact hρ j U (get_take_of h2 (by omega))
  obtain ⟨d, hd⟩ := isTy_inhabited L hne hm T (h.isTy i T hi hT) (h.value i T hi hT).1 ρ bmodels_nil
  exact ⟨d, fun β => by rw [eval_closed M ρ β ρ T (h.value i T hi hT).2.1]; exact hd⟩

theorem normVarsPinned_prefix {ls : List Literal} {c : Clause} {ids : List Nat}
    (e : Clause.normVarsPinned ⟨ls, Γ⟩ n = some (c, ids)) : List.range n <+: ids ∧
      ∀ l ∈ ls, ∀ i, l.left.hasVar i = true ∨ l.right.hasVar i = true → i ∈ ids := by
  simp only [Clause.normVarsPinned] at e
  cases e1 : litsNormVars Γ (List.range n) ls with
  | none => simp [e1] at e
  | some r1 =>
    obtain ⟨ls1, ids1⟩ := r1
    cases e2 : Γ.remap ids1 with
    | none => simp [e1, e2] at e
    | some Γ' =>
      simp [e1, e2] at e
      obtain ⟨rfl, rfl⟩ := e
      exact ⟨(litsNormVars_spec ls e1).1, (litsNormVars_spec ls e1).2.1⟩

theorem normVarsPinned_hold {ls : List Literal} {c : Clause} {ids : List Nat} {τ σ : Nat → M.D}
    (e : Clause.normVarsPinned ⟨ls, Γ⟩ n = some (c, ids)) (a : ∀ i ∈ ids, τ i = σ (ids.idxOf i))
    (β : Nat → M.D) : LitsHold M σ β c.lits ↔ LitsHold M τ β ls := by
  have hl := normVarsPinned_lits e
  have hv := (normVarsPinned_prefix e).2
  have ev : ∀ t : Term, (∀ i, t.hasVar i = true → i ∈ ids) →
      eval M σ β (t.byIds ids) = eval M τ β t := by
    intro t ht
    rw [Term.byIds, eval_vmap]
    exact eval_fvars M t _ _ _ fun i hi => (a i (ht i hi)).symm
  have lit : ∀ l ∈ ls, (LitHolds M σ β (Literal.new l.positive (l.left.byIds ids)
      (l.right.byIds ids)) ↔ LitHolds M τ β l) := by
    intro l hl
    rw [litHolds_new]
    simp only [LitHolds]
    rw [ev _ fun i hi => hv l hl i (Or.inl hi), ev _ fun i hi => hv l hl i (Or.inr hi)]
  rw [hl]
  simp only [LitsHold, List.mem_map]
  constructor
  · rintro ⟨_, ⟨l, hl, rfl⟩, hh⟩; exact ⟨l, hl, (lit l hl).1 hh⟩
  · rintro ⟨l, hl, hh⟩; exact ⟨_, ⟨l, hl, rfl⟩, (lit l hl).2 hh⟩

/-- Normalizing a clause whose type variables are pinned succeeds and keeps its meaning. -/
theorem GoodCtx.normalize (L : Lawful K M) (hne : NoEmptyTypes M) (hg : GoodCtx K n Γ)
    {ls : List Literal} (h : LitsTyped K Γ ls) :
    ∃ c, Clause.normalizePinned ⟨ls, Γ⟩ n = some c ∧
      ((∀ ρ, Models M Γ ρ → ∀ β, LitsHold M ρ β ls) ↔ ClauseTrue M c) := by
  have hn : ∀ i, i < n → (Γ.get i).isSome = true := fun i hi => hg.full i (by have := hg.le; omega)
  obtain ⟨c, e⟩ := normalizePinned_total hg.ordered h.declared hn
  refine ⟨c, e, ?_, ?_⟩
  · intro H σ hσ β
    obtain ⟨c1, ids1, c2, ids2, e1, e2, rfl⟩ := normalizePinned_parts e
    obtain ⟨r1, nd1⟩ := normVarsPinned_remap e1
    obtain ⟨r2, nd2⟩ := normVarsPinned_remap e2
    have p1 := (normVarsPinned_prefix e1).1
    have p2 := (normVarsPinned_prefix e2).1
    obtain ⟨g1, _⟩ := hg.remap p1 nd1 r1
    have inh : ∀ {Γ : LCtx} {ids : List Nat}, List.range n <+: ids → GoodCtx K n Γ →
        VarsInhabited M Γ (· ∉ ids) := by
      intro Γ ids hp g i T hT hi
      refine g.varsInhabited L hne i T hT ?_
      rcases Nat.lt_or_ge i n with h | h
      · exact absurd (hp.subset (List.mem_range.2 h)) hi
      · exact h
    obtain ⟨ρ1, m1, a1⟩ := extend_assignment nd2 r2 g1.ordered (inh p2 g1) hσ
    obtain ⟨ρ, m, a⟩ := extend_assignment nd1 r1 hg.ordered (inh p1 hg) m1
    obtain ⟨t1, h1⟩ := litsPass_spec L m h
    obtain ⟨t2, _, _⟩ := normVarsPinned_spec (K := K) m e1
    obtain ⟨t3, h3⟩ := litsPass_spec L m1 (t2 t1)
    rw [dedupSort_hold, normVarsPinned_hold e2 a1, h3 β, normVarsPinned_hold e1 a, h1 β]
    exact H ρ m β
  · intro H ρ hρ β
    obtain ⟨f, hf⟩ := normalizePinned_spec e
    obtain ⟨_, m, hh⟩ := hf L h ρ hρ
    exact (hh β).1 (H _ m β)

theorem TypeVars.get {tys : List Term} {i : Nat} {T : Term} : (TypeVars tys).get i = some T ↔
    tys[i]? = some T := by
  simp only [LCtx.get, TypeVars, List.getElem?_map]
  cases tys[i]? <;> simp

/-- The context of the type variables. -/
theorem GoodCtx.typeVars {tys : List Term} (h : ∀ T ∈ tys, isKind T = true) :
    GoodCtx K tys.length (TypeVars tys) := by
  refine ⟨by simp [TypeVars], ?_, ?_, ?_, ?_⟩
  · intro i hi
    simp [TypeVars] at hi
    rw [TypeVars.get.2 (List.getElem?_eq_getElem hi)]; rfl
  · intro i T _ hT
    exact h T (List.mem_of_getElem? (TypeVars.get.1 hT))
  · intro i T hi hT
    have := get_lt hT
    simp [TypeVars] at this; omega
  · intro i T hi hT
    have := get_lt hT
    simp [TypeVars] at this; omega

end Acorn
