/-
Typing lemmas: values of well-typed terms, substitution, uniqueness of types.
-/
import Verif.Spec.Typing
namespace Acorn
namespace Spec
open Term

/-- `β` respects the types of the bound variables in scope. -/
def BModels (M : Interp.{u}) (Δ : BCtx) (ρ β : Nat → M.D) : Prop :=
  ∀ i T, Δ i = some T → M.mem (β i) (eval M ρ β T)

theorem BModels.nil (M : Interp.{u}) (ρ β : Nat → M.D) : BModels M BCtx.nil ρ β := by
  intro i T h; cases h

theorem BModels.cons {M : Interp.{u}} {Δ : BCtx} {ρ β : Nat → M.D} {A : Term} {d : M.D}
    (h : BModels M Δ ρ β) (hd : M.mem d (eval M ρ β A)) :
    BModels M (BCtx.cons A Δ) ρ (push d β) := by
  intro i T hi
  cases i with
  | zero =>
    simp only [BCtx.cons, Option.some.injEq] at hi
    subst hi
    rw [eval_ren]
    exact hd
  | succ i =>
    simp only [BCtx.cons, Option.map_eq_some_iff] at hi
    obtain ⟨T', h1, rfl⟩ := hi
    rw [eval_ren]
    exact h i T' h1

/-- Values of well-typed terms inhabit the values of their types. -/
theorem Typed.mem {K : KCtx} {Γ : LCtx} {M : Interp.{u}} (L : Lawful K M) {ρ : Nat → M.D}
    (hρ : Models M Γ ρ) {Δ : BCtx} {t : Term} {J : Jdg} (h : Typed K Γ Δ t J) :
    ∀ β, BModels M Δ ρ β → match J with
      | .ty T => M.mem (eval M ρ β t) (eval M ρ β T)
      | .isTy => True := by
  induction h with
  | fvar h1 h2 => intro β hβ; exact hρ _ _ h1 β
  | bvar h1 => intro β hβ; exact hβ _ _ h1
  | sym h1 h2 h3 => intro β hβ; exact L.sym_type _ _ h1 h2 h3 ρ β
  | app hf ha ihf iha =>
    intro β hβ
    have h1 := ihf β hβ
    have h2 := iha β hβ
    simp only [eval] at h1 h2 ⊢
    rw [eval_inst_zero]
    exact ((L.mem_pi _ _ _).1 h1).2 _ h2
  | lam hA hb hk ihA ihb =>
    intro β hβ
    simp only [eval]
    rw [L.mem_pi]
    refine ⟨?_, ?_⟩
    · apply L.bind_congr
      intro a ha
      exact L.beta _ _ _ ha
    · intro a ha
      rw [L.beta _ _ _ ha]
      exact ihb _ (hβ.cons ha)
  | all hA hb ihA ihb =>
    intro β hβ
    exact L.all_bool _ _ (fun a ha => ihb _ (hβ.cons ha))
  | ex hA hb ihA ihb =>
    intro β hβ
    exact L.ex_bool _ _ (fun a ha => ihb _ (hβ.cons ha))
  | pi hA hB ihA ihB =>
    intro β hβ
    exact L.pi_small _ _ (ihA β hβ) (fun a ha => ihB _ (hβ.cons ha))
  | inst h h2 => intro β hβ; exact L.class_inst _ _ _ h h2
  | scheme φ hm hc hcl hφ ht ih iht =>
    intro β hβ
    simp only [eval_sub]
    refine L.class_scheme _ _ _ hm _ ?_ _
    intro i T hT γ
    have h1 := ih i T hT β hβ
    simp only [eval_sub] at h1
    rw [eval_closed M _ γ _ T (hcl i T hT)]
    exact h1
  | extend h he ih => intro β hβ; exact L.class_extends _ _ he _ (ih β hβ)
  | forget h ih => intro β hβ; exact L.class_type0 _ _ _ (ih β hβ)
  | tyType0 => intro β hβ; trivial
  | tyClass => intro β hβ; trivial
  | tyOf h ih => intro β hβ; trivial
  | tyPi hA hB ihA ihB => intro β hβ; trivial

theorem HasType.mem {K : KCtx} {Γ : LCtx} {M : Interp.{u}} (L : Lawful K M) {ρ : Nat → M.D}
    (hρ : Models M Γ ρ) {t T : Term} (h : HasType K Γ t T) (β : Nat → M.D) :
    M.mem (eval M ρ β t) (eval M ρ β T) :=
  Typed.mem L hρ h β (BModels.nil M ρ β)

/-! ### Substitution -/

/-- Apply a substitution to a judgement. -/
def Jdg.sub (φ σ : Nat → Term) : Jdg → Jdg
  | .ty T => .ty (Term.sub φ σ T)
  | .isTy => .isTy

/-- Rename a judgement. -/
def Jdg.ren (r : Nat → Nat) : Jdg → Jdg
  | .ty T => .ty (Term.ren r T)
  | .isTy => .isTy

/-- `r` maps the variables of `Δ` to variables of `Δ'` of the renamed type. -/
def RenOk (r : Nat → Nat) (Δ Δ' : BCtx) : Prop :=
  ∀ i T, Δ i = some T → Δ' (r i) = some (Term.ren r T)

theorem RenOk.cons {r : Nat → Nat} {Δ Δ' : BCtx} (A : Term) (h : RenOk r Δ Δ') :
    RenOk (upr r) (BCtx.cons A Δ) (BCtx.cons (Term.ren r A) Δ') := by
  intro i T hi
  cases i with
  | zero =>
    simp only [BCtx.cons, Option.some.injEq] at hi
    subst hi
    simp only [upr, BCtx.cons, ren_ren]
    rfl
  | succ i =>
    simp only [BCtx.cons, Option.map_eq_some_iff] at hi
    obtain ⟨T', h1, rfl⟩ := hi
    simp only [upr, BCtx.cons, h i T' h1, Option.map_some, ren_ren]
    rfl

theorem RenOk.succ (A : Term) (Δ : BCtx) : RenOk Nat.succ Δ (BCtx.cons A Δ) := by
  intro i T hi
  simp [BCtx.cons, hi]

theorem ren_inst (r : Nat → Nat) (a B : Term) :
    Term.ren r (inst 0 a B) = inst 0 (Term.ren r a) (Term.ren (upr r) B) := by
  have h := sub_inst fid (fun i => bvar (r i)) a B
  rw [lift_fid] at h
  have h2 : ups (fun i => bvar (r i)) = (fun i => bvar (upr r i)) := by
    funext i; cases i <;> rfl
  rw [h2, ← ren_eq_sub, ← ren_eq_sub, ← ren_eq_sub] at h
  exact h

theorem ren_ground (r : Nat → Nat) (t : Term) (h : t.Ground) : Term.ren r t = t :=
  ren_closed r t h.1

theorem isKind_ren (r : Nat → Nat) (t : Term) : isKind (Term.ren r t) = isKind t := by
  cases t with
  | atom a => cases a <;> rfl
  | _ => rfl

theorem Typed.ren {K : KCtx} {Γ : LCtx} {Δ : BCtx} {t : Term} {J : Jdg} (h : Typed K Γ Δ t J) :
    ∀ (r : Nat → Nat) (Δ' : BCtx), RenOk r Δ Δ' → Typed K Γ Δ' (Term.ren r t) (J.ren r) := by
  induction h with
  | fvar h1 h2 =>
    intro r Δ' hr
    simp only [Term.ren, Jdg.ren, ren_closed r _ h2]
    exact .fvar h1 h2
  | bvar h1 => intro r Δ' hr; exact .bvar (hr _ _ h1)
  | sym h1 h2 h3 =>
    intro r Δ' hr
    simp only [Term.ren, Jdg.ren, ren_ground r _ h3]
    exact .sym h1 h2 h3
  | app hf ha ihf iha =>
    intro r Δ' hr
    simp only [Term.ren, Jdg.ren, ren_inst]
    exact .app (ihf r Δ' hr) (iha r Δ' hr)
  | lam hA hb hk ihA ihb =>
    intro r Δ' hr
    exact .lam (ihA r Δ' hr) (ihb _ _ (hr.cons _)) (by rw [isKind_ren]; exact hk)
  | all hA hb ihA ihb =>
    intro r Δ' hr
    exact .all (ihA r Δ' hr) (ihb _ _ (hr.cons _))
  | ex hA hb ihA ihb =>
    intro r Δ' hr
    exact .ex (ihA r Δ' hr) (ihb _ _ (hr.cons _))
  | pi hA hB ihA ihB =>
    intro r Δ' hr
    exact .pi (ihA r Δ' hr) (ihB _ _ (hr.cons _))
  | inst h h' => intro r Δ' hr; exact .inst h h'
  | scheme φ hm hc hcl hφ ht ih iht =>
    intro r Δ' hr
    have e : ∀ T : Term, T.escapes = false →
        Term.ren r (Term.sub φ bid T) = Term.sub (fun i => Term.ren r (φ i)) bid T := by
      intro T hT
      rw [ren_sub]
      exact sub_closed _ _ _ T hT
    simp only [Jdg.ren, e _ hc]
    refine .scheme _ hm hc hcl ?_ ?_
    · intro i T hT
      have := ih i T hT r Δ' hr
      simp only [Jdg.ren, e _ (hcl i T hT)] at this
      exact this
    · have := iht r Δ' hr
      rw [e _ hc] at this
      exact this
  | extend h he ih => intro r Δ' hr; exact .extend (ih r Δ' hr) he
  | forget h ih => intro r Δ' hr; exact .forget (ih r Δ' hr)
  | tyType0 => intro r Δ' hr; exact .tyType0
  | tyClass => intro r Δ' hr; exact .tyClass
  | tyOf h ih => intro r Δ' hr; exact .tyOf (ih r Δ' hr)
  | tyPi hA hB ihA ihB =>
    intro r Δ' hr
    exact .tyPi (ihA r Δ' hr) (ihB _ _ (hr.cons _))

/-- `φ, σ` map the variables of `Γ, Δ` to terms over `Γ', Δ'` of the substituted types. -/
structure SubOk (K : KCtx) (φ σ : Nat → Term) (Γ : LCtx) (Δ : BCtx) (Γ' : LCtx) (Δ' : BCtx) :
    Prop where
  free : ∀ i T, Γ.get i = some T → T.escapes = false →
    Typed K Γ' Δ' (φ i) (.ty (Term.sub φ σ T))
  bound : ∀ i T, Δ i = some T → Typed K Γ' Δ' (σ i) (.ty (Term.sub φ σ T))
  freeKind : ∀ i, isKind (φ i) = false
  boundKind : ∀ i, isKind (σ i) = false

theorem isKind_sub {K : KCtx} {φ σ : Nat → Term} {Γ Γ' : LCtx} {Δ Δ' : BCtx}
    (h : SubOk K φ σ Γ Δ Γ' Δ') {t : Term} (ht : isKind t = false) :
    isKind (Term.sub φ σ t) = false := by
  cases t with
  | atom a =>
    cases a with
    | fvar i => exact h.freeKind i
    | bvar i => exact h.boundKind i
    | sym s => exact ht
  | _ => rfl

theorem SubOk.cons {K : KCtx} {φ σ : Nat → Term} {Γ Γ' : LCtx} {Δ Δ' : BCtx} (A : Term)
    (h : SubOk K φ σ Γ Δ Γ' Δ') :
    SubOk K (lift φ) (ups σ) Γ (BCtx.cons A Δ) Γ' (BCtx.cons (Term.sub φ σ A) Δ') := by
  refine ⟨?_, ?_, ?_, ?_⟩
  · intro i T hi hT
    have h1 := (h.free i T hi hT).ren Nat.succ _ (RenOk.succ (Term.sub φ σ A) Δ')
    simp only [Jdg.ren] at h1
    rw [← sub_lift, ren_closed _ T hT] at h1
    exact h1
  · intro i T hi
    cases i with
    | zero =>
      simp only [BCtx.cons, Option.some.injEq] at hi
      subst hi
      rw [sub_lift]
      exact .bvar rfl
    | succ i =>
      simp only [BCtx.cons, Option.map_eq_some_iff] at hi
      obtain ⟨T', h1, rfl⟩ := hi
      rw [sub_lift]
      exact (h.bound i T' h1).ren Nat.succ _ (RenOk.succ (Term.sub φ σ A) Δ')
  · intro i; simp only [lift, isKind_ren]; exact h.freeKind i
  · intro i
    cases i with
    | zero => rfl
    | succ i => simp only [ups, isKind_ren]; exact h.boundKind i

theorem Typed.sub {K : KCtx} {Γ Γ' : LCtx} {Δ : BCtx} {t : Term} {J : Jdg}
    (h : Typed K Γ Δ t J) : ∀ (φ σ : Nat → Term) (Δ' : BCtx), SubOk K φ σ Γ Δ Γ' Δ' →
      Typed K Γ' Δ' (Term.sub φ σ t) (J.sub φ σ) := by
  induction h with
  | fvar h1 h2 => intro φ σ Δ' hs; exact hs.free _ _ h1 h2
  | bvar h1 => intro φ σ Δ' hs; exact hs.bound _ _ h1
  | sym h1 h2 h3 =>
    intro φ σ Δ' hs
    simp only [Term.sub, Jdg.sub, sub_ground φ σ _ h3]
    exact .sym h1 h2 h3
  | app hf ha ihf iha =>
    intro φ σ Δ' hs
    simp only [Term.sub, Jdg.sub, sub_inst]
    exact .app (ihf φ σ Δ' hs) (iha φ σ Δ' hs)
  | lam hA hb hk ihA ihb =>
    intro φ σ Δ' hs
    exact .lam (ihA φ σ Δ' hs) (ihb _ _ _ (hs.cons _)) (isKind_sub (hs.cons .tt) hk)
  | all hA hb ihA ihb =>
    intro φ σ Δ' hs
    exact .all (ihA φ σ Δ' hs) (ihb _ _ _ (hs.cons _))
  | ex hA hb ihA ihb =>
    intro φ σ Δ' hs
    exact .ex (ihA φ σ Δ' hs) (ihb _ _ _ (hs.cons _))
  | pi hA hB ihA ihB =>
    intro φ σ Δ' hs
    exact .pi (ihA φ σ Δ' hs) (ihB _ _ _ (hs.cons _))
  | inst h h' => intro φ σ Δ' hs; exact .inst h h'
  | scheme ψ hm hc hcl hψ ht ih iht =>
    intro φ σ Δ' hs
    have e : ∀ T : Term, T.escapes = false →
        Term.sub φ σ (Term.sub ψ bid T) = Term.sub (fun i => Term.sub φ σ (ψ i)) bid T := by
      intro T hT
      rw [sub_sub]
      exact sub_closed _ _ _ T hT
    simp only [Jdg.sub, e _ hc]
    refine .scheme _ hm hc hcl ?_ ?_
    · intro i T hT
      have := ih i T hT φ σ Δ' hs
      simp only [Jdg.sub, e _ (hcl i T hT)] at this
      exact this
    · have := iht φ σ Δ' hs
      rw [e _ hc] at this
      exact this
  | extend h he ih => intro φ σ Δ' hs; exact .extend (ih φ σ Δ' hs) he
  | forget h ih => intro φ σ Δ' hs; exact .forget (ih φ σ Δ' hs)
  | tyType0 => intro φ σ Δ' hs; exact .tyType0
  | tyClass => intro φ σ Δ' hs; exact .tyClass
  | tyOf h ih => intro φ σ Δ' hs; exact .tyOf (ih φ σ Δ' hs)
  | tyPi hA hB ihA ihB =>
    intro φ σ Δ' hs
    exact .tyPi (ihA φ σ Δ' hs) (ihB _ _ _ (hs.cons _))

/-- Kinds have no type. -/
theorem Typed.not_kind {K : KCtx} {Γ : LCtx} {Δ : BCtx} {t : Term} {J : Jdg}
    (h : Typed K Γ Δ t J) : ∀ T, J = .ty T → isKind t = false := by
  induction h with
  | sym h1 _ _ => intro T _; exact h1
  | inst _ _ => intro T _; rfl
  | scheme φ hm hc hcl hφ ht ih iht => intro T _; exact iht _ rfl
  | extend _ _ ih => intro T _; exact ih _ rfl
  | forget _ ih => intro T _; exact ih _ rfl
  | tyType0 => rintro T ⟨⟩
  | tyClass => rintro T ⟨⟩
  | tyOf _ _ => rintro T ⟨⟩
  | _ => intro T _; rfl

/-- The substitution that instantiates the outermost bound variable, in a possibly larger
context. -/
theorem SubOk.one {K : KCtx} {Γ Γ' : LCtx} {Δ : BCtx} {A r : Term}
    (hΓ : ∀ i T, Γ.get i = some T → Γ'.get i = some T) (hr : Typed K Γ' Δ r (.ty A)) :
    SubOk K fid (Term.one r) Γ (BCtx.cons A Δ) Γ' Δ := by
  refine ⟨?_, ?_, fun i => rfl, ?_⟩
  · intro i T hi hT
    rw [sub_closed _ _ bid T hT, sub_id]
    exact .fvar (hΓ _ _ hi) hT
  · intro i T hi
    cases i with
    | zero =>
      simp only [BCtx.cons, Option.some.injEq] at hi
      subst hi
      rw [← inst_zero_eq, inst_up]
      exact hr
    | succ i =>
      simp only [BCtx.cons, Option.map_eq_some_iff] at hi
      obtain ⟨T', h1, rfl⟩ := hi
      rw [← inst_zero_eq, inst_up]
      exact .bvar h1
  · intro i
    cases i with
    | zero => exact hr.not_kind _ rfl
    | succ i => rfl

/-- Instantiating the outermost bound variable. -/
theorem Typed.inst0 {K : KCtx} {Γ : LCtx} {Δ : BCtx} {A body r : Term} {J : Jdg}
    (h : Typed K Γ (BCtx.cons A Δ) body J) (hr : Typed K Γ Δ r (.ty A)) :
    Typed K Γ Δ (Term.inst 0 r body) (J.sub fid (one r)) := by
  rw [inst_zero_eq]
  exact h.sub _ _ _ (SubOk.one (fun _ _ h => h) hr)

/-! ### Types can be computed -/

/-- The type of a term, computed without checking anything. -/
def infer (K : KCtx) (Γ : LCtx) : BCtx → Term → Option Term
  | _, .fvar i => Γ.get i
  | Δ, .bvar i => Δ i
  | _, .sym s => K.symbolType s
  | Δ, .app f a =>
    match infer K Γ Δ f with
    | some (.pi _ B) => some (Term.inst 0 a B)
    | _ => none
  | Δ, .bind .lam A body => (infer K Γ (BCtx.cons A Δ) body).map (Term.pi A)
  | _, .bind .pi _ _ => some .type0
  | _, .bind .all _ _ => some .boolTy
  | _, .bind .ex _ _ => some .boolTy

theorem Typed.infer {K : KCtx} {Γ : LCtx} {Δ : BCtx} {t : Term} {J : Jdg}
    (h : Typed K Γ Δ t J) : ∀ T, J = .ty T → infer K Γ Δ t = some T ∨
      (isKind T = true ∧ ∃ T', infer K Γ Δ t = some T' ∧ isKind T' = true) := by
  induction h with
  | fvar h1 _ => rintro T ⟨⟩; exact Or.inl h1
  | bvar h1 => rintro T ⟨⟩; exact Or.inl h1
  | sym _ h2 _ => rintro T ⟨⟩; exact Or.inl h2
  | app hf ha ihf iha =>
    rintro T ⟨⟩
    rcases ihf _ rfl with h | ⟨h, _⟩
    · left; simp [Spec.infer, h]
    · cases h
  | lam hA hb hk ihA ihb =>
    rintro T ⟨⟩
    rcases ihb _ rfl with h | ⟨h, _⟩
    · left; simp [Spec.infer, h]
    · rw [hk] at h; cases h
  | all => rintro T ⟨⟩; exact Or.inl rfl
  | ex => rintro T ⟨⟩; exact Or.inl rfl
  | pi => rintro T ⟨⟩; exact Or.inl rfl
  | inst h1 h2 =>
    rintro T ⟨⟩
    exact Or.inr ⟨rfl, .type0, by simp [Spec.infer, KCtx.symbolType, KCtx.typeKind, h2], rfl⟩
  | scheme φ hm hc hcl hφ ht ih iht =>
    rintro T ⟨⟩
    rcases iht _ rfl with h | ⟨_, h⟩
    · exact Or.inr ⟨rfl, _, h, rfl⟩
    · exact Or.inr ⟨rfl, h⟩
  | extend _ _ ih =>
    rintro T ⟨⟩
    rcases ih _ rfl with h | ⟨_, h⟩
    · exact Or.inr ⟨rfl, _, h, rfl⟩
    · exact Or.inr ⟨rfl, h⟩
  | forget _ ih =>
    rintro T ⟨⟩
    rcases ih _ rfl with h | ⟨_, h⟩
    · exact Or.inr ⟨rfl, _, h, rfl⟩
    · exact Or.inr ⟨rfl, h⟩
  | tyType0 => rintro T ⟨⟩
  | tyClass => rintro T ⟨⟩
  | tyOf _ _ => rintro T ⟨⟩
  | tyPi => rintro T ⟨⟩

/-- Types are unique, up to the choice between `Type0` and typeclasses. -/
theorem Typed.unique {K : KCtx} {Γ : LCtx} {Δ : BCtx} {t T T' : Term}
    (h : Typed K Γ Δ t (.ty T)) (h' : Typed K Γ Δ t (.ty T')) :
    T = T' ∨ (isKind T = true ∧ isKind T' = true) := by
  rcases h.infer _ rfl with e | ⟨k, U, e, kU⟩ <;> rcases h'.infer _ rfl with e' | ⟨k', U', e', kU'⟩
  · rw [e] at e'; cases e'; exact Or.inl rfl
  · rw [e] at e'; cases e'; exact Or.inr ⟨kU', k'⟩
  · rw [e] at e'; cases e'; exact Or.inr ⟨k, kU⟩
  · exact Or.inr ⟨k, k'⟩

theorem Typed.unique_of_not_kind {K : KCtx} {Γ : LCtx} {Δ : BCtx} {t T T' : Term}
    (h : Typed K Γ Δ t (.ty T)) (h' : Typed K Γ Δ t (.ty T')) (hk : isKind T = false) : T = T' := by
  rcases h.unique h' with e | ⟨k, _⟩
  · exact e
  · rw [hk] at k; cases k

/-! ### Inversion -/

theorem Typed.app_inv {K : KCtx} {Γ : LCtx} {Δ : BCtx} {f a : Term} {J : Jdg}
    (h : Typed K Γ Δ (.app f a) J) : ∃ A B, Typed K Γ Δ f (.ty (.pi A B)) ∧
      Typed K Γ Δ a (.ty A) ∧
      ∀ T, J = .ty T → isKind T = false → T = Term.inst 0 a B := by
  generalize ht : Term.app f a = t at h
  induction h with
  | app hf ha =>
    cases ht
    exact ⟨_, _, hf, ha, by rintro T ⟨⟩ _; rfl⟩
  | scheme φ hm hc hcl hφ h0 ih iht =>
    obtain ⟨A, B, h1, h2, _⟩ := iht ht
    exact ⟨A, B, h1, h2, by rintro T ⟨⟩ hk; cases hk⟩
  | extend _ _ ih =>
    obtain ⟨A, B, h1, h2, _⟩ := ih ht
    exact ⟨A, B, h1, h2, by rintro T ⟨⟩ hk; cases hk⟩
  | forget _ ih =>
    obtain ⟨A, B, h1, h2, _⟩ := ih ht
    exact ⟨A, B, h1, h2, by rintro T ⟨⟩ hk; cases hk⟩
  | tyOf _ ih =>
    obtain ⟨A, B, h1, h2, _⟩ := ih ht
    exact ⟨A, B, h1, h2, by rintro T ⟨⟩⟩
  | _ => cases ht

theorem Typed.lam_inv {K : KCtx} {Γ : LCtx} {Δ : BCtx} {A body : Term} {J : Jdg}
    (h : Typed K Γ Δ (.lam A body) J) : ∃ B, Typed K Γ Δ A .isTy ∧
      Typed K Γ (BCtx.cons A Δ) body (.ty B) ∧ isKind B = false ∧
      ∀ T, J = .ty T → isKind T = false → T = .pi A B := by
  generalize ht : Term.lam A body = t at h
  induction h with
  | lam hA hb hk =>
    cases ht
    exact ⟨_, hA, hb, hk, by rintro T ⟨⟩ _; rfl⟩
  | scheme φ hm hc hcl hφ h0 ih iht =>
    obtain ⟨B, h1, h2, h3, _⟩ := iht ht
    exact ⟨B, h1, h2, h3, by rintro T ⟨⟩ hk; cases hk⟩
  | extend _ _ ih =>
    obtain ⟨B, h1, h2, h3, _⟩ := ih ht
    exact ⟨B, h1, h2, h3, by rintro T ⟨⟩ hk; cases hk⟩
  | forget _ ih =>
    obtain ⟨B, h1, h2, h3, _⟩ := ih ht
    exact ⟨B, h1, h2, h3, by rintro T ⟨⟩ hk; cases hk⟩
  | tyOf _ ih =>
    obtain ⟨B, h1, h2, h3, _⟩ := ih ht
    exact ⟨B, h1, h2, h3, by rintro T ⟨⟩⟩
  | _ => cases ht

/-- Quantifiers. -/
theorem Typed.quant_inv {K : KCtx} {Γ : LCtx} {Δ : BCtx} {b : Binder} {A body : Term} {J : Jdg}
    (h : Typed K Γ Δ (.bind b A body) J) (hb : b = .all ∨ b = .ex) : Typed K Γ Δ A .isTy ∧
      Typed K Γ (BCtx.cons A Δ) body (.ty .boolTy) ∧
      ∀ T, J = .ty T → isKind T = false → T = .boolTy := by
  generalize ht : Term.bind b A body = t at h
  induction h with
  | all hA hb => cases ht; exact ⟨hA, hb, by rintro T ⟨⟩ _; rfl⟩
  | ex hA hb => cases ht; exact ⟨hA, hb, by rintro T ⟨⟩ _; rfl⟩
  | lam => cases ht; rcases hb with h | h <;> cases h
  | pi => cases ht; rcases hb with h | h <;> cases h
  | tyPi => cases ht; rcases hb with h | h <;> cases h
  | scheme φ hm hc hcl hφ h0 ih iht =>
    obtain ⟨h1, h2, _⟩ := iht ht
    exact ⟨h1, h2, by rintro T ⟨⟩ hk; cases hk⟩
  | extend _ _ ih =>
    obtain ⟨h1, h2, _⟩ := ih ht
    exact ⟨h1, h2, by rintro T ⟨⟩ hk; cases hk⟩
  | forget _ ih =>
    obtain ⟨h1, h2, _⟩ := ih ht
    exact ⟨h1, h2, by rintro T ⟨⟩ hk; cases hk⟩
  | tyOf _ ih =>
    obtain ⟨h1, h2, _⟩ := ih ht
    exact ⟨h1, h2, by rintro T ⟨⟩⟩
  | _ => cases ht

end Spec
end Acorn
