/-
The type functions of the code agree with the typing judgement.
-/
import Verif.Lemmas.Typing
import Verif.Model.Typing
namespace Acorn
namespace Spec
open Term

/-! ### Scoping -/

theorem escapesAt_mono (t : Term) : ∀ (n m : Nat), n ≤ m → escapesAt n t = false →
    escapesAt m t = false := by
  induction t with
  | atom a =>
    intro n m h h1
    cases a with
    | bvar i => simp [escapesAt] at h1 ⊢; omega
    | _ => rfl
  | app f a ihf iha =>
    intro n m h h1
    simp [escapesAt] at h1 ⊢
    exact ⟨ihf _ _ h h1.1, iha _ _ h h1.2⟩
  | bind b ty body ih1 ih2 =>
    intro n m h h1
    simp [escapesAt] at h1 ⊢
    exact ⟨ih1 _ _ h h1.1, ih2 _ _ (Nat.succ_le_succ h) h1.2⟩

theorem escapesAt_ren (t : Term) : ∀ (r : Nat → Nat) (n m : Nat),
    (∀ i, i < n → r i < m) → escapesAt n t = false → escapesAt m (Term.ren r t) = false := by
  induction t with
  | atom a =>
    intro r n m h h1
    cases a with
    | bvar i => simp [escapesAt, Term.ren] at h1 ⊢; exact h i h1
    | _ => rfl
  | app f a ihf iha =>
    intro r n m h h1
    simp [escapesAt, Term.ren] at h1 ⊢
    exact ⟨ihf _ _ _ h h1.1, iha _ _ _ h h1.2⟩
  | bind b ty body ih1 ih2 =>
    intro r n m h h1
    simp [escapesAt, Term.ren] at h1 ⊢
    refine ⟨ih1 _ _ _ h h1.1, ih2 _ (n + 1) (m + 1) ?_ h1.2⟩
    intro i hi
    cases i with
    | zero => simp [upr]
    | succ i => simp [upr]; exact h i (by omega)

theorem escapesAt_sub (t : Term) : ∀ (φ σ : Nat → Term) (n m : Nat),
    (∀ i, i < n → escapesAt m (σ i) = false) → (∀ i, t.hasVar i = true → escapesAt m (φ i) = false) →
    escapesAt n t = false → escapesAt m (Term.sub φ σ t) = false := by
  induction t with
  | atom a =>
    intro φ σ n m h h' h1
    cases a with
    | bvar i => simp [escapesAt] at h1; exact h i h1
    | fvar i => exact h' i (by simp [hasVar, atoms])
    | sym s => rfl
  | app f a ihf iha =>
    intro φ σ n m h h' h1
    simp [escapesAt, Term.sub] at h1 ⊢
    exact ⟨ihf _ _ _ _ h (fun i hi => h' i (by simp [hasVar, atoms] at hi ⊢; exact Or.inl hi)) h1.1,
      iha _ _ _ _ h (fun i hi => h' i (by simp [hasVar, atoms] at hi ⊢; exact Or.inr hi)) h1.2⟩
  | bind b ty body ih1 ih2 =>
    intro φ σ n m h h' h1
    simp [escapesAt, Term.sub] at h1 ⊢
    refine ⟨ih1 _ _ _ _ h (fun i hi => h' i (by simp [hasVar, atoms] at hi ⊢; exact Or.inl hi)) h1.1,
      ih2 _ _ (n + 1) (m + 1) ?_ ?_ h1.2⟩
    · intro i hi
      cases i with
      | zero => simp [ups, escapesAt]
      | succ i =>
        exact escapesAt_ren _ _ m _ (fun j hj => Nat.succ_lt_succ hj) (h i (by omega))
    · intro i hi
      exact escapesAt_ren _ _ m _ (fun j hj => Nat.succ_lt_succ hj)
        (h' i (by simp [hasVar, atoms] at hi ⊢; exact Or.inr hi))

theorem escapesAt_inst (n : Nat) (a B : Term) (hB : escapesAt (n + 1) B = false)
    (ha : escapesAt n a = false) : escapesAt n (Term.inst 0 a B) = false := by
  rw [inst_zero_eq]
  apply escapesAt_sub B fid (one a) (n + 1) n _ _ hB
  · intro i hi
    cases i with
    | zero => exact ha
    | succ i => simp [one, escapesAt]; omega
  · intro i _; rfl

/-- All bound variables in scope are below `n`, with types in scope. -/
def BScoped (n : Nat) (Δ : BCtx) : Prop :=
  ∀ i T, Δ i = some T → i < n ∧ escapesAt n T = false

theorem BScoped.nil : BScoped 0 BCtx.nil := by intro i T h; cases h

theorem BScoped.cons {n : Nat} {Δ : BCtx} {A : Term} (h : BScoped n Δ)
    (hA : escapesAt n A = false) : BScoped (n + 1) (BCtx.cons A Δ) := by
  intro i T hi
  cases i with
  | zero =>
    simp only [BCtx.cons, Option.some.injEq] at hi
    subst hi
    exact ⟨by omega, escapesAt_ren _ _ n _ (fun j hj => Nat.succ_lt_succ hj) hA⟩
  | succ i =>
    simp only [BCtx.cons, Option.map_eq_some_iff] at hi
    obtain ⟨T', h1, rfl⟩ := hi
    have := h i T' h1
    exact ⟨by omega, escapesAt_ren _ _ n _ (fun j hj => Nat.succ_lt_succ hj) this.2⟩

/-- Well-typed terms and their types have no dangling bound variables. -/
theorem Typed.closed {K : KCtx} {Γ : LCtx} {Δ : BCtx} {t : Term} {J : Jdg} (h : Typed K Γ Δ t J) :
    ∀ n, BScoped n Δ → escapesAt n t = false ∧ ∀ T, J = .ty T → escapesAt n T = false := by
  induction h with
  | fvar h1 h2 =>
    intro n hn
    exact ⟨rfl, by rintro T ⟨⟩; exact escapesAt_mono _ 0 n (by omega) h2⟩
  | bvar h1 =>
    intro n hn
    have := hn _ _ h1
    exact ⟨by simp [escapesAt]; omega, by rintro T ⟨⟩; exact this.2⟩
  | sym h1 h2 h3 =>
    intro n hn
    exact ⟨rfl, by rintro T ⟨⟩; exact escapesAt_mono _ 0 n (by omega) h3.1⟩
  | app hf ha ihf iha =>
    intro n hn
    obtain ⟨f1, f2⟩ := ihf n hn
    obtain ⟨a1, a2⟩ := iha n hn
    have f3 := f2 _ rfl
    simp [escapesAt] at f3
    exact ⟨by simp [escapesAt, f1, a1], by rintro T ⟨⟩; exact escapesAt_inst _ _ _ f3.2 a1⟩
  | lam hA hb hk ihA ihb =>
    intro n hn
    have a1 := (ihA n hn).1
    obtain ⟨b1, b2⟩ := ihb (n + 1) (hn.cons a1)
    exact ⟨by simp [escapesAt, a1, b1], by rintro T ⟨⟩; simp [escapesAt, a1, b2 _ rfl]⟩
  | all hA hb ihA ihb =>
    intro n hn
    have a1 := (ihA n hn).1
    obtain ⟨b1, b2⟩ := ihb (n + 1) (hn.cons a1)
    exact ⟨by simp [escapesAt, a1, b1], by rintro T ⟨⟩; rfl⟩
  | ex hA hb ihA ihb =>
    intro n hn
    have a1 := (ihA n hn).1
    obtain ⟨b1, b2⟩ := ihb (n + 1) (hn.cons a1)
    exact ⟨by simp [escapesAt, a1, b1], by rintro T ⟨⟩; rfl⟩
  | pi hA hb ihA ihb =>
    intro n hn
    have a1 := (ihA n hn).1
    obtain ⟨b1, b2⟩ := ihb (n + 1) (hn.cons a1)
    exact ⟨by simp [escapesAt, a1, b1], by rintro T ⟨⟩; rfl⟩
  | inst h1 h2 => intro n hn; exact ⟨rfl, by rintro T ⟨⟩; rfl⟩
  | scheme φ hm hc hcl hφ ht ih iht =>
    intro n hn
    exact ⟨(iht n hn).1, by rintro T ⟨⟩; rfl⟩
  | extend _ _ ih => intro n hn; exact ⟨(ih n hn).1, by rintro T ⟨⟩; rfl⟩
  | forget _ ih => intro n hn; exact ⟨(ih n hn).1, by rintro T ⟨⟩; rfl⟩
  | tyType0 => intro n hn; exact ⟨rfl, by rintro T ⟨⟩⟩
  | tyClass => intro n hn; exact ⟨rfl, by rintro T ⟨⟩⟩
  | tyOf _ ih => intro n hn; exact ⟨(ih n hn).1, by rintro T ⟨⟩⟩
  | tyPi hA hb ihA ihb =>
    intro n hn
    have a1 := (ihA n hn).1
    obtain ⟨b1, b2⟩ := ihb (n + 1) (hn.cons a1)
    exact ⟨by simp [escapesAt, a1, b1], by rintro T ⟨⟩⟩

theorem HasType.closed {K : KCtx} {Γ : LCtx} {t T : Term} (h : HasType K Γ t T) :
    t.escapes = false ∧ T.escapes = false :=
  ⟨(Typed.closed h 0 BScoped.nil).1, (Typed.closed h 0 BScoped.nil).2 _ rfl⟩

/-- All free variables of `t` have a declared type. -/
def FScoped (Γ : LCtx) (t : Term) : Prop := ∀ i, t.hasVar i = true → (Γ.get i).isSome = true

/-- The types of a context mention only variables of the context and have no dangling bound
variables. -/
def CtxOk (Γ : LCtx) : Prop := ∀ i T, Γ.get i = some T → T.escapes = false ∧ FScoped Γ T

theorem hasVar_app (f a : Term) (i : Nat) : (Term.app f a).hasVar i = (f.hasVar i || a.hasVar i) := by
  simp [hasVar, atoms]

theorem hasVar_bind (b : Binder) (f a : Term) (i : Nat) :
    (Term.bind b f a).hasVar i = (f.hasVar i || a.hasVar i) := by
  simp [hasVar, atoms]

theorem FScoped.app {Γ : LCtx} {f a : Term} : FScoped Γ (.app f a) ↔ FScoped Γ f ∧ FScoped Γ a := by
  simp only [FScoped, hasVar_app, Bool.or_eq_true]
  exact ⟨fun h => ⟨fun i hi => h i (Or.inl hi), fun i hi => h i (Or.inr hi)⟩,
    fun h i hi => hi.elim (h.1 i) (h.2 i)⟩

theorem FScoped.bind {Γ : LCtx} {b : Binder} {f a : Term} :
    FScoped Γ (.bind b f a) ↔ FScoped Γ f ∧ FScoped Γ a := by
  simp only [FScoped, hasVar_bind, Bool.or_eq_true]
  exact ⟨fun h => ⟨fun i hi => h i (Or.inl hi), fun i hi => h i (Or.inr hi)⟩,
    fun h i hi => hi.elim (h.1 i) (h.2 i)⟩

theorem hasVar_ren (r : Nat → Nat) (t : Term) (i : Nat) : (Term.ren r t).hasVar i = t.hasVar i := by
  induction t generalizing r with
  | atom a => cases a <;> rfl
  | app f a ihf iha => simp [Term.ren, hasVar_app, ihf, iha]
  | bind b f a ihf iha => simp [Term.ren, hasVar_bind, ihf, iha]

theorem FScoped.inst {Γ : LCtx} {a B : Term} (ha : FScoped Γ a) (hB : FScoped Γ B) (d : Nat) :
    FScoped Γ (Term.inst d a B) := by
  induction B generalizing d with
  | atom x =>
    cases x with
    | bvar i =>
      simp only [Term.inst]
      split
      · intro j hj; simp [hasVar, atoms] at hj
      · split
        · intro j hj
          rw [up_eq_ren, hasVar_ren] at hj
          exact ha j hj
        · intro j hj; simp [hasVar, atoms] at hj
    | fvar i => exact hB
    | sym s => exact hB
  | app f x ihf ihx =>
    have := FScoped.app.1 hB
    exact FScoped.app.2 ⟨ihf this.1 d, ihx this.2 d⟩
  | bind b f x ihf ihx =>
    have := FScoped.bind.1 hB
    exact FScoped.bind.2 ⟨ihf this.1 d, ihx this.2 (d + 1)⟩

/-- Well-typed terms mention only declared variables, and so do their types. -/
theorem Typed.fscoped {K : KCtx} {Γ : LCtx} (hΓ : CtxOk Γ) {Δ : BCtx} {t : Term} {J : Jdg}
    (h : Typed K Γ Δ t J) : (∀ i T, Δ i = some T → FScoped Γ T) →
      FScoped Γ t ∧ ∀ T, J = .ty T → FScoped Γ T := by
  have sc : ∀ s : Symbol, FScoped Γ (.sym s) := by intro s i hi; simp [hasVar, atoms] at hi
  have cons : ∀ {Δ : BCtx} {A : Term}, (∀ i T, Δ i = some T → FScoped Γ T) → FScoped Γ A →
      ∀ i T, BCtx.cons A Δ i = some T → FScoped Γ T := by
    intro Δ A hΔ hA i T hi
    cases i with
    | zero =>
      simp only [BCtx.cons, Option.some.injEq] at hi
      subst hi
      intro j hj; rw [hasVar_ren] at hj; exact hA j hj
    | succ i =>
      simp only [BCtx.cons, Option.map_eq_some_iff] at hi
      obtain ⟨T', h1, rfl⟩ := hi
      intro j hj; rw [hasVar_ren] at hj; exact hΔ _ _ h1 j hj
  induction h with
  | fvar h1 h2 =>
    intro hΔ
    refine ⟨?_, by rintro T ⟨⟩; exact (hΓ _ _ h1).2⟩
    intro j hj
    simp [hasVar, atoms] at hj
    subst hj; rw [h1]; rfl
  | bvar h1 =>
    intro hΔ
    exact ⟨by intro j hj; simp [hasVar, atoms] at hj, by rintro T ⟨⟩; exact hΔ _ _ h1⟩
  | sym h1 h2 h3 =>
    intro hΔ
    exact ⟨sc _, by rintro T ⟨⟩ i hi; rw [h3.2 i] at hi; cases hi⟩
  | app hf ha ihf iha =>
    intro hΔ
    obtain ⟨f1, f2⟩ := ihf hΔ
    obtain ⟨a1, a2⟩ := iha hΔ
    exact ⟨FScoped.app.2 ⟨f1, a1⟩,
      by rintro T ⟨⟩; exact FScoped.inst a1 (FScoped.bind.1 (f2 _ rfl)).2 0⟩
  | lam hA hb hk ihA ihb =>
    intro hΔ
    have a1 := (ihA hΔ).1
    obtain ⟨b1, b2⟩ := ihb (cons hΔ a1)
    exact ⟨FScoped.bind.2 ⟨a1, b1⟩, by rintro T ⟨⟩; exact FScoped.bind.2 ⟨a1, b2 _ rfl⟩⟩
  | all hA hb ihA ihb =>
    intro hΔ
    have a1 := (ihA hΔ).1
    obtain ⟨b1, b2⟩ := ihb (cons hΔ a1)
    exact ⟨FScoped.bind.2 ⟨a1, b1⟩, by rintro T ⟨⟩; exact sc _⟩
  | ex hA hb ihA ihb =>
    intro hΔ
    have a1 := (ihA hΔ).1
    obtain ⟨b1, b2⟩ := ihb (cons hΔ a1)
    exact ⟨FScoped.bind.2 ⟨a1, b1⟩, by rintro T ⟨⟩; exact sc _⟩
  | pi hA hb ihA ihb =>
    intro hΔ
    have a1 := (ihA hΔ).1
    obtain ⟨b1, b2⟩ := ihb (cons hΔ a1)
    exact ⟨FScoped.bind.2 ⟨a1, b1⟩, by rintro T ⟨⟩; exact sc _⟩
  | inst h1 h2 => intro hΔ; exact ⟨sc _, by rintro T ⟨⟩; exact sc _⟩
  | scheme φ hm hc hcl hφ ht ih iht =>
    intro hΔ
    exact ⟨(iht hΔ).1, by rintro T ⟨⟩; exact sc _⟩
  | extend _ _ ih => intro hΔ; exact ⟨(ih hΔ).1, by rintro T ⟨⟩; exact sc _⟩
  | forget _ ih => intro hΔ; exact ⟨(ih hΔ).1, by rintro T ⟨⟩; exact sc _⟩
  | tyType0 => intro hΔ; exact ⟨sc _, by rintro T ⟨⟩⟩
  | tyClass => intro hΔ; exact ⟨sc _, by rintro T ⟨⟩⟩
  | tyOf _ ih => intro hΔ; exact ⟨(ih hΔ).1, by rintro T ⟨⟩⟩
  | tyPi hA hb ihA ihb =>
    intro hΔ
    have a1 := (ihA hΔ).1
    obtain ⟨b1, b2⟩ := ihb (cons hΔ a1)
    exact ⟨FScoped.bind.2 ⟨a1, b1⟩, by rintro T ⟨⟩⟩

theorem HasType.fscoped {K : KCtx} {Γ : LCtx} (hΓ : CtxOk Γ) {t T : Term} (h : HasType K Γ t T) :
    FScoped Γ t ∧ FScoped Γ T := by
  have := Typed.fscoped hΓ h (by intro i T h; cases h)
  exact ⟨this.1, this.2 _ rfl⟩

/-! ### Contexts -/

theorem get_lt {Γ : LCtx} {i : Nat} {T : Term} (h : Γ.get i = some T) : i < Γ.length := by
  simp only [LCtx.get] at h
  cases e : Γ[i]? with
  | none => rw [e] at h; cases h
  | some x => exact (List.getElem?_eq_some_iff.1 e).1

theorem get_pushTy_lt {Γ : LCtx} {A : Term} {i : Nat} (h : i < Γ.length) :
    (Γ.pushTy A).get i = Γ.get i := by
  simp [LCtx.get, LCtx.pushTy, List.getElem?_append_left h]

theorem get_pushTy_eq {Γ : LCtx} {A : Term} : (Γ.pushTy A).get Γ.length = some A := by
  simp [LCtx.get, LCtx.pushTy]

theorem get_pushTy {Γ : LCtx} {A T : Term} {i : Nat} (h : Γ.get i = some T) :
    (Γ.pushTy A).get i = some T := by
  rw [get_pushTy_lt (get_lt h), h]

theorem get_pushTy_inv {Γ : LCtx} {A T : Term} {i : Nat} (h : (Γ.pushTy A).get i = some T) :
    Γ.get i = some T ∨ (i = Γ.length ∧ T = A) := by
  have h1 := get_lt h
  simp [LCtx.pushTy] at h1
  by_cases h2 : i < Γ.length
  · left; rw [get_pushTy_lt h2] at h; exact h
  · right
    have : i = Γ.length := by omega
    subst this
    rw [get_pushTy_eq] at h
    cases h
    exact ⟨rfl, rfl⟩

theorem FScoped.push {Γ : LCtx} {A t : Term} (h : FScoped Γ t) : FScoped (Γ.pushTy A) t := by
  intro i hi
  obtain ⟨T, hT⟩ := Option.isSome_iff_exists.1 (h i hi)
  rw [get_pushTy hT]; rfl

theorem FScoped.not_length {Γ : LCtx} {t : Term} (h : FScoped Γ t) : t.hasVar Γ.length = false := by
  cases e : t.hasVar Γ.length with
  | false => rfl
  | true =>
    obtain ⟨T, hT⟩ := Option.isSome_iff_exists.1 (h _ e)
    exact absurd (get_lt hT) (by omega)

theorem CtxOk.push {Γ : LCtx} (h : CtxOk Γ) {A : Term} (hA : A.escapes = false)
    (hs : FScoped Γ A) : CtxOk (Γ.pushTy A) := by
  intro i T hi
  rcases get_pushTy_inv hi with h1 | ⟨_, rfl⟩
  · exact ⟨(h _ _ h1).1, (h _ _ h1).2.push⟩
  · exact ⟨hA, hs.push⟩

theorem CtxOk.nil : CtxOk [] := by intro i T h; simp [LCtx.get] at h

/-- Weakening of the free context. -/
theorem Typed.weaken {K : KCtx} {Γ Γ' : LCtx} {Δ : BCtx} {t : Term} {J : Jdg}
    (h : Typed K Γ Δ t J) (hΓ : ∀ i T, Γ.get i = some T → Γ'.get i = some T) :
    Typed K Γ' Δ t J := by
  have := h.sub (Γ' := Γ') fid bid Δ ⟨by
    intro i T hi hT; rw [sub_id]; exact .fvar (hΓ _ _ hi) hT,
    by intro i T hi; rw [sub_id]; exact .bvar hi, fun _ => rfl, fun _ => rfl⟩
  rw [sub_id] at this
  cases J with
  | ty T => simpa [Jdg.sub, sub_id] using this
  | isTy => exact this

/-- Opening a body with the fresh variable of the pushed context. -/
theorem Typed.open_fresh {K : KCtx} {Γ : LCtx} {A body : Term} {J : Jdg}
    (h : Typed K Γ (BCtx.cons A BCtx.nil) body J) (hA : A.escapes = false) :
    Typed K (Γ.pushTy A) BCtx.nil (Term.inst 0 (.fvar Γ.length) body)
      (J.sub fid (one (.fvar Γ.length))) := by
  rw [inst_zero_eq]
  exact h.sub _ _ _ (SubOk.one (fun _ _ h => get_pushTy h) (.fvar get_pushTy_eq hA))

/-- Closing what was opened with the fresh variable. -/
theorem Typed.close_fresh {K : KCtx} {Γ : LCtx} (hΓ : CtxOk Γ) {A body : Term} {J : Jdg}
    (hA : A.escapes = false) (hAs : FScoped Γ A) (hbody : body.hasVar Γ.length = false)
    (h : Typed K (Γ.pushTy A) BCtx.nil (Term.inst 0 (.fvar Γ.length) body) J) :
    Typed K Γ (BCtx.cons A BCtx.nil) body
      (J.sub (fun i => if i = Γ.length then .bvar 0 else .fvar i) (fun i => .bvar (i + 1))) := by
  have key : ∀ T : Term, T.escapes = false → FScoped Γ T →
      Term.sub (fun i => if i = Γ.length then .bvar 0 else .fvar i) (fun i => .bvar (i + 1)) T = T := by
    intro T h1 h2
    rw [sub_closed _ _ bid T h1, sub_fvars T _ fid bid, sub_id]
    intro i hi
    have : i ≠ Γ.length := by
      rintro rfl
      rw [h2.not_length] at hi; cases hi
    simp [this, fid]
  have h2 := h.sub (Γ' := Γ) (fun i => if i = Γ.length then .bvar 0 else .fvar i)
    (fun i => .bvar (i + 1)) (BCtx.cons A BCtx.nil) ⟨?_, ?_, ?_, ?_⟩
  · have e : Term.sub (fun i => if i = Γ.length then .bvar 0 else .fvar i) (fun i => .bvar (i + 1))
        (Term.inst 0 (.fvar Γ.length) body) = body := by
      have h3 := abstract_inst Γ.length body 0 hbody
      rw [abstractVar_eq_sub] at h3
      simpa using h3
    rw [e] at h2
    exact h2
  · intro i T hi hT
    rcases get_pushTy_inv hi with h1 | ⟨rfl, rfl⟩
    · rw [key T hT (hΓ _ _ h1).2, if_neg (by have := get_lt h1; omega)]
      exact .fvar h1 hT
    · rw [key _ hT hAs, if_pos rfl]
      refine .bvar ?_
      simp [BCtx.cons, ren_closed _ _ hA]
  · intro i T hi; cases hi
  · intro i; show isKind (if i = Γ.length then .bvar 0 else .fvar i) = false
    split <;> rfl
  · intro i; rfl

theorem inst_no_bound (a B : Term) (h : B.hasBound = false) (d : Nat) : Term.inst d a B = B := by
  induction B generalizing d with
  | atom x =>
    cases x with
    | bvar i => simp [hasBound, atoms] at h
    | _ => rfl
  | app f x ihf ihx =>
    simp only [hasBound, atoms, List.any_append, Bool.or_eq_false_iff] at h
    simp [Term.inst, ihf h.1 d, ihx h.2 d]
  | bind b f x ihf ihx =>
    simp only [hasBound, atoms, List.any_append, Bool.or_eq_false_iff] at h
    simp [Term.inst, ihf h.1 d, ihx h.2 (d + 1)]

theorem typeApply_pi (A B a : Term) : typeApply (.pi A B) a = some (Term.inst 0 a B) := by
  simp only [typeApply, splitPi]
  split
  · exact openBound_eq B a
  · rename_i h
    rw [inst_no_bound a B (by simpa using h)]

/-- The type computed by the code is the type of the term (up to the choice between `Type0` and
typeclasses for terms that are types). -/
theorem getType_of_typed {K : KCtx} : ∀ (n : Nat) {Γ : LCtx} {t T : Term}, t.size ≤ n → CtxOk Γ →
    HasType K Γ t T → getType K Γ t = some T ∨
      (isKind T = true ∧ ∃ T', getType K Γ t = some T' ∧ isKind T' = true) := by
  -- it is enough to find one type that the term has and that the code computes
  have suff : ∀ {Γ : LCtx} {t T U : Term}, HasType K Γ t T → HasType K Γ t U →
      getType K Γ t = some U → getType K Γ t = some T ∨
      (isKind T = true ∧ ∃ T', getType K Γ t = some T' ∧ isKind T' = true) := by
    intro Γ t T U h h' e
    rcases h.unique h' with rfl | ⟨k1, k2⟩
    · exact Or.inl e
    · exact Or.inr ⟨k1, U, e, k2⟩
  intro n
  induction n with
  | zero => intro Γ t T hn; cases t <;> simp [Term.size] at hn
  | succ n ih =>
    intro Γ t T hn hΓ h
    match t, hn, h with
    | .atom a, hn, h =>
      have := Typed.infer h T rfl
      cases a with
      | fvar i => simpa [infer, getType] using this
      | bvar i => simp [infer, BCtx.nil] at this
      | sym s => simpa [infer, getType] using this
    | .app f a, hn, h =>
      simp only [Term.size] at hn
      obtain ⟨A, B, hf, ha, _⟩ := h.app_inv
      rcases ih (by omega) hΓ hf with e | ⟨k, _⟩
      · refine suff h (.app hf ha) ?_
        rw [getType, e]
        exact typeApply_pi A B a
      · cases k
    | .bind .lam A body, hn, h =>
      simp only [Term.size] at hn
      obtain ⟨B, hA, hb, hk, _⟩ := h.lam_inv
      have hAc := (hA.closed 0 BScoped.nil).1
      have hAs := (hA.fscoped hΓ (by intro i T h; cases h)).1
      have ho := hb.open_fresh hAc
      simp only [Jdg.sub, ← inst_zero_eq] at ho
      have hsz : (Term.inst 0 (.fvar Γ.length) body).size = body.size :=
        size_openBound_fvar body Γ.length _ (openBound_eq _ _)
      have hBs : FScoped Γ B :=
        (hb.fscoped hΓ (by
          intro i T hi
          cases i with
          | zero =>
            simp only [BCtx.cons, Option.some.injEq] at hi
            subst hi
            rw [ren_closed _ _ hAc]; exact hAs
          | succ i => simp [BCtx.cons, BCtx.nil] at hi)).2 _ rfl
      have hk' : isKind (Term.inst 0 (.fvar Γ.length) B) = false := by
        rw [inst_zero_eq]
        exact isKind_sub (SubOk.one (Γ := Γ) (A := A) (fun _ _ h => get_pushTy h)
          (.fvar (K := K) (Δ := BCtx.nil) get_pushTy_eq hAc)) hk
      rcases ih (by omega) (hΓ.push hAc hAs) ho with e | ⟨k, _⟩
      · refine suff h (.lam hA hb hk) ?_
        rw [getType]
        split
        · rename_i h0; rw [openBound_eq] at h0; cases h0
        · rename_i o h0
          rw [openBound_eq] at h0
          cases h0
          rw [e]
          simp [abstract_inst _ _ _ hBs.not_length]
      · rw [hk'] at k; cases k
    | .bind .pi A body, hn, h =>
      rcases Typed.infer h T rfl with e | e
      · left; simpa [infer, getType] using e
      · right; simpa [infer, getType] using e
    | .bind .all A body, hn, h =>
      rcases Typed.infer h T rfl with e | e
      · left; simpa [infer, getType] using e
      · right; simpa [infer, getType] using e
    | .bind .ex A body, hn, h =>
      rcases Typed.infer h T rfl with e | e
      · left; simpa [infer, getType] using e
      · right; simpa [infer, getType] using e

end Spec
end Acorn
