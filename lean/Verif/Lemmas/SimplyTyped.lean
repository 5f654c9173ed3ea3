/-
Basic facts about `STyped`: embedding into `Typed`, renaming, substitution, inversion, strengthening.
-/
import Verif.Spec.SimplyTyped
import Verif.Lemmas.GetType
namespace Acorn
namespace Spec
open Term

universe u

theorem endsKind_of_isKind {T : Term} (h : isKind T = true) : endsKind T = true := by
  match T, h with
  | .sym s, h => exact h

theorem isKind_of_endsKind_false {T : Term} (h : endsKind T = false) : isKind T = false := by
  cases e : isKind T with
  | false => rfl
  | true => rw [endsKind_of_isKind e] at h; cases h

theorem endsKind_ren (T : Term) : ∀ r : Nat → Nat, endsKind (Term.ren r T) = endsKind T := by
  induction T with
  | atom a => intro r; cases a <;> rfl
  | app f a _ _ => intro r; rfl
  | bind b A B _ ihB =>
    intro r
    cases b with
    | pi => exact ihB _
    | _ => rfl

theorem endsKind_sub_true {T : Term} : ∀ φ σ : Nat → Term, endsKind T = true →
    endsKind (Term.sub φ σ T) = true := by
  induction T with
  | atom a =>
    intro φ σ h
    cases a with
    | sym s => exact h
    | _ => cases h
  | app f a _ _ => intro φ σ h; cases h
  | bind b A B _ ihB =>
    intro φ σ h
    cases b with
    | pi => exact ihB _ _ h
    | _ => cases h

theorem endsKind_sub_false {T : Term} : ∀ φ σ : Nat → Term, (∀ i, endsKind (φ i) = false) →
    (∀ i, endsKind (σ i) = false) → endsKind T = false → endsKind (Term.sub φ σ T) = false := by
  induction T with
  | atom a =>
    intro φ σ h1 h2 h
    cases a with
    | fvar i => exact h1 i
    | bvar i => exact h2 i
    | sym s => exact h
  | app f a _ _ => intro φ σ h1 h2 h; rfl
  | bind b A B _ ihB =>
    intro φ σ h1 h2 h
    cases b with
    | pi =>
      refine ihB _ _ (fun i => ?_) (fun i => ?_) h
      · simp only [lift, endsKind_ren]; exact h1 i
      · cases i with
        | zero => rfl
        | succ i => simp only [ups, endsKind_ren]; exact h2 i
    | _ => rfl

/-- The restricted judgement is part of the textbook one. -/
theorem STyped.typed {K : KCtx} {Γ : LCtx} {Δ : BCtx} {t : Term} {J : Jdg} (h : STyped K Γ Δ t J) :
    Typed K Γ Δ t J := by
  induction h with
  | fvar h1 h2 => exact .fvar h1 h2
  | bvar h1 => exact .bvar h1
  | sym h1 h2 h3 => exact .sym h1 h2 h3
  | appVal _ _ _ _ ihf iha =>
    have := Typed.app ihf iha
    rwa [inst_up] at this
  | appTy _ _ _ ihf iha => exact .app ihf iha
  | lam _ _ _ hB ihA ihb => exact .lam ihA ihb (by rw [isKind_ren]; exact isKind_of_endsKind_false hB)
  | all _ _ ihA ihb => exact .all ihA ihb
  | ex _ _ ihA ihb => exact .ex ihA ihb
  | pi _ _ ihA ihb => exact .pi ihA ihb
  | inst h1 h2 => exact .inst h1 h2
  | scheme φ hm hc hk _ _ ih iht =>
    have e : ∀ T : Term, isKind T = true → T.escapes = false ∧ Term.sub φ bid T = T := by
      intro T hT
      match T, hT with
      | .sym s, _ => exact ⟨rfl, rfl⟩
    refine .scheme φ hm hc (fun i T hi => (e T (hk i T hi).1).1) (fun i T hi => ?_) iht
    rw [(e T (hk i T hi).1).2]
    exact ih i T hi
  | extend _ he ih => exact .extend ih he
  | forget _ ih => exact .forget ih
  | tyType0 => exact .tyType0
  | tyClass => exact .tyClass
  | tyOf _ ih => exact .tyOf ih
  | tyPi _ _ ihA ihb => exact .tyPi ihA ihb

theorem SHasType.hasType {K : KCtx} {Γ : LCtx} {t T : Term} (h : SHasType K Γ t T) :
    HasType K Γ t T := STyped.typed h

theorem STyped.ren {K : KCtx} {Γ : LCtx} {Δ : BCtx} {t : Term} {J : Jdg} (h : STyped K Γ Δ t J) :
    ∀ (r : Nat → Nat) (Δ' : BCtx), RenOk r Δ Δ' → STyped K Γ Δ' (Term.ren r t) (J.ren r) := by
  have hs : ∀ (r : Nat → Nat) (B : Term), Term.ren (upr r) (Term.ren Nat.succ B)
      = Term.ren Nat.succ (Term.ren r B) := by
    intro r B; rw [ren_ren, ren_ren]; rfl
  induction h with
  | fvar h1 h2 =>
    intro r Δ' hr
    simp only [Term.ren, Jdg.ren, ren_closed r _ h2]
    exact .fvar h1 h2
  | bvar h1 => intro r Δ' hr; exact .bvar (hr _ _ h1)
  | sym h1 h2 h3 =>
    intro r Δ' hr
    simp only [Term.ren, Jdg.ren, ren_ground r _ h3]
    exact .sym h1 h2 h3
  | appVal hf ha kA kB ihf iha =>
    intro r Δ' hr
    have h1 := ihf r Δ' hr
    simp only [Jdg.ren, Term.ren, hs] at h1
    exact .appVal h1 (iha r Δ' hr) (by rw [endsKind_ren]; exact kA) (by rw [endsKind_ren]; exact kB)
  | appTy hf ha kA ihf iha =>
    intro r Δ' hr
    simp only [Term.ren, Jdg.ren, ren_inst]
    exact .appTy (ihf r Δ' hr) (iha r Δ' hr) (by rw [endsKind_ren]; exact kA)
  | lam hA hb kA kB ihA ihb =>
    intro r Δ' hr
    have h1 := ihb _ _ (hr.cons _)
    simp only [Jdg.ren, hs] at h1
    simp only [Jdg.ren, Term.ren, hs]
    exact .lam (ihA r Δ' hr) h1 (by rw [endsKind_ren]; exact kA) (by rw [endsKind_ren]; exact kB)
  | all hA hb ihA ihb =>
    intro r Δ' hr
    exact .all (ihA r Δ' hr) (ihb _ _ (hr.cons _))
  | ex hA hb ihA ihb =>
    intro r Δ' hr
    exact .ex (ihA r Δ' hr) (ihb _ _ (hr.cons _))
  | pi hA hB ihA ihB =>
    intro r Δ' hr
    exact .pi (ihA r Δ' hr) (ihB _ _ (hr.cons _))
  | inst h h' => intro r Δ' hr; exact .inst h h'
  | scheme φ hm hc hk hφ ht ih iht =>
    intro r Δ' hr
    have e : ∀ T : Term, T.escapes = false →
        Term.ren r (Term.sub φ bid T) = Term.sub (fun i => Term.ren r (φ i)) bid T := by
      intro T hT
      rw [ren_sub]
      exact sub_closed _ _ _ T hT
    simp only [Jdg.ren, e _ hc]
    refine .scheme _ hm hc hk ?_ ?_
    · intro i T hT
      have h1 := ih i T hT r Δ' hr
      have h2 : Term.ren r T = T := by
        have := (hk i T hT).1
        match T, this with
        | .sym s, _ => rfl
      simpa [Jdg.ren, h2] using h1
    · have := iht r Δ' hr
      rw [e _ hc] at this
      exact this
  | extend h he ih => intro r Δ' hr; exact .extend (ih r Δ' hr) he
  | forget h ih => intro r Δ' hr; exact .forget (ih r Δ' hr)
  | tyType0 => intro r Δ' hr; exact .tyType0
  | tyClass => intro r Δ' hr; exact .tyClass
  | tyOf h ih => intro r Δ' hr; exact .tyOf (ih r Δ' hr)
  | tyPi hA hB ihA ihB =>
    intro r Δ' hr
    exact .tyPi (ihA r Δ' hr) (ihB _ _ (hr.cons _))

/-- `φ, σ` map the variables of `Γ, Δ` to terms over `Γ', Δ'` of the substituted types. -/
structure SSubOk (K : KCtx) (φ σ : Nat → Term) (Γ : LCtx) (Δ : BCtx) (Γ' : LCtx) (Δ' : BCtx) :
    Prop where
  free : ∀ i T, Γ.get i = some T → T.escapes = false →
    STyped K Γ' Δ' (φ i) (.ty (Term.sub φ σ T))
  bound : ∀ i T, Δ i = some T → STyped K Γ' Δ' (σ i) (.ty (Term.sub φ σ T))
  freeKind : ∀ i, endsKind (φ i) = false
  boundKind : ∀ i, endsKind (σ i) = false

theorem SSubOk.cons {K : KCtx} {φ σ : Nat → Term} {Γ Γ' : LCtx} {Δ Δ' : BCtx} (A : Term)
    (h : SSubOk K φ σ Γ Δ Γ' Δ') :
    SSubOk K (lift φ) (ups σ) Γ (BCtx.cons A Δ) Γ' (BCtx.cons (Term.sub φ σ A) Δ') := by
  refine ⟨?_, ?_, ?_, ?_⟩
  · intro i T hi hT
    have h1 := (h.free i T hi hT).ren Nat.succ _ (RenOk.succ (Term.sub φ σ A) Δ')
    simp only [Jdg.ren] at h1
    rw [← sub_lift, ren_closed _ T hT] at h1
    exact h1
  · intro i T hi
    cases i with
    | zero =>
      simp only [BCtx.cons, Option.some.injEq] at hi
      subst hi
      rw [sub_lift]
      exact .bvar rfl
    | succ i =>
      simp only [BCtx.cons, Option.map_eq_some_iff] at hi
      obtain ⟨T', h1, rfl⟩ := hi
      rw [sub_lift]
      exact (h.bound i T' h1).ren Nat.succ _ (RenOk.succ (Term.sub φ σ A) Δ')
  · intro i; simp only [lift, endsKind_ren]; exact h.freeKind i
  · intro i
    cases i with
    | zero => rfl
    | succ i => simp only [ups, endsKind_ren]; exact h.boundKind i

theorem STyped.sub {K : KCtx} {Γ Γ' : LCtx} {Δ : BCtx} {t : Term} {J : Jdg}
    (h : STyped K Γ Δ t J) : ∀ (φ σ : Nat → Term) (Δ' : BCtx), SSubOk K φ σ Γ Δ Γ' Δ' →
      STyped K Γ' Δ' (Term.sub φ σ t) (J.sub φ σ) := by
  have ek : ∀ {φ σ : Nat → Term} {Δ Δ' : BCtx} {T : Term}, SSubOk K φ σ Γ Δ Γ' Δ' →
      endsKind T = false → endsKind (Term.sub φ σ T) = false := by
    intro φ σ Δ Δ' T hs h
    exact endsKind_sub_false φ σ hs.freeKind hs.boundKind h
  induction h with
  | fvar h1 h2 => intro φ σ Δ' hs; exact hs.free _ _ h1 h2
  | bvar h1 => intro φ σ Δ' hs; exact hs.bound _ _ h1
  | sym h1 h2 h3 =>
    intro φ σ Δ' hs
    simp only [Term.sub, Jdg.sub, sub_ground φ σ _ h3]
    exact .sym h1 h2 h3
  | appVal hf ha kA kB ihf iha =>
    intro φ σ Δ' hs
    have h1 := ihf φ σ Δ' hs
    simp only [Jdg.sub, Term.sub, sub_lift] at h1
    exact .appVal h1 (iha φ σ Δ' hs) (ek hs kA) (ek hs kB)
  | appTy hf ha kA ihf iha =>
    intro φ σ Δ' hs
    simp only [Term.sub, Jdg.sub, sub_inst]
    exact .appTy (ihf φ σ Δ' hs) (iha φ σ Δ' hs) (endsKind_sub_true _ _ kA)
  | lam hA hb kA kB ihA ihb =>
    intro φ σ Δ' hs
    have h1 := ihb _ _ _ (hs.cons _)
    simp only [Jdg.sub, sub_lift] at h1
    simp only [Jdg.sub, Term.sub, sub_lift]
    exact .lam (ihA φ σ Δ' hs) h1 (ek hs kA) (ek hs kB)
  | all hA hb ihA ihb =>
    intro φ σ Δ' hs
    exact .all (ihA φ σ Δ' hs) (ihb _ _ _ (hs.cons _))
  | ex hA hb ihA ihb =>
    intro φ σ Δ' hs
    exact .ex (ihA φ σ Δ' hs) (ihb _ _ _ (hs.cons _))
  | pi hA hB ihA ihB =>
    intro φ σ Δ' hs
    exact .pi (ihA φ σ Δ' hs) (ihB _ _ _ (hs.cons _))
  | inst h h' => intro φ σ Δ' hs; exact .inst h h'
  | scheme ψ hm hc hk hψ ht ih iht =>
    intro φ σ Δ' hs
    have e : ∀ T : Term, T.escapes = false →
        Term.sub φ σ (Term.sub ψ bid T) = Term.sub (fun i => Term.sub φ σ (ψ i)) bid T := by
      intro T hT
      rw [sub_sub]
      exact sub_closed _ _ _ T hT
    simp only [Jdg.sub, e _ hc]
    refine .scheme _ hm hc hk ?_ ?_
    · intro i T hT
      have h1 := ih i T hT φ σ Δ' hs
      have h2 : Term.sub φ σ T = T := by
        have := (hk i T hT).1
        match T, this with
        | .sym s, _ => rfl
      simpa [Jdg.sub, h2] using h1
    · have := iht φ σ Δ' hs
      rw [e _ hc] at this
      exact this
  | extend h he ih => intro φ σ Δ' hs; exact .extend (ih φ σ Δ' hs) he
  | forget h ih => intro φ σ Δ' hs; exact .forget (ih φ σ Δ' hs)
  | tyType0 => intro φ σ Δ' hs; exact .tyType0
  | tyClass => intro φ σ Δ' hs; exact .tyClass
  | tyOf h ih => intro φ σ Δ' hs; exact .tyOf (ih φ σ Δ' hs)
  | tyPi hA hB ihA ihB =>
    intro φ σ Δ' hs
    exact .tyPi (ihA φ σ Δ' hs) (ihB _ _ _ (hs.cons _))

/-- Terms that have a type are not kinds, nor function types into kinds. -/
theorem STyped.not_endsKind {K : KCtx} {Γ : LCtx} {Δ : BCtx} {t : Term} {J : Jdg}
    (h : STyped K Γ Δ t J) : ∀ T, J = .ty T → endsKind t = false := by
  induction h with
  | sym h1 _ _ => intro T _; exact h1
  | pi _ _ _ ih => intro T _; exact ih _ rfl
  | scheme φ hm hc hcl hφ ht ih iht => intro T _; exact iht _ rfl
  | extend _ _ ih => intro T _; exact ih _ rfl
  | forget _ ih => intro T _; exact ih _ rfl
  | tyType0 => rintro T ⟨⟩
  | tyClass => rintro T ⟨⟩
  | tyOf _ _ => rintro T ⟨⟩
  | tyPi => rintro T ⟨⟩
  | _ => intro T _; rfl

theorem SSubOk.one {K : KCtx} {Γ Γ' : LCtx} {Δ : BCtx} {A r : Term}
    (hΓ : ∀ i T, Γ.get i = some T → Γ'.get i = some T) (hr : STyped K Γ' Δ r (.ty A)) :
    SSubOk K fid (Term.one r) Γ (BCtx.cons A Δ) Γ' Δ := by
  refine ⟨?_, ?_, fun i => rfl, ?_⟩
  · intro i T hi hT
    rw [sub_closed _ _ bid T hT, sub_id]
    exact .fvar (hΓ _ _ hi) hT
  · intro i T hi
    cases i with
    | zero =>
      simp only [BCtx.cons, Option.some.injEq] at hi
      subst hi
      rw [← inst_zero_eq, inst_up]
      exact hr
    | succ i =>
      simp only [BCtx.cons, Option.map_eq_some_iff] at hi
      obtain ⟨T', h1, rfl⟩ := hi
      rw [← inst_zero_eq, inst_up]
      exact .bvar h1
  · intro i
    cases i with
    | zero => exact hr.not_endsKind _ rfl
    | succ i => rfl

theorem STyped.inst0 {K : KCtx} {Γ : LCtx} {Δ : BCtx} {A body r : Term} {J : Jdg}
    (h : STyped K Γ (BCtx.cons A Δ) body J) (hr : STyped K Γ Δ r (.ty A)) :
    STyped K Γ Δ (Term.inst 0 r body) (J.sub fid (one r)) := by
  rw [inst_zero_eq]
  exact h.sub _ _ _ (SSubOk.one (fun _ _ h => h) hr)

theorem STyped.weaken {K : KCtx} {Γ Γ' : LCtx} {Δ : BCtx} {t : Term} {J : Jdg}
    (h : STyped K Γ Δ t J) (hΓ : ∀ i T, Γ.get i = some T → Γ'.get i = some T) :
    STyped K Γ' Δ t J := by
  have := h.sub (Γ' := Γ') fid bid Δ ⟨by
    intro i T hi hT; rw [sub_id]; exact .fvar (hΓ _ _ hi) hT,
    by intro i T hi; rw [sub_id]; exact .bvar hi, fun _ => rfl, fun _ => rfl⟩
  rw [sub_id] at this
  cases J with
  | ty T => simpa [Jdg.sub, sub_id] using this
  | isTy => exact this

theorem STyped.open_fresh {K : KCtx} {Γ : LCtx} {A body : Term} {J : Jdg}
    (h : STyped K Γ (BCtx.cons A BCtx.nil) body J) (hA : A.escapes = false) :
    STyped K (Γ.pushTy A) BCtx.nil (Term.inst 0 (.fvar Γ.length) body)
      (J.sub fid (one (.fvar Γ.length))) := by
  rw [inst_zero_eq]
  exact h.sub _ _ _ (SSubOk.one (fun _ _ h => get_pushTy h) (.fvar get_pushTy_eq hA))

/-! ### Inversion -/

/-- How an application can be typed. -/
theorem STyped.app_inv {K : KCtx} {Γ : LCtx} {Δ : BCtx} {f a : Term} {J : Jdg}
    (h : STyped K Γ Δ (.app f a) J) :
    (∃ A B, J = .ty B ∧ STyped K Γ Δ f (.ty (.pi A (Term.ren Nat.succ B))) ∧
      STyped K Γ Δ a (.ty A) ∧ endsKind A = false ∧ endsKind B = false) ∨
    (∃ A B, STyped K Γ Δ f (.ty (.pi A B)) ∧ STyped K Γ Δ a (.ty A) ∧ endsKind A = true ∧
      (J = .ty (Term.inst 0 a B) ∨ (isKind (Term.inst 0 a B) = true ∧
        (J = .isTy ∨ ∃ T, J = .ty T ∧ isKind T = true)))) := by
  generalize ht : Term.app f a = t at h
  induction h with
  | appVal hf ha kA kB => cases ht; exact Or.inl ⟨_, _, rfl, hf, ha, kA, kB⟩
  | appTy hf ha kA => cases ht; exact Or.inr ⟨_, _, hf, ha, kA, Or.inl rfl⟩
  | scheme φ hm hc hcl hφ h0 ih iht =>
    rcases iht ht with ⟨A, B, h1, _, _, _, h2⟩ | ⟨A, B, h1, h2, h3, h4⟩
    · cases h1; cases h2
    · refine Or.inr ⟨A, B, h1, h2, h3, Or.inr ⟨?_, Or.inr ⟨_, rfl, rfl⟩⟩⟩
      rcases h4 with h4 | ⟨h4, _⟩
      · injection h4 with h4; rw [← h4]; rfl
      · exact h4
  | extend _ _ ih =>
    rcases ih ht with ⟨A, B, h1, _, _, _, h2⟩ | ⟨A, B, h1, h2, h3, h4⟩
    · cases h1; cases h2
    · refine Or.inr ⟨A, B, h1, h2, h3, Or.inr ⟨?_, Or.inr ⟨_, rfl, rfl⟩⟩⟩
      rcases h4 with h4 | ⟨h4, _⟩
      · injection h4 with h4; rw [← h4]; rfl
      · exact h4
  | forget _ ih =>
    rcases ih ht with ⟨A, B, h1, _, _, _, h2⟩ | ⟨A, B, h1, h2, h3, h4⟩
    · cases h1; cases h2
    · refine Or.inr ⟨A, B, h1, h2, h3, Or.inr ⟨?_, Or.inr ⟨_, rfl, rfl⟩⟩⟩
      rcases h4 with h4 | ⟨h4, _⟩
      · injection h4 with h4; rw [← h4]; rfl
      · exact h4
  | tyOf _ ih =>
    rcases ih ht with ⟨A, B, h1, _, _, _, h2⟩ | ⟨A, B, h1, h2, h3, h4⟩
    · cases h1; cases h2
    · refine Or.inr ⟨A, B, h1, h2, h3, Or.inr ⟨?_, Or.inl rfl⟩⟩
      rcases h4 with h4 | ⟨h4, _⟩
      · injection h4 with h4; rw [← h4]; rfl
      · exact h4
  | _ => cases ht

theorem STyped.lam_inv {K : KCtx} {Γ : LCtx} {Δ : BCtx} {A body : Term} {J : Jdg}
    (h : STyped K Γ Δ (.lam A body) J) : ∃ B, J = .ty (.pi A (Term.ren Nat.succ B)) ∧
      STyped K Γ Δ A .isTy ∧ STyped K Γ (BCtx.cons A Δ) body (.ty (Term.ren Nat.succ B)) ∧
      endsKind A = false ∧ endsKind B = false := by
  generalize ht : Term.lam A body = t at h
  induction h with
  | lam hA hb kA kB => cases ht; exact ⟨_, rfl, hA, hb, kA, kB⟩
  | scheme φ hm hc hcl hφ h0 ih iht => obtain ⟨B, h1, _⟩ := iht ht; cases h1
  | extend _ _ ih => obtain ⟨B, h1, _⟩ := ih ht; cases h1
  | forget _ ih => obtain ⟨B, h1, _⟩ := ih ht; cases h1
  | tyOf _ ih => obtain ⟨B, h1, _⟩ := ih ht; cases h1
  | _ => cases ht

theorem STyped.quant_inv {K : KCtx} {Γ : LCtx} {Δ : BCtx} {b : Binder} {A body : Term} {J : Jdg}
    (h : STyped K Γ Δ (.bind b A body) J) (hb : b = .all ∨ b = .ex) : J = .ty .boolTy ∧
      STyped K Γ Δ A .isTy ∧ STyped K Γ (BCtx.cons A Δ) body (.ty .boolTy) := by
  generalize ht : Term.bind b A body = t at h
  induction h with
  | all hA hb => cases ht; exact ⟨rfl, hA, hb⟩
  | ex hA hb => cases ht; exact ⟨rfl, hA, hb⟩
  | lam => cases ht; rcases hb with h | h <;> cases h
  | pi => cases ht; rcases hb with h | h <;> cases h
  | tyPi => cases ht; rcases hb with h | h <;> cases h
  | scheme φ hm hc hcl hφ h0 ih iht => obtain ⟨h1, _⟩ := iht ht; cases h1
  | extend _ _ ih => obtain ⟨h1, _⟩ := ih ht; cases h1
  | forget _ ih => obtain ⟨h1, _⟩ := ih ht; cases h1
  | tyOf _ ih => obtain ⟨h1, _⟩ := ih ht; cases h1
  | _ => cases ht

/-! ### Strengthening -/

/-- `s1, s2` is a pullback of `r1, r2`. -/
def Pull (r1 r2 s1 s2 : Nat → Nat) : Prop := ∀ i j, r1 i = r2 j → ∃ k, i = s1 k ∧ j = s2 k

theorem Pull.upr {r1 r2 s1 s2 : Nat → Nat} (h : Pull r1 r2 s1 s2) :
    Pull (upr r1) (upr r2) (upr s1) (upr s2) := by
  intro i j e
  cases i with
  | zero =>
    cases j with
    | zero => exact ⟨0, rfl, rfl⟩
    | succ j => simp [Term.upr] at e
  | succ i =>
    cases j with
    | zero => simp [Term.upr] at e
    | succ j =>
      simp only [Term.upr, Nat.add_right_cancel_iff] at e
      obtain ⟨k, rfl, rfl⟩ := h i j e
      exact ⟨k + 1, rfl, rfl⟩

theorem ren_pull (X : Term) : ∀ (Y : Term) (r1 r2 s1 s2 : Nat → Nat), Pull r1 r2 s1 s2 →
    Term.ren r1 X = Term.ren r2 Y → ∃ Z, X = Term.ren s1 Z ∧ Y = Term.ren s2 Z := by
  induction X with
  | atom a =>
    intro Y r1 r2 s1 s2 hp e
    match Y with
    | .atom b =>
      cases a with
      | bvar i =>
        cases b with
        | bvar j =>
          simp only [Term.ren, Term.atom.injEq, Atom.bvar.injEq] at e
          obtain ⟨k, rfl, rfl⟩ := hp i j e
          exact ⟨.bvar k, rfl, rfl⟩
        | _ => simp [Term.ren] at e
      | fvar i =>
        cases b with
        | bvar j => simp [Term.ren] at e
        | fvar j => simp only [Term.ren, Term.atom.injEq, Atom.fvar.injEq] at e; subst e; exact ⟨.fvar i, rfl, rfl⟩
        | sym j => simp [Term.ren] at e
      | sym s =>
        cases b with
        | bvar j => simp [Term.ren] at e
        | fvar j => simp [Term.ren] at e
        | sym j => simp only [Term.ren, Term.atom.injEq, Atom.sym.injEq] at e; subst e; exact ⟨.sym s, rfl, rfl⟩
    | .app f x => cases a <;> simp [Term.ren] at e
    | .bind b x y => cases a <;> simp [Term.ren] at e
  | app f a ihf iha =>
    intro Y r1 r2 s1 s2 hp e
    match Y with
    | .atom b => cases b <;> simp [Term.ren] at e
    | .app g x =>
      simp only [Term.ren, Term.app.injEq] at e
      obtain ⟨Z1, rfl, rfl⟩ := ihf _ _ _ _ _ hp e.1
      obtain ⟨Z2, rfl, rfl⟩ := iha _ _ _ _ _ hp e.2
      exact ⟨.app Z1 Z2, rfl, rfl⟩
    | .bind b x y => simp [Term.ren] at e
  | bind b A B ihA ihB =>
    intro Y r1 r2 s1 s2 hp e
    match Y with
    | .atom b => cases b <;> simp [Term.ren] at e
    | .app g x => simp [Term.ren] at e
    | .bind b' x y =>
      simp only [Term.ren, Term.bind.injEq] at e
      obtain ⟨rfl, e1, e2⟩ := e
      obtain ⟨Z1, rfl, rfl⟩ := ihA _ _ _ _ _ hp e1
      obtain ⟨Z2, rfl, rfl⟩ := ihB _ _ _ _ _ hp.upr e2
      exact ⟨.bind b Z1 Z2, rfl, rfl⟩

theorem ren_injective {r : Nat → Nat} (hr : ∀ i j, r i = r j → i = j) {X Y : Term}
    (e : Term.ren r X = Term.ren r Y) : X = Y := by
  obtain ⟨Z, rfl, rfl⟩ := ren_pull X Y r r id id (fun i j h => ⟨i, rfl, (hr i j h).symm⟩) e
  rfl

theorem upr_injective {r : Nat → Nat} (hr : ∀ i j, r i = r j → i = j) :
    ∀ i j, upr r i = upr r j → i = j := by
  intro i j e
  cases i <;> cases j <;> simp [upr] at e ⊢
  exact hr _ _ e

/-- A renaming commutes with weakening only for weakened terms. -/
theorem ren_upr_succ {r : Nat → Nat} {X Y : Term}
    (e : Term.ren (upr r) X = Term.ren Nat.succ Y) :
    ∃ Z, X = Term.ren Nat.succ Z ∧ Y = Term.ren r Z := by
  refine ren_pull X Y _ _ _ _ ?_ e
  intro i j h
  cases i with
  | zero => simp [upr] at h
  | succ i =>
    simp only [upr, Nat.succ_eq_add_one, Nat.add_right_cancel_iff] at h
    exact ⟨i, rfl, h.symm⟩

theorem sub_eq_ren (target : Term) : ∀ (φ : Nat → Term) (r : Nat → Nat) (g : Term) (i : Nat),
    Term.sub φ bid target = Term.ren r g → target.hasVar i = true → ∃ Z, φ i = Term.ren r Z := by
  induction target with
  | atom a =>
    intro φ r g i e hi
    cases a with
    | fvar j =>
      simp [hasVar, atoms] at hi
      subst hi
      exact ⟨g, e⟩
    | _ => simp [hasVar, atoms] at hi
  | app f a ihf iha =>
    intro φ r g i e hi
    rw [hasVar_app, Bool.or_eq_true] at hi
    match g with
    | .atom (.fvar _) => simp [Term.sub, Term.ren] at e
    | .atom (.bvar _) => simp [Term.sub, Term.ren] at e
    | .atom (.sym _) => simp [Term.sub, Term.ren] at e
    | .bind _ _ _ => simp [Term.sub, Term.ren] at e
    | .app g1 g2 =>
      simp only [Term.sub, Term.ren, Term.app.injEq] at e
      rcases hi with h | h
      · exact ihf _ _ _ _ e.1 h
      · exact iha _ _ _ _ e.2 h
  | bind b A B ihA ihB =>
    intro φ r g i e hi
    rw [hasVar_bind, Bool.or_eq_true] at hi
    match g with
    | .atom (.fvar _) => simp [Term.sub, Term.ren] at e
    | .atom (.bvar _) => simp [Term.sub, Term.ren] at e
    | .atom (.sym _) => simp [Term.sub, Term.ren] at e
    | .app _ _ => simp [Term.sub, Term.ren] at e
    | .bind b' g1 g2 =>
      simp only [Term.sub, Term.ren, Term.bind.injEq, ups_bid] at e
      obtain ⟨rfl, e1, e2⟩ := e
      rcases hi with h | h
      · exact ihA _ _ _ _ e1 h
      · obtain ⟨Z, hZ⟩ := ihB _ _ _ _ e2 h
        simp only [lift] at hZ
        obtain ⟨Z', h1, h2⟩ := ren_upr_succ hZ.symm
        exact ⟨Z', h2⟩

open Classical in
/-- A term that does not mention the variables outside the range of an injective renaming is typed
without them. -/
theorem STyped.strengthen {K : KCtx} {Γ : LCtx} {Δ' : BCtx} {t : Term} {J : Jdg}
    (h : STyped K Γ Δ' t J) : ∀ (r : Nat → Nat) (Δ : BCtx) (g : Term), (∀ i j, r i = r j → i = j) →
      (∀ i, Δ' (r i) = (Δ i).map (Term.ren r)) → t = Term.ren r g →
      ∃ J0 : Jdg, J = J0.ren r ∧ STyped K Γ Δ g J0 := by
  have hcons : ∀ {r : Nat → Nat} {Δ Δ' : BCtx} (A : Term),
      (∀ i, Δ' (r i) = (Δ i).map (Term.ren r)) →
      ∀ i, (BCtx.cons (Term.ren r A) Δ') (upr r i) = ((BCtx.cons A Δ) i).map (Term.ren (upr r)) := by
    intro r Δ Δ' A h i
    cases i with
    | zero => simp only [BCtx.cons, upr, Option.map_some, ren_ren]; rfl
    | succ i =>
      simp only [BCtx.cons, upr, h, Option.map_map]
      congr 1
      funext x
      simp only [Function.comp, ren_ren]
      rfl
  induction h with
  | @fvar _ i T h1 h2 =>
    intro r Δ g hr hΔ e
    match g, e with
    | .fvar j, e =>
      simp only [Term.ren] at e; cases e
      exact ⟨.ty T, by simp [Jdg.ren, ren_closed r T h2], .fvar h1 h2⟩
  | @bvar Δ' i T h1 =>
    intro r Δ g hr hΔ e
    match g, e with
    | .bvar j, e =>
      simp only [Term.ren] at e; cases e
      rw [hΔ] at h1
      simp only [Option.map_eq_some_iff] at h1
      obtain ⟨T0, h1, rfl⟩ := h1
      exact ⟨.ty T0, rfl, .bvar h1⟩
  | @sym _ s T h1 h2 h3 =>
    intro r Δ g hr hΔ e
    match g, e with
    | .sym s', e =>
      simp only [Term.ren] at e; cases e
      exact ⟨.ty T, by simp [Jdg.ren, ren_closed r T h3.1], .sym h1 h2 h3⟩
    | .bvar _, e => simp [Term.ren] at e
  | appVal hf ha kA kB ihf iha =>
    intro r Δ g hr hΔ e
    match g, e with
    | .bvar _, e => simp [Term.ren] at e
    | .app f0 a0, e =>
      simp only [Term.ren, Term.app.injEq] at e
      obtain ⟨Jf, e1, h1⟩ := ihf r Δ f0 hr hΔ e.1
      obtain ⟨Ja, e2, h2⟩ := iha r Δ a0 hr hΔ e.2
      cases Jf with
      | isTy => simp [Jdg.ren] at e1
      | ty Tf =>
        cases Ja with
        | isTy => simp [Jdg.ren] at e2
        | ty Ta =>
          simp only [Jdg.ren, Jdg.ty.injEq] at e1 e2
          match Tf, e1, h1 with
          | .bvar _, e1, _ => simp [Term.ren] at e1
          | .bind b A0 B0, e1, h1 =>
            simp only [Term.ren, Term.bind.injEq] at e1
            obtain ⟨rfl, e3, e4⟩ := e1
            obtain ⟨B1, rfl, rfl⟩ := ren_upr_succ e4.symm
            rw [e3] at e2
            have := ren_injective hr e2
            subst this
            subst e3
            rw [endsKind_ren] at kA kB
            exact ⟨.ty B1, rfl, .appVal h1 h2 kA kB⟩
  | appTy hf ha kA ihf iha =>
    intro r Δ g hr hΔ e
    match g, e with
    | .bvar _, e => simp [Term.ren] at e
    | .app f0 a0, e =>
      simp only [Term.ren, Term.app.injEq] at e
      obtain ⟨Jf, e1, h1⟩ := ihf r Δ f0 hr hΔ e.1
      obtain ⟨Ja, e2, h2⟩ := iha r Δ a0 hr hΔ e.2
      cases Jf with
      | isTy => simp [Jdg.ren] at e1
      | ty Tf =>
        cases Ja with
        | isTy => simp [Jdg.ren] at e2
        | ty Ta =>
          simp only [Jdg.ren, Jdg.ty.injEq] at e1 e2
          match Tf, e1, h1 with
          | .bvar _, e1, _ => simp [Term.ren] at e1
          | .bind b A0 B0, e1, h1 =>
            simp only [Term.ren, Term.bind.injEq] at e1
            obtain ⟨rfl, e3, e4⟩ := e1
            rw [e3] at e2
            have := ren_injective hr e2
            subst this
            subst e3
            rw [endsKind_ren] at kA
            refine ⟨.ty (Term.inst 0 a0 B0), ?_, .appTy h1 h2 kA⟩
            simp only [Jdg.ren, ren_inst]
            rw [e.2, e4]
  | lam hA hb kA kB ihA ihb =>
    intro r Δ g hr hΔ e
    match g, e with
    | .bvar _, e => simp [Term.ren] at e
    | .bind b A0 b0, e =>
      simp only [Term.ren, Term.bind.injEq] at e
      obtain ⟨rfl, rfl, e2⟩ := e
      obtain ⟨JA, e3, h3⟩ := ihA r Δ A0 hr hΔ rfl
      obtain ⟨Jb, e4, h4⟩ := ihb (upr r) (BCtx.cons A0 Δ) b0 (upr_injective hr) (hcons A0 hΔ) e2
      cases JA with
      | ty _ => simp [Jdg.ren] at e3
      | isTy =>
        cases Jb with
        | isTy => simp [Jdg.ren] at e4
        | ty Tb =>
          simp only [Jdg.ren, Jdg.ty.injEq] at e4
          obtain ⟨B1, rfl, rfl⟩ := ren_upr_succ e4.symm
          rw [endsKind_ren] at kA kB
          refine ⟨.ty (.pi A0 (Term.ren Nat.succ B1)), ?_, .lam h3 h4 kA kB⟩
          simp only [Jdg.ren, Term.ren, ren_ren]
          rfl
  | all hA hb ihA ihb =>
    intro r Δ g hr hΔ e
    match g, e with
    | .bvar _, e => simp [Term.ren] at e
    | .bind b A0 b0, e =>
      simp only [Term.ren, Term.bind.injEq] at e
      obtain ⟨rfl, rfl, e2⟩ := e
      obtain ⟨JA, e3, h3⟩ := ihA r Δ A0 hr hΔ rfl
      obtain ⟨Jb, e4, h4⟩ := ihb (upr r) (BCtx.cons A0 Δ) b0 (upr_injective hr) (hcons A0 hΔ) e2
      cases JA with
      | ty _ => simp [Jdg.ren] at e3
      | isTy =>
        cases Jb with
        | isTy => simp [Jdg.ren] at e4
        | ty Tb =>
          simp only [Jdg.ren, Jdg.ty.injEq] at e4
          have : Tb = .boolTy := ren_injective (upr_injective hr) (X := Tb) (Y := .boolTy) e4.symm
          subst this
          exact ⟨.ty .boolTy, rfl, .all h3 h4⟩
  | ex hA hb ihA ihb =>
    intro r Δ g hr hΔ e
    match g, e with
    | .bvar _, e => simp [Term.ren] at e
    | .bind b A0 b0, e =>
      simp only [Term.ren, Term.bind.injEq] at e
      obtain ⟨rfl, rfl, e2⟩ := e
      obtain ⟨JA, e3, h3⟩ := ihA r Δ A0 hr hΔ rfl
      obtain ⟨Jb, e4, h4⟩ := ihb (upr r) (BCtx.cons A0 Δ) b0 (upr_injective hr) (hcons A0 hΔ) e2
      cases JA with
      | ty _ => simp [Jdg.ren] at e3
      | isTy =>
        cases Jb with
        | isTy => simp [Jdg.ren] at e4
        | ty Tb =>
          simp only [Jdg.ren, Jdg.ty.injEq] at e4
          have : Tb = .boolTy := ren_injective (upr_injective hr) (X := Tb) (Y := .boolTy) e4.symm
          subst this
          exact ⟨.ty .boolTy, rfl, .ex h3 h4⟩
  | pi hA hb ihA ihb =>
    intro r Δ g hr hΔ e
    match g, e with
    | .bvar _, e => simp [Term.ren] at e
    | .bind b A0 b0, e =>
      simp only [Term.ren, Term.bind.injEq] at e
      obtain ⟨rfl, rfl, e2⟩ := e
      obtain ⟨JA, e3, h3⟩ := ihA r Δ A0 hr hΔ rfl
      obtain ⟨Jb, e4, h4⟩ := ihb (upr r) (BCtx.cons A0 Δ) b0 (upr_injective hr) (hcons A0 hΔ) e2
      cases JA with
      | isTy => simp [Jdg.ren] at e3
      | ty TA =>
        cases Jb with
        | isTy => simp [Jdg.ren] at e4
        | ty Tb =>
          simp only [Jdg.ren, Jdg.ty.injEq] at e3 e4
          have h5 : Tb = .type0 := ren_injective (upr_injective hr) (X := Tb) (Y := .type0) e4.symm
          have h6 : TA = .type0 := ren_injective hr (X := TA) (Y := .type0) e3.symm
          subst h5 h6
          exact ⟨.ty .type0, rfl, .pi h3 h4⟩
  | @inst _ m l c h h' =>
    intro r Δ g hr hΔ e
    match g, e with
    | .bvar _, e => simp [Term.ren] at e
    | .sym s', e =>
      simp only [Term.ren] at e; cases e
      exact ⟨.ty (.sym (.typeclass c.1 c.2)), rfl, .inst h h'⟩
  | @scheme _ c sctx target φ hm hc hk hφ ht ih iht =>
    intro r Δ g hr hΔ e
    obtain ⟨J0, e0, h0⟩ := iht r Δ g hr hΔ e
    cases J0 with
    | isTy => simp [Jdg.ren] at e0
    | ty T0 =>
      simp only [Jdg.ren, Jdg.ty.injEq] at e0
      have h6 : T0 = .type0 := ren_injective hr (X := T0) (Y := .type0) e0.symm
      subst h6
      have hφ0 : ∀ i, ∃ Z, target.hasVar i = true → φ i = Term.ren r Z := by
        intro i
        by_cases hi : target.hasVar i = true
        · obtain ⟨Z, hZ⟩ := sub_eq_ren target φ r g i e hi
          exact ⟨Z, fun _ => hZ⟩
        · exact ⟨.tt, fun h => absurd h hi⟩
      let φ0 : Nat → Term := fun i => choose (hφ0 i)
      have hφ1 : ∀ i, target.hasVar i = true → φ i = Term.ren r (φ0 i) :=
        fun i => choose_spec (hφ0 i)
      have eg : g = Term.sub φ0 bid target := by
        apply ren_injective hr
        rw [← e, ren_sub]
        rw [sub_fvars target φ (fun i => Term.ren r (φ0 i)) bid hφ1]
        exact sub_closed _ _ _ target hc
      subst eg
      refine ⟨.ty (.sym (.typeclass c.1 c.2)), rfl, .scheme φ0 hm hc hk ?_ h0⟩
      intro i T hi
      obtain ⟨J1, e1, h1⟩ := ih i T hi r Δ (φ0 i) hr hΔ (hφ1 i (hk i T hi).2)
      cases J1 with
      | isTy => simp [Jdg.ren] at e1
      | ty T1 =>
        simp only [Jdg.ren, Jdg.ty.injEq] at e1
        have hT := (hk i T hi).1
        match T, hT with
        | .sym s, _ =>
          have : T1 = .sym s := ren_injective hr (X := T1) (Y := .sym s) e1.symm
          rw [this] at h1
          exact h1
  | @extend _ t c d h he ih =>
    intro r Δ g hr hΔ e
    obtain ⟨J0, e0, h0⟩ := ih r Δ g hr hΔ e
    cases J0 with
    | isTy => simp [Jdg.ren] at e0
    | ty T0 =>
      simp only [Jdg.ren, Jdg.ty.injEq] at e0
      have h6 : T0 = .sym (.typeclass c.1 c.2) :=
        ren_injective hr (X := T0) (Y := .sym (.typeclass c.1 c.2)) e0.symm
      subst h6
      exact ⟨.ty (.sym (.typeclass d.1 d.2)), rfl, .extend h0 he⟩
  | @forget _ t m l h ih =>
    intro r Δ g hr hΔ e
    obtain ⟨J0, e0, h0⟩ := ih r Δ g hr hΔ e
    cases J0 with
    | isTy => simp [Jdg.ren] at e0
    | ty T0 =>
      simp only [Jdg.ren, Jdg.ty.injEq] at e0
      have h6 : T0 = .sym (.typeclass m l) :=
        ren_injective hr (X := T0) (Y := .sym (.typeclass m l)) e0.symm
      subst h6
      exact ⟨.ty .type0, rfl, .forget h0⟩
  | tyType0 =>
    intro r Δ g hr hΔ e
    have : g = .type0 := ren_injective hr (X := g) (Y := .type0) e.symm
    subst this
    exact ⟨.isTy, rfl, .tyType0⟩
  | @tyClass _ m l =>
    intro r Δ g hr hΔ e
    have : g = .sym (.typeclass m l) :=
      ren_injective hr (X := g) (Y := .sym (.typeclass m l)) e.symm
    subst this
    exact ⟨.isTy, rfl, .tyClass⟩
  | tyOf h ih =>
    intro r Δ g hr hΔ e
    obtain ⟨J0, e0, h0⟩ := ih r Δ g hr hΔ e
    cases J0 with
    | isTy => simp [Jdg.ren] at e0
    | ty T0 =>
      simp only [Jdg.ren, Jdg.ty.injEq] at e0
      have h6 : T0 = .type0 := ren_injective hr (X := T0) (Y := .type0) e0.symm
      subst h6
      exact ⟨.isTy, rfl, .tyOf h0⟩
  | tyPi hA hb ihA ihb =>
    intro r Δ g hr hΔ e
    match g, e with
    | .bvar _, e => simp [Term.ren] at e
    | .bind b A0 b0, e =>
      simp only [Term.ren, Term.bind.injEq] at e
      obtain ⟨rfl, rfl, e2⟩ := e
      obtain ⟨JA, e3, h3⟩ := ihA r Δ A0 hr hΔ rfl
      obtain ⟨Jb, e4, h4⟩ := ihb (upr r) (BCtx.cons A0 Δ) b0 (upr_injective hr) (hcons A0 hΔ) e2
      cases JA with
      | ty _ => simp [Jdg.ren] at e3
      | isTy =>
        cases Jb with
        | ty _ => simp [Jdg.ren] at e4
        | isTy => exact ⟨.isTy, rfl, .tyPi h3 h4⟩

/-- Dropping an unused bound variable. -/
theorem STyped.drop {K : KCtx} {Γ : LCtx} {Δ : BCtx} {A g : Term} {J : Jdg}
    (h : STyped K Γ (BCtx.cons A Δ) (Term.ren Nat.succ g) J) :
    ∃ J0 : Jdg, J = J0.ren Nat.succ ∧ STyped K Γ Δ g J0 :=
  h.strengthen Nat.succ Δ g (fun _ _ h => Nat.succ.inj h) (fun i => rfl) rfl

end Spec
end Acorn
