/-
Soundness of `checkedType` for terms whose binder bodies are themselves checked.
-/
import Verif.Lemmas.GetType
namespace Acorn
namespace Spec
open Term

mutual
/-- The type checker accepts not only the term itself but also what it does not look at: the bodies
of quantifiers, the annotations of binders, and function types used as types; arguments in typeclass
position really are instances; and `Type0` and typeclasses do not occur as values. -/
inductive DeepOk (K : KCtx) : LCtx → Term → Prop
  | fvar {Γ i} : DeepOk K Γ (.fvar i)
  | sym {Γ s} : isKindSym s = false → (∀ T, K.symbolType s = some T → T.Ground) → DeepOk K Γ (.sym s)
  | app {Γ f a} : DeepOk K Γ f → DeepOk K Γ a →
      (∀ A B m l, checkedType K Γ f = some (.pi A B) → A = .sym (.typeclass m l) →
        HasType K Γ a (.sym (.typeclass m l))) →
      DeepOk K Γ (.app f a)
  | lam {Γ A body opened} : TypeOk K Γ A → openBound body (.fvar Γ.length) = some opened →
      DeepOk K (Γ.pushTy A) opened →
      (∀ T, checkedType K (Γ.pushTy A) opened = some T → isKind T = false) →
      body.hasVar Γ.length = false →
      DeepOk K Γ (.lam A body)
  | all {Γ A body opened} : TypeOk K Γ A → openBound body (.fvar Γ.length) = some opened →
      DeepOk K (Γ.pushTy A) opened → checkedType K (Γ.pushTy A) opened = some .boolTy →
      body.hasVar Γ.length = false →
      DeepOk K Γ (.all A body)
  | ex {Γ A body opened} : TypeOk K Γ A → openBound body (.fvar Γ.length) = some opened →
      DeepOk K (Γ.pushTy A) opened → checkedType K (Γ.pushTy A) opened = some .boolTy →
      body.hasVar Γ.length = false →
      DeepOk K Γ (.ex A body)
  | pi {Γ A body opened T U} : DeepOk K Γ A → checkedType K Γ A = some T → isKind T = true →
      openBound body (.fvar Γ.length) = some opened →
      DeepOk K (Γ.pushTy A) opened → checkedType K (Γ.pushTy A) opened = some U → isKind U = true →
      body.hasVar Γ.length = false →
      DeepOk K Γ (.pi A body)
/-- A binder annotation: a kind, a term the checker accepts as a type, or a function type between
such. -/
inductive TypeOk (K : KCtx) : LCtx → Term → Prop
  | type0 {Γ} : TypeOk K Γ .type0
  | cls {Γ m l} : TypeOk K Γ (.sym (.typeclass m l))
  | of {Γ A T} : DeepOk K Γ A → checkedType K Γ A = some T → isKind T = true → TypeOk K Γ A
  | pi {Γ A body opened} : TypeOk K Γ A → openBound body (.fvar Γ.length) = some opened →
      TypeOk K (Γ.pushTy A) opened → body.hasVar Γ.length = false → TypeOk K Γ (.pi A body)
end

theorem isKind_iff {T : Term} : isKind T = true ↔ T = .type0 ∨ ∃ m l, T = .sym (.typeclass m l) := by
  constructor
  · intro h
    match T, h with
    | .sym .type0, _ => exact Or.inl rfl
    | .sym (.typeclass m l), _ => exact Or.inr ⟨m, l, rfl⟩
  · rintro (rfl | ⟨m, l, rfl⟩) <;> rfl

theorem Typed.of_kind {K : KCtx} {Γ : LCtx} {Δ : BCtx} {t T : Term} (h : Typed K Γ Δ t (.ty T))
    (hk : isKind T = true) : Typed K Γ Δ t (.ty .type0) := by
  rcases isKind_iff.1 hk with rfl | ⟨m, l, rfl⟩
  · exact h
  · exact .forget h

theorem isTypeParamKind_iff {T : Term} : T.isTypeParamKind = true ↔ isKind T = true := by
  rw [isKind_iff]
  simp only [isTypeParamKind, isType0, Bool.or_eq_true, beq_iff_eq]
  constructor
  · rintro (h | h)
    · exact Or.inl h
    · match T, h with
      | .sym (.typeclass m l), _ => exact Or.inr ⟨m, l, rfl⟩
  · rintro (h | ⟨m, l, rfl⟩)
    · exact Or.inl h
    · right; rfl

theorem asTypeclass_eq {T : Term} {c : Id2} (h : T.asTypeclass = some c) :
    T = .sym (.typeclass c.1 c.2) := by
  match T, h with
  | .sym (.typeclass m l), h => cases h; rfl

/-- If the checker accepts a term, together with everything it skips, the term has the computed
type. -/
theorem typed_of_checkedType {K : KCtx} : ∀ (n : Nat) {Γ : LCtx} {t : Term}, t.size ≤ n → CtxOk Γ →
    (∀ T, DeepOk K Γ t → checkedType K Γ t = some T → HasType K Γ t T) ∧
    (TypeOk K Γ t → Typed K Γ BCtx.nil t .isTy) := by
  intro n
  induction n with
  | zero => intro Γ t hn; cases t <;> simp [Term.size] at hn
  | succ n ih =>
    intro Γ t hn hΓ
    have part1 : ∀ T, DeepOk K Γ t → checkedType K Γ t = some T → HasType K Γ t T := by
      intro T hd hc
      cases hd with
      | fvar =>
        rw [checkedType] at hc
        exact .fvar hc (hΓ _ _ hc).1
      | sym h1 h2 =>
        rw [checkedType] at hc
        exact .sym h1 hc (h2 _ hc)
      | @app _ f a h1 h2 h3 =>
        simp only [Term.size] at hn
        rw [checkedType] at hc
        simp only [Option.bind_eq_bind, Option.bind_eq_some_iff] at hc
        obtain ⟨fty, hf, aty, ha, ⟨A, B⟩, hs, hc⟩ := hc
        have e : fty = .pi A B := by
          match fty, hs with
          | .pi A B, hs => simp [splitPi] at hs; obtain ⟨rfl, rfl⟩ := hs; rfl
        subst e
        have tf := (ih (t := f) (by omega) hΓ).1 _ h1 hf
        have ta := (ih (t := a) (by omega) hΓ).1 _ h2 ha
        simp only at hc
        split at hc
        · rename_i hv
          rw [typeApply_pi] at hc
          cases hc
          refine .app tf ?_
          simp only [validArg] at hv
          split at hv
          · rename_i c hcl
            have := asTypeclass_eq hcl
            rw [this]
            exact h3 A B _ _ hf this
          · split at hv
            · rename_i h0
              simp only [isType0, beq_iff_eq] at h0
              subst h0
              exact ta.of_kind (isTypeParamKind_iff.1 hv)
            · simp only [beq_iff_eq] at hv
              subst hv
              exact ta
        · cases hc
      | @lam _ A body opened h1 h2 h3 h4 h5 =>
        simp only [Term.size] at hn
        have hA := (ih (t := A) (by omega) hΓ).2 h1
        have hAc := (hA.closed 0 BScoped.nil).1
        have hAs := (hA.fscoped hΓ (by intro i T h; cases h)).1
        have hsz := size_openBound_fvar _ _ _ h2
        rw [checkedType] at hc
        split at hc
        · cases hc
        · rename_i o ho
          rw [h2] at ho; cases ho
          simp only [Option.bind_eq_bind, Option.bind_eq_some_iff, Option.pure_def,
            Option.some.injEq] at hc
          obtain ⟨U, hU, rfl⟩ := hc
          have tb := (ih (t := opened) (by omega) (hΓ.push hAc hAs)).1 _ h3 hU
          rw [openBound_eq] at h2
          cases h2
          have tc := Typed.close_fresh hΓ hAc hAs h5 tb
          simp only [Jdg.sub] at tc
          have eU : Term.sub (fun i => if i = Γ.length then .bvar 0 else .fvar i)
              (fun i => .bvar (i + 1)) U = abstractVar Γ.length 0 U := by
            rw [abstractVar_eq_sub]; simp
          rw [eU] at tc
          refine .lam hA tc ?_
          have hk := h4 U hU
          cases U with
          | atom a =>
            cases a with
            | fvar i => simp only [abstractVar]; split <;> rfl
            | bvar i => simp only [abstractVar]; split <;> rfl
            | sym s => exact hk
          | _ => rfl
      | @all _ A body opened h1 h2 h3 h4 h5 =>
        simp only [Term.size] at hn
        have hA := (ih (t := A) (by omega) hΓ).2 h1
        have hAc := (hA.closed 0 BScoped.nil).1
        have hAs := (hA.fscoped hΓ (by intro i T h; cases h)).1
        have hsz := size_openBound_fvar _ _ _ h2
        rw [checkedType] at hc
        cases hc
        have tb := (ih (t := opened) (by omega) (hΓ.push hAc hAs)).1 _ h3 h4
        rw [openBound_eq] at h2
        cases h2
        exact .all hA (Typed.close_fresh hΓ hAc hAs h5 tb)
      | @ex _ A body opened h1 h2 h3 h4 h5 =>
        simp only [Term.size] at hn
        have hA := (ih (t := A) (by omega) hΓ).2 h1
        have hAc := (hA.closed 0 BScoped.nil).1
        have hAs := (hA.fscoped hΓ (by intro i T h; cases h)).1
        have hsz := size_openBound_fvar _ _ _ h2
        rw [checkedType] at hc
        cases hc
        have tb := (ih (t := opened) (by omega) (hΓ.push hAc hAs)).1 _ h3 h4
        rw [openBound_eq] at h2
        cases h2
        exact .ex hA (Typed.close_fresh hΓ hAc hAs h5 tb)
      | @pi _ A body opened T U h1 h2 h3 h4 h5 h6 h7 h8 =>
        simp only [Term.size] at hn
        have hA := ((ih (t := A) (by omega) hΓ).1 _ h1 h2).of_kind h3
        have hAc := (HasType.closed hA).1
        have hAs := (HasType.fscoped hΓ hA).1
        have hsz := size_openBound_fvar _ _ _ h4
        rw [checkedType] at hc
        cases hc
        have tb := ((ih (t := opened) (by omega) (hΓ.push hAc hAs)).1 _ h5 h6).of_kind h7
        rw [openBound_eq] at h4
        cases h4
        exact .pi hA (Typed.close_fresh hΓ hAc hAs h8 tb)
    refine ⟨part1, ?_⟩
    intro ht
    cases ht with
    | type0 => exact .tyType0
    | cls => exact .tyClass
    | of h1 h2 h3 => exact .tyOf ((part1 _ h1 h2).of_kind h3)
    | @pi _ A body opened h1 h2 h3 h4 =>
      simp only [Term.size] at hn
      have hA := (ih (t := A) (by omega) hΓ).2 h1
      have hAc := (hA.closed 0 BScoped.nil).1
      have hAs := (hA.fscoped hΓ (by intro i T h; cases h)).1
      have hsz := size_openBound_fvar _ _ _ h2
      have tb := (ih (t := opened) (by omega) (hΓ.push hAc hAs)).2 h3
      rw [openBound_eq] at h2
      cases h2
      exact .tyPi hA (Typed.close_fresh hΓ hAc hAs h4 tb)

/-- The typeclass-argument check is sound for type atoms and for type variables whose declared type
is itself a kind, when there are no instance schemes. -/
theorem validTypeclassArg_sound {K : KCtx} {Γ : LCtx} (hs : ∀ c, K.schemes c = [])
    (hi : ∀ m l c, K.isInstanceOf (m, l) c = true → K.paramKinds (m, l) = [])
    {c : Id2} {arg : Term} (hv : ∀ i, arg = .fvar i → ∀ T, Γ.get i = some T → isKind T = true)
    (h : validTypeclassArg K Γ c arg = true) : HasType K Γ arg (.sym (.typeclass c.1 c.2)) := by
  have hvar : ∀ i a, Γ.get i = some (.sym (.typeclass a.1 a.2)) →
      (a == c || K.tcExtends a c) = true → HasType K Γ (.fvar i) (.sym (.typeclass c.1 c.2)) := by
    intro i a hg he
    have h1 : HasType K Γ (.fvar i) (.sym (.typeclass a.1 a.2)) := .fvar hg rfl
    rw [Bool.or_eq_true, beq_iff_eq] at he
    rcases he with rfl | he
    · exact h1
    · exact .extend h1 he
  have hinst : K.isInst Γ arg c = true → HasType K Γ arg (.sym (.typeclass c.1 c.2)) := by
    intro hI
    simp only [KCtx.isInst, KCtx.isInstFuel, hs, List.any_nil, Bool.or_eq_true] at hI
    rcases hI with hI | hI
    · split at hI
      · rename_i g hg
        match arg, hg with
        | .sym (.type m l), hg =>
          cases hg
          exact .inst hI (hi _ _ _ hI)
      · cases hI
    · split at hI
      · rename_i a ha
        simp only [KCtx.typeclassConstraint] at ha
        split at ha
        · rename_i i hi
          match arg, hi with
          | .fvar i, hi =>
            cases hi
            simp only [Option.bind_eq_some_iff] at ha
            obtain ⟨T, hT, hc⟩ := ha
            rw [asTypeclass_eq hc] at hT
            exact hvar i a hT hI
        · cases ha
      · cases hI
  have hres : ∀ i T, arg = .fvar i → Γ.get i = some T →
      (match resolveConstraint Γ (Γ.length + 1) T with
        | some a => a == c || K.tcExtends a c
        | none => false) = true → HasType K Γ arg (.sym (.typeclass c.1 c.2)) := by
    intro i T harg hT hR
    have hk := hv i harg T hT
    rcases isKind_iff.1 hk with rfl | ⟨m, l, rfl⟩
    · simp [resolveConstraint] at hR
    · simp only [resolveConstraint] at hR
      subst harg
      exact hvar i (m, l) hT hR
  simp only [validTypeclassArg] at h
  split at h
  · cases h
  · split at h
    · cases h
    · split at h
      · cases h
      · cases h
      · split at h
        · rename_i hh; exact hinst hh
        · split at h
          · cases h
          · rename_i i hi
            have harg : arg = .fvar i := by
              cases arg with
              | atom a => cases a <;> simp [atomicVariable] at hi; subst hi; rfl
              | app => simp [atomicVariable] at hi
              | bind => simp [atomicVariable] at hi
            split at h
            · cases h
            · rename_i T hT
              exact hres i T harg hT h

end Spec
end Acorn
