/-
Fingerprints of terms with a common instance.
-/
import Verif.Spec.Fingerprint
import Verif.Lemmas.GetType
namespace Acorn
namespace Fingerprint

open Spec Term

theorem ctxOk_of {Γ : LCtx} (h : ContextOk Γ) : CtxOk Γ := fun i T e =>
  ⟨(h i T e).1, fun j hj => by obtain ⟨U, hU⟩ := (h i T e).2 j hj; simp [hU]⟩

theorem subOk_of {K : KCtx} {φ : Nat → Term} {Γ Γ' : LCtx} (h : WellTypedSubst K φ Γ Γ') :
    SubOk K φ bid Γ BCtx.nil Γ' BCtx.nil :=
  ⟨fun i T e _ => h.1 i T e, fun _ _ e => by simp [BCtx.nil] at e, h.2, fun _ => rfl⟩

/-! ### Categories of types -/

/-- Categories of kinds. -/
def Category.Kindly : Category → Prop
  | .type0 => True
  | .typeclass _ => True
  | _ => False

/-- What the category of a term can be, given its type. -/
def CatOf (c : Category) (T : Term) : Prop :=
  c = .variable ∨ c = .ofType T ∨ (isKind T = true ∧ c.Kindly)

theorem ofType_kindly {T : Term} (h : isKind T = true) : (Category.ofType T).Kindly := by
  unfold isKind at h
  split at h
  · rename_i s
    cases s <;> simp [isKindSym] at h
    · simp [Category.ofType, atomicVariable, asTypeclass, isBoolType, isType0, Category.Kindly]
    · simp [Category.ofType, atomicVariable, asTypeclass, Category.Kindly]
  · cases h

theorem couldMatch_kindly {a b : Category} (ha : a.Kindly) (hb : b.Kindly) : a.couldMatch b = true := by
  cases a <;> cases b <;> simp_all [Category.Kindly, Category.couldMatch]

theorem couldMatch_variable (a : Category) : a.couldMatch .variable = true := by
  cases a <;> rfl

theorem couldMatch_refl (a : Category) : a.couldMatch a = true := by
  cases a <;> simp [Category.couldMatch]

theorem ofType_fvar (i : Nat) : Category.ofType (.fvar i) = .variable := by
  simp [Category.ofType, atomicVariable]

/-- Replacing variables does not change the category, unless the type is a variable itself. -/
theorem ofType_sub (φ : Nat → Term) (σ : Nat → Term) (T : Term) (hf : ∀ i, T ≠ .fvar i) (hb : ∀ i, T ≠ .bvar i) :
    Category.ofType (sub φ σ T) = Category.ofType T := by
  cases T with
  | atom a =>
    cases a with
    | fvar i => exact absurd rfl (hf i)
    | bvar i => exact absurd rfl (hb i)
    | sym s => rfl
  | app f a => rfl
  | bind b A B => cases b <;> rfl

/-- Without bound variables to replace, dangling ones do not matter either. -/
theorem ofType_sub_bid (φ : Nat → Term) (T : Term) (hf : ∀ i, T ≠ .fvar i) :
    Category.ofType (sub φ bid T) = Category.ofType T := by
  by_cases hb : ∃ i, T = .bvar i
  · obtain ⟨i, rfl⟩ := hb; rfl
  · exact ofType_sub φ bid T hf (fun i e => hb ⟨i, e⟩)

theorem catOf_couldMatch {c1 c2 : Category} {T1 T2 : Term} {φ ψ : Nat → Term} (h1 : CatOf c1 T1)
    (h2 : CatOf c2 T2)
    (e : sub φ bid T1 = sub ψ bid T2 ∨ (isKind (sub φ bid T1) = true ∧ isKind (sub ψ bid T2) = true)) :
    c1.couldMatch c2 = true := by
  -- either side is a variable, or the type is none
  have key : ∀ {c : Category} {T : Term} (φ : Nat → Term), CatOf c T → c = .variable ∨
      ((∀ i, T ≠ .fvar i) ∧ (c = .ofType (sub φ bid T) ∨ (isKind (sub φ bid T) = true ∧ c.Kindly))) := by
    intro c T φ h
    by_cases hT : ∃ i, T = .fvar i
    · obtain ⟨i, rfl⟩ := hT
      rcases h with h | h | ⟨h, _⟩
      · exact Or.inl h
      · rw [ofType_fvar] at h; exact Or.inl h
      · cases h
    · have hT' : ∀ i, T ≠ .fvar i := fun i e => hT ⟨i, e⟩
      rcases h with h | h | ⟨h, hk⟩
      · exact Or.inl h
      · exact Or.inr ⟨hT', Or.inl (by rw [ofType_sub_bid φ T hT']; exact h)⟩
      · refine Or.inr ⟨hT', Or.inr ⟨?_, hk⟩⟩
        cases T with
        | atom a => cases a <;> first | exact h | cases h
        | app f a => cases h
        | bind b A B => cases h
  rcases key φ h1 with rfl | ⟨-, k1⟩
  · cases c2 <;> rfl
  rcases key ψ h2 with rfl | ⟨-, k2⟩
  · exact couldMatch_variable _
  rcases e with e | ⟨e1, e2⟩
  · rw [e] at k1
    rcases k1 with rfl | ⟨q1, q2⟩
    · rcases k2 with rfl | ⟨q1, q2⟩
      · exact couldMatch_refl _
      · exact couldMatch_kindly (ofType_kindly q1) q2
    · rcases k2 with rfl | ⟨-, q2'⟩
      · exact couldMatch_kindly q2 (ofType_kindly q1)
      · exact couldMatch_kindly q2 q2'
  · have r1 : c1.Kindly := by
      rcases k1 with rfl | ⟨_, q⟩
      · exact ofType_kindly e1
      · exact q
    have r2 : c2.Kindly := by
      rcases k2 with rfl | ⟨_, q⟩
      · exact ofType_kindly e2
      · exact q
    exact couldMatch_kindly r1 r2

/-! ### The category of a term -/

theorem head_spec : ∀ (t : Term), HeadsAtomic t → (match t with | .bind _ _ _ => False | _ => True) →
    ∃ h as, t = (Term.atom h).apply as ∧ headAndCount t = (h, as.length)
  | .atom a, _, _ => ⟨a, [], rfl, rfl⟩
  | .app f a, ⟨h1, h2, _⟩, _ => by
    obtain ⟨h, as, e, e'⟩ := head_spec f h2 h1
    refine ⟨h, as ++ [a], ?_, ?_⟩
    · rw [e]; simp [Term.apply]
    · simp [headAndCount, e']

theorem infer_app {K : KCtx} {Γ : LCtx} {Δ : BCtx} {f a T : Term} (h : infer K Γ Δ (.app f a) = some T) :
    ∃ A B, infer K Γ Δ f = some (.pi A B) ∧ T = Term.inst 0 a B := by
  simp only [infer] at h
  split at h
  · rename_i A B e
    cases h
    exact ⟨A, B, e, rfl⟩
  · cases h

theorem infer_apply_prefix {K : KCtx} {Γ : LCtx} {Δ : BCtx} : ∀ (as : List Term) (f T : Term),
    infer K Γ Δ (f.apply as) = some T → ∃ U, infer K Γ Δ f = some U
  | [], f, T, h => ⟨T, h⟩
  | a :: as, f, T, h => by
    obtain ⟨U, hU⟩ := infer_apply_prefix as (.app f a) T h
    obtain ⟨A, B, e, -⟩ := infer_app hU
    exact ⟨_, e⟩

/-- Peeling finds the result type before instantiation. -/
theorem peel_spec {K : KCtx} {Γ : LCtx} {Δ : BCtx} : ∀ (as : List Term) (f C C' T : Term) (σ : Nat → Term),
    infer K Γ Δ f = some (sub fid σ C) → peel as.length C = some C' →
    infer K Γ Δ (f.apply as) = some T → ∃ σ', T = sub fid σ' C'
  | [], f, C, C', T, σ, h1, h2, h3 => by
    simp only [peel, List.length_nil, Option.some.injEq] at h2
    subst h2
    rw [show f.apply [] = f from rfl, h1] at h3
    cases h3
    exact ⟨σ, rfl⟩
  | a :: as, f, C, C', T, σ, h1, h2, h3 => by
    simp only [peel, List.length_cons] at h2
    split at h2
    · cases h2
    · rename_i A out hne hs
      have hC : C = .pi A out := by
        unfold splitPi at hs
        split at hs
        · cases hs; rfl
        · cases hs
      subst hC
      refine peel_spec as (.app f a) out C' T (fun i => sub fid (one a) (ups σ i)) ?_ h2 h3
      simp only [infer, h1, sub, Option.some.injEq]
      rw [inst_zero_eq, sub_sub]
      rfl
    · cases h2

theorem peel_not_bvar : ∀ (n : Nat) (C C' : Term), peel (n + 1) C = some C' → ∀ i, C' ≠ .bvar i
  | 0, C, C', h, i => by
    simp only [peel] at h
    split at h
    · cases h
    · rename_i A out hne hs
      cases h
      exact hne i
    · cases h
  | n + 1, C, C', h, i => by
    rw [peel] at h
    split at h
    · cases h
    · exact peel_not_bvar n _ C' h i
    · cases h

theorem catOf_of {T U : Term} (h : U = T ∨ (isKind T = true ∧ isKind U = true)) : CatOf (.ofType U) T := by
  rcases h with rfl | ⟨h1, h2⟩
  · exact Or.inr (Or.inl rfl)
  · exact Or.inr (Or.inr ⟨h1, ofType_kindly h2⟩)

theorem category_spec {K : KCtx} {Γ : LCtx} {t T : Term} (hΓ : CtxOk Γ) (ht : HasType K Γ t T)
    (ha : HeadsAtomic t) : ∃ c, category K Γ t = some c ∧ CatOf c T := by
  have hinf : ∃ U, infer K Γ BCtx.nil t = some U ∧ (U = T ∨ (isKind T = true ∧ isKind U = true)) := by
    rcases ht.infer _ rfl with h | ⟨h, U, hU, hk⟩
    · exact ⟨T, h, Or.inl rfl⟩
    · exact ⟨U, hU, Or.inr ⟨h, hk⟩⟩
  have hfull : ∃ U, getType K Γ t = some U ∧ (U = T ∨ (isKind T = true ∧ isKind U = true)) := by
    rcases getType_of_typed _ (Nat.le_refl _) hΓ ht with h | ⟨h, U, hU, hk⟩
    · exact ⟨T, h, Or.inl rfl⟩
    · exact ⟨U, hU, Or.inr ⟨h, hk⟩⟩
  obtain ⟨U, hU, hUT⟩ := hinf
  obtain ⟨V, hV, hVT⟩ := hfull
  cases t with
  | atom a =>
    cases a with
    | fvar i =>
      simp only [infer] at hU
      exact ⟨_, rfl, by simpa [hU] using catOf_of hUT⟩
    | bvar i => exact ⟨_, rfl, Or.inl rfl⟩
    | sym s =>
      simp only [infer] at hU
      exact ⟨.ofType U, by simp [category, hU], catOf_of hUT⟩
  | bind b A B =>
    cases b with
    | lam => exact ⟨_, rfl, Or.inl rfl⟩
    | pi =>
      simp only [infer, Option.some.injEq] at hU
      subst hU
      exact ⟨_, rfl, catOf_of hUT⟩
    | all =>
      simp only [infer, Option.some.injEq] at hU
      subst hU
      exact ⟨_, rfl, catOf_of hUT⟩
    | ex =>
      simp only [infer, Option.some.injEq] at hU
      subst hU
      exact ⟨_, rfl, catOf_of hUT⟩
  | app f a =>
    obtain ⟨h, as, e, e'⟩ := head_spec (.app f a) ha trivial
    have hpos : ∃ n, as.length = n + 1 := by
      cases as with
      | nil => cases e
      | cons x xs => exact ⟨_, rfl⟩
    rw [e] at hU
    obtain ⟨H, hH⟩ := infer_apply_prefix as _ _ hU
    -- the step shared by variables and symbols
    have go : ∃ c, (match peel as.length H with
        | some T => some (Category.ofType T)
        | none => (getType K Γ (.app f a)).map Category.ofType) = some c ∧ CatOf c T := by
      cases hp : peel as.length H with
      | none => exact ⟨.ofType V, by simp [hV], catOf_of hVT⟩
      | some C =>
        refine ⟨.ofType C, rfl, ?_⟩
        by_cases hC : ∃ i, C = .fvar i
        · obtain ⟨i, rfl⟩ := hC
          exact Or.inl (ofType_fvar i)
        · obtain ⟨σ, hσ⟩ := peel_spec as (.atom h) H C U bid (by rw [hH]; simp [sub_id]) hp hU
          obtain ⟨n, hn⟩ := hpos
          rw [hn] at hp
          have hb := peel_not_bvar n H C hp
          rw [← ofType_sub fid σ C (fun i e => hC ⟨i, e⟩) hb, ← hσ]
          exact catOf_of hUT
    cases h with
    | fvar i =>
      simp only [infer] at hH
      simp only [category, e', hH]
      exact go
    | bvar i => exact ⟨_, by simp only [category, e'], Or.inl rfl⟩
    | sym s =>
      simp only [infer] at hH
      simp only [category, e', hH, Option.bind_some]
      exact go

/-! ### Components -/

/-- Sub-terms along paths of a typed term are typed and have atomic heads. -/
theorem getAt_spec {K : KCtx} {Γ : LCtx} : ∀ (p : List PathStep) (t T s : Term), HasType K Γ t T →
    HeadsAtomic t → t.getAt p = some s → ∃ S, HasType K Γ s S ∧ HeadsAtomic s
  | [], t, T, s, h, ha, e => by
    simp only [getAt, Option.some.injEq] at e
    subst e
    exact ⟨T, h, ha⟩
  | st :: p, t, T, s, h, ha, e => by
    cases t with
    | atom a => cases st <;> simp [getAt] at e
    | bind b A B => cases st <;> simp [getAt] at e
    | app f a =>
      obtain ⟨A, B, hf, hA, -⟩ := h.app_inv
      cases st with
      | function => exact getAt_spec p f _ s hf ha.2.1 (by simpa [getAt] using e)
      | argument => exact getAt_spec p a _ s hA ha.2.2 (by simpa [getAt] using e)

theorem walk_getAt (φ : Nat → Term) : ∀ (p : List PathStep) (t s : Term), t.getAt p = some s →
    (sub φ bid t).getAt p = some (sub φ bid s)
  | [], t, s, e => by
    simp only [getAt, Option.some.injEq] at e ⊢
    rw [e]
  | st :: p, t, s, e => by
    cases t with
    | atom a => cases st <;> simp [getAt] at e
    | bind b A B => cases st <;> simp [getAt] at e
    | app f a =>
      cases st with
      | function => simpa [getAt, sub] using walk_getAt φ p f s (by simpa [getAt] using e)
      | argument => simpa [getAt, sub] using walk_getAt φ p a s (by simpa [getAt] using e)

/-- Where the walk finds nothing, no instance has a sub-term. -/
theorem walk_nothing (φ : Nat → Term) : ∀ (p : List PathStep) (t : Term), t.getAt p = none →
    walk t p = .nothing → (sub φ bid t).getAt p = none ∧ walk (sub φ bid t) p = .nothing
  | [], t, e, _ => by simp [getAt] at e
  | st :: p, t, e, hw => by
    cases t with
    | atom a =>
      cases a with
      | fvar i => simp [walk, atomicVariable] at hw
      | bvar i => exact ⟨by cases st <;> rfl, by simp [sub, bid, walk, atomicVariable]⟩
      | sym i => exact ⟨by cases st <;> rfl, by simp [sub, walk, atomicVariable]⟩
    | bind b A B => exact ⟨by cases st <;> rfl, by simp [sub, walk, atomicVariable]⟩
    | app f a =>
      simp only [walk, atomicVariable, Option.isSome_none] at hw
      cases st with
      | function =>
        have := walk_nothing φ p f (by simpa [getAt] using e) (by simpa using hw)
        simpa [getAt, sub, walk, atomicVariable] using this
      | argument =>
        have := walk_nothing φ p a (by simpa [getAt] using e) (by simpa using hw)
        simpa [getAt, sub, walk, atomicVariable] using this

theorem walk_cases : ∀ (p : List PathStep) (t : Term), walk t p = .below ∨ walk t p = .nothing
  | [], t => Or.inr rfl
  | st :: p, t => by
    simp only [walk]
    split
    · exact Or.inl rfl
    · split
      · exact walk_cases p _
      · exact Or.inr rfl

theorem getAt_walk_below : ∀ (p : List PathStep) (t : Term), walk t p = .below → t.getAt p = none
  | [], t, h => by simp [walk] at h
  | st :: p, t, h => by
    cases t with
    | atom a => cases st <;> rfl
    | bind b A B => cases st <;> rfl
    | app f a =>
      simp only [walk, atomicVariable, Option.isSome_none] at h
      cases st with
      | function => simpa [getAt] using getAt_walk_below p f (by simpa using h)
      | argument => simpa [getAt] using getAt_walk_below p a (by simpa using h)

theorem headAtom_sub (φ : Nat → Term) : ∀ (t : Term) (s : Symbol), t.headAtom = .sym s →
    (sub φ bid t).headAtom = .sym s
  | .atom a, s, h => by
    simp only [headAtom] at h
    subst h; rfl
  | .app f a, s, h => by
    simp only [headAtom, sub] at h ⊢
    exact headAtom_sub φ f s h
  | .bind b A B, s, h => by
    simp only [headAtom, sub] at h ⊢
    exact headAtom_sub φ A s h

theorem plainAtom_isVar (a : Atom) : isVar (plainAtom a) = true ∨ ∃ s, a = .sym s := by
  cases a
  · exact Or.inl rfl
  · exact Or.inl rfl
  · exact Or.inr ⟨_, rfl⟩

/-- The data of two terms with a common instance. -/
structure Pair (K : KCtx) (Γ1 : LCtx) (s S : Term) (Γ2 : LCtx) (t T : Term) (φ ψ : Nat → Term) : Prop where
  ctx1 : CtxOk Γ1
  ctx2 : CtxOk Γ2
  ty1 : HasType K Γ1 s S
  ty2 : HasType K Γ2 t T
  heads1 : HeadsAtomic s
  heads2 : HeadsAtomic t
  same : sub φ bid s = sub ψ bid t
  target : ∃ Γ, WellTypedSubst K φ Γ1 Γ ∧ WellTypedSubst K ψ Γ2 Γ

theorem Pair.types {K : KCtx} {Γ1 Γ2 : LCtx} {s S t T : Term} {φ ψ : Nat → Term}
    (h : Pair K Γ1 s S Γ2 t T φ ψ) :
    sub φ bid S = sub ψ bid T ∨ (isKind (sub φ bid S) = true ∧ isKind (sub ψ bid T) = true) := by
  obtain ⟨Γ, w1, w2⟩ := h.target
  have h1 := h.ty1.sub φ bid BCtx.nil (subOk_of w1)
  have h2 := h.ty2.sub ψ bid BCtx.nil (subOk_of w2)
  rw [h.same] at h1
  exact h1.unique h2

theorem Pair.category {K : KCtx} {Γ1 Γ2 : LCtx} {s S t T : Term} {φ ψ : Nat → Term}
    (h : Pair K Γ1 s S Γ2 t T φ ψ) : ∃ c d, category K Γ1 s = some c ∧ category K Γ2 t = some d ∧
      c.couldMatch d = true := by
  obtain ⟨c, hc, c1⟩ := category_spec h.ctx1 h.ty1 h.heads1
  obtain ⟨d, hd, d1⟩ := category_spec h.ctx2 h.ty2 h.heads2
  exact ⟨c, d, hc, hd, catOf_couldMatch c1 d1 h.types⟩

/-- The sub-terms at a path that both have. -/
theorem Pair.at {K : KCtx} {Γ1 Γ2 : LCtx} {s S t T : Term} {φ ψ : Nat → Term}
    (h : Pair K Γ1 s S Γ2 t T φ ψ) {p : List PathStep} {s' t' : Term} (e1 : s.getAt p = some s')
    (e2 : t.getAt p = some t') : ∃ S' T', Pair K Γ1 s' S' Γ2 t' T' φ ψ := by
  obtain ⟨S', hS, a1⟩ := getAt_spec p s S s' h.ty1 h.heads1 e1
  obtain ⟨T', hT, a2⟩ := getAt_spec p t T t' h.ty2 h.heads2 e2
  refine ⟨S', T', h.ctx1, h.ctx2, hS, hT, a1, a2, ?_, h.target⟩
  have q1 := walk_getAt φ p s s' e1
  have q2 := walk_getAt ψ p t t' e2
  rw [h.same, q2] at q1
  exact (Option.some.inj q1).symm

theorem Pair.components {K : KCtx} {Γ1 Γ2 : LCtx} {s S t T : Term} {φ ψ : Nat → Term}
    (h : Pair K Γ1 s S Γ2 t T φ ψ) (p : List PathStep) : ∃ c d, component K Γ1 s p = some c ∧
      component K Γ2 t p = some d ∧ c.couldUnify d = true ∧
      (ψ = fid → c.couldSpecialize d = true) := by
  cases e1 : s.getAt p with
  | some s' =>
    cases e2 : t.getAt p with
    | some t' =>
      obtain ⟨S', T', h'⟩ := h.at e1 e2
      obtain ⟨c, d, hc, hd, hm⟩ := h'.category
      refine ⟨_, _, by simp only [component, e1, hc]; rfl, by simp only [component, e2, hd]; rfl, ?_, ?_⟩
      · simp only [Component.couldUnify, hm, Bool.not_true]
        rcases plainAtom_isVar s'.headAtom with hv | ⟨x, hx⟩
        · simp [hv]
        rcases plainAtom_isVar t'.headAtom with hv | ⟨y, hy⟩
        · simp [hv]
        have q1 := headAtom_sub φ s' x hx
        have q2 := headAtom_sub ψ t' y hy
        rw [h'.same, q2] at q1
        cases q1
        simp [hx, hy]
      · rintro rfl
        simp only [Component.couldSpecialize, hm, Bool.not_true]
        rcases plainAtom_isVar s'.headAtom with hv | ⟨x, hx⟩
        · simp [hv]
        have q1 := headAtom_sub φ s' x hx
        have q2 := h'.same
        rw [sub_id] at q2
        rw [q2] at q1
        simp [hx, q1]
    | none =>
      obtain ⟨S', hS, a1⟩ := getAt_spec p s S s' h.ty1 h.heads1 e1
      obtain ⟨c, hc, -⟩ := category_spec h.ctx1 hS a1
      have q1 := walk_getAt φ p s s' e1
      rcases walk_cases p t with hw | hw
      · refine ⟨_, _, by simp only [component, e1, hc]; rfl, by simp only [component, e2, hw]; rfl, rfl, ?_⟩
        rintro rfl
        have q2 := h.same
        rw [sub_id] at q2
        rw [q2, e2] at q1
        cases q1
      · rw [h.same, (walk_nothing ψ p t e2 hw).1] at q1
        cases q1
  | none =>
    rcases walk_cases p s with hw | hw
    · cases e2 : t.getAt p with
      | some t' =>
        obtain ⟨T', hT, a2⟩ := getAt_spec p t T t' h.ty2 h.heads2 e2
        obtain ⟨d, hd, -⟩ := category_spec h.ctx2 hT a2
        exact ⟨_, _, by simp only [component, e1, hw]; rfl, by simp only [component, e2, hd]; rfl, rfl, fun _ => rfl⟩
      | none =>
        exact ⟨_, _, by simp only [component, e1, hw]; rfl, by simp only [component, e2]; rfl, rfl, fun _ => rfl⟩
    · obtain ⟨q1, q2⟩ := walk_nothing φ p s e1 hw
      cases e2 : t.getAt p with
      | some t' =>
        have q3 := walk_getAt ψ p t t' e2
        rw [← h.same, q1] at q3
        cases q3
      | none =>
        rcases walk_cases p t with hw' | hw'
        · refine ⟨_, _, by simp only [component, e1, hw]; rfl, by simp only [component, e2, hw']; rfl, rfl, ?_⟩
          rintro rfl
          have q3 := h.same
          rw [sub_id] at q3
          rw [q3, hw'] at q2
          cases q2
        · exact ⟨_, _, by simp only [component, e1, hw]; rfl, by simp only [component, e2, hw']; rfl, rfl, fun _ => rfl⟩

theorem Pair.mapM {K : KCtx} {Γ1 Γ2 : LCtx} {s S t T : Term} {φ ψ : Nat → Term}
    (h : Pair K Γ1 s S Γ2 t T φ ψ) : ∀ ps : List (List PathStep), ∃ f g,
      ps.mapM (component K Γ1 s) = some f ∧ ps.mapM (component K Γ2 t) = some g ∧
      couldUnify f g = true ∧ (ψ = fid → couldSpecialize f g = true)
  | [] => ⟨[], [], rfl, rfl, rfl, fun _ => rfl⟩
  | p :: ps => by
    obtain ⟨f, g, h1, h2, h3, h4⟩ := h.mapM ps
    obtain ⟨c, d, k1, k2, k3, k4⟩ := h.components p
    refine ⟨c :: f, d :: g, ?_, ?_, ?_, ?_⟩
    · rw [List.mapM_cons, k1, h1]; rfl
    · rw [List.mapM_cons, k2, h2]; rfl
    · simp only [couldUnify, List.zip_cons_cons, List.all_cons, k3, Bool.true_and]
      exact h3
    · intro e
      simp only [couldSpecialize, List.zip_cons_cons, List.all_cons, k4 e, Bool.true_and]
      exact h4 e

theorem Pair.ofTerm {K : KCtx} {Γ1 Γ2 : LCtx} {s S t T : Term} {φ ψ : Nat → Term}
    (h : Pair K Γ1 s S Γ2 t T φ ψ) : ∃ f g, ofTerm K Γ1 s = some f ∧ ofTerm K Γ2 t = some g ∧
      couldUnify f g = true ∧ (ψ = fid → couldSpecialize f g = true) := h.mapM paths

/-! ### The trees -/

section
variable {φ V : Type} [DecidableEq φ]

/-- The value is stored under this category and fingerprint. -/
def Stored (ts : Trees φ V) (c : Category) (f : φ) (v : V) : Prop :=
  ∃ tree vs, ts.get? c = some tree ∧ tree.get? f = some vs ∧ v ∈ vs

theorem stored_push (ts : Trees φ V) (c c' : Category) (f f' : φ) (v w : V) :
    Stored (ts.push c f v) c' f' w ↔ (c' = c ∧ f' = f ∧ w = v) ∨ Stored ts c' f' w := by
  unfold Stored Trees.push
  simp only [AMap.get?_insert]
  by_cases hc : c' = c
  · subst hc
    have e0 : (∃ tree vs, ts.get? c' = some tree ∧ tree.get? f' = some vs ∧ w ∈ vs) ↔
        ∃ vs, ((ts.get? c').getD .empty).get? f' = some vs ∧ w ∈ vs := by
      cases ts.get? c' <;> simp
    rw [e0]
    simp only [if_true, Option.some.injEq, true_and]
    generalize (ts.get? c').getD .empty = tree
    have e1 : (∃ tree', ∃ vs, tree.insert f ((tree.get? f).getD [] ++ [v]) = tree' ∧
        tree'.get? f' = some vs ∧ w ∈ vs) ↔
        ∃ vs, (tree.insert f ((tree.get? f).getD [] ++ [v])).get? f' = some vs ∧ w ∈ vs := by
      constructor
      · rintro ⟨_, vs, rfl, h⟩; exact ⟨vs, h⟩
      · rintro ⟨vs, h⟩; exact ⟨_, vs, rfl, h⟩
    rw [e1]
    simp only [AMap.get?_insert]
    by_cases hf : f' = f
    · subst hf
      cases h2 : tree.get? f' with
      | none => simp
      | some vs => simp [or_comm]
    · simp [hf]
  · simp [hc]

theorem mem_collect {trees : List (AMap φ (List V))} {ok : φ → Bool} {v : V} :
    v ∈ Trees.collect trees ok ↔ ∃ tree ∈ trees, ∃ f vs, tree.get? f = some vs ∧ ok f = true ∧ v ∈ vs := by
  simp only [Trees.collect, List.mem_flatMap, Prod.exists]
  constructor
  · rintro ⟨tree, ht, f, vs, hm, hv⟩
    split at hv
    · rename_i h
      exact ⟨tree, ht, f, vs, AMap.get?_eq_some.2 hm, h, hv⟩
    · simp at hv
  · rintro ⟨tree, ht, f, vs, hm, ho, hv⟩
    exact ⟨tree, ht, f, vs, AMap.get?_eq_some.1 hm, by rw [if_pos ho]; exact hv⟩

/-- The trees searched for a category. -/
def searched : Category → Category → Bool
  | .variable, _ => true
  | .typeclass _, _ => true
  | .ground g, k => k == .ground g || k == .variable || k.isTypeclass
  | c, k => k == c || k == .variable

theorem mem_search {ts : Trees φ V} {c : Category} {tree : AMap φ (List V)} :
    tree ∈ ts.search c ↔ ∃ k, ts.get? k = some tree ∧ searched c k = true := by
  have two : ∀ c, tree ∈ (ts.get? c).toList ++ (ts.get? .variable).toList ↔
      ∃ k, ts.get? k = some tree ∧ (k == c || k == .variable) = true := by
    intro c
    simp only [List.mem_append, Option.mem_toList, Bool.or_eq_true, beq_iff_eq]
    constructor
    · rintro (h | h)
      · exact ⟨_, h, Or.inl rfl⟩
      · exact ⟨_, h, Or.inr rfl⟩
    · rintro ⟨k, h, rfl | rfl⟩
      · exact Or.inl h
      · exact Or.inr h
  cases c with
  | «variable» => simp [Trees.search, searched, AMap.get?_eq_some]
  | typeclass i => simp [Trees.search, searched, AMap.get?_eq_some]
  | ground g =>
    simp only [Trees.search, searched, AMap.get?_eq_some, List.mem_map, List.mem_filter, Prod.exists,
      exists_eq_right]
  | bool => exact two _
  | type0 => exact two _
  | arrow => exact two _
  | applied => exact two _

theorem mem_found {ts : Trees φ V} {c : Category} {ok : φ → Bool} {v : V} :
    v ∈ Trees.collect (ts.search c) ok ↔ ∃ k f, Stored ts k f v ∧ searched c k = true ∧ ok f = true := by
  rw [mem_collect]
  simp only [mem_search]
  constructor
  · rintro ⟨tree, ⟨k, hk, hs⟩, f, vs, h1, h2, h3⟩
    exact ⟨k, f, ⟨tree, vs, hk, h1, h3⟩, hs, h2⟩
  · rintro ⟨k, f, ⟨tree, vs, hk, h1, h3⟩, hs, h2⟩
    exact ⟨tree, ⟨k, hk, hs⟩, f, vs, h1, h2, h3⟩
end

/-- For values, the trees of all categories that match are searched. -/
theorem searched_of {c1 c2 : Category} {T1 T2 : Term} {φ ψ : Nat → Term} (h1 : CatOf c1 T1)
    (h2 : CatOf c2 T2) (k1 : isKind T1 = false) (k2 : isKind T2 = false)
    (e : sub φ bid T1 = sub ψ bid T2 ∨ (isKind (sub φ bid T1) = true ∧ isKind (sub ψ bid T2) = true)) :
    searched c1 c2 = true := by
  have var2 : ∀ c, searched c .variable = true := by intro c; cases c <;> simp [searched]
  rcases h1 with rfl | rfl | ⟨h, -⟩
  · rfl
  · rcases h2 with rfl | rfl | ⟨h, -⟩
    · exact var2 _
    · by_cases f1 : ∃ i, T1 = .fvar i
      · obtain ⟨i, rfl⟩ := f1; rw [ofType_fvar]; rfl
      by_cases f2 : ∃ i, T2 = .fvar i
      · obtain ⟨i, rfl⟩ := f2; rw [ofType_fvar]; exact var2 _
      have f1' : ∀ i, T1 ≠ .fvar i := fun i e => f1 ⟨i, e⟩
      have f2' : ∀ i, T2 ≠ .fvar i := fun i e => f2 ⟨i, e⟩
      rcases e with e | ⟨e1, e2⟩
      · rw [← ofType_sub_bid φ T1 f1', ← ofType_sub_bid ψ T2 f2', e]
        cases Category.ofType (sub ψ bid T2) <;> simp [searched]
      · cases T1 with
        | atom a =>
          cases a with
          | fvar i => exact absurd rfl (f1' i)
          | bvar i => cases e1
          | sym s => simp only [sub] at e1; rw [k1] at e1; cases e1
        | app f a => cases e1
        | bind b A B => cases e1
    · rw [k2] at h; cases h
  · rw [k1] at h; cases h

theorem Pair.searched {K : KCtx} {Γ1 Γ2 : LCtx} {s S t T : Term} {φ ψ : Nat → Term}
    (h : Pair K Γ1 s S Γ2 t T φ ψ) (k1 : isKind S = false) (k2 : isKind T = false) :
    ∃ c d, Fingerprint.category K Γ1 s = some c ∧ Fingerprint.category K Γ2 t = some d ∧
      Fingerprint.searched c d = true := by
  obtain ⟨c, hc, c1⟩ := category_spec h.ctx1 h.ty1 h.heads1
  obtain ⟨d, hd, d1⟩ := category_spec h.ctx2 h.ty2 h.heads2
  exact ⟨c, d, hc, hd, searched_of c1 d1 k1 k2 h.types⟩

/-! ### Adding entries -/

theorem addTerms_stored {V : Type} {K : KCtx} : ∀ (es : List (LCtx × Term × V))
    (ts : Trees (List Component) V), addTerms K es = some ts → ∀ c f v, Stored ts c f v ↔
      ∃ Γ t, (Γ, t, v) ∈ es ∧ category K Γ t = some c ∧ Fingerprint.ofTerm K Γ t = some f
  | [], ts, h, c, f, v => by
    simp only [addTerms, Option.some.injEq] at h
    subst h
    simp [Stored]
  | (Γ, t, v') :: es, ts, h, c, f, v => by
    simp only [addTerms, insertTerm, Option.bind_eq_bind, Option.bind_eq_some_iff, Option.pure_def,
      Option.some.injEq] at h
    obtain ⟨ts0, h0, f0, hf, c0, hc, rfl⟩ := h
    rw [stored_push, addTerms_stored es ts0 h0]
    constructor
    · rintro (⟨rfl, rfl, rfl⟩ | ⟨Γ', t', hm, h1, h2⟩)
      · exact ⟨Γ, t, List.mem_cons_self, hc, hf⟩
      · exact ⟨Γ', t', List.mem_cons_of_mem _ hm, h1, h2⟩
    · rintro ⟨Γ', t', hm, h1, h2⟩
      rcases List.mem_cons.1 hm with e | hm
      · cases e
        rw [hc] at h1; rw [hf] at h2
        cases h1; cases h2
        exact Or.inl ⟨rfl, rfl, rfl⟩
      · exact Or.inr ⟨Γ', t', hm, h1, h2⟩

theorem addLiterals_stored {V : Type} {K : KCtx} : ∀ (es : List (LCtx × Literal × V))
    (ts : Trees (List Component × List Component) V), addLiterals K es = some ts → ∀ c f v, Stored ts c f v ↔
      ∃ Γ l, (Γ, l, v) ∈ es ∧ category K Γ l.left = some c ∧ ofSides K Γ l.left l.right = some f
  | [], ts, h, c, f, v => by
    simp only [addLiterals, Option.some.injEq] at h
    subst h
    simp [Stored]
  | (Γ, t, v') :: es, ts, h, c, f, v => by
    simp only [addLiterals, insertLiteral, Option.bind_eq_bind, Option.bind_eq_some_iff, Option.pure_def,
      Option.some.injEq] at h
    obtain ⟨ts0, h0, f0, hf, c0, hc, rfl⟩ := h
    rw [stored_push, addLiterals_stored es ts0 h0]
    constructor
    · rintro (⟨rfl, rfl, rfl⟩ | ⟨Γ', t', hm, h1, h2⟩)
      · exact ⟨Γ, t, List.mem_cons_self, hc, hf⟩
      · exact ⟨Γ', t', List.mem_cons_of_mem _ hm, h1, h2⟩
    · rintro ⟨Γ', t', hm, h1, h2⟩
      rcases List.mem_cons.1 hm with e | hm
      · cases e
        rw [hc] at h1; rw [hf] at h2
        cases h1; cases h2
        exact Or.inl ⟨rfl, rfl, rfl⟩
      · exact Or.inr ⟨Γ', t', hm, h1, h2⟩

end Fingerprint
end Acorn
