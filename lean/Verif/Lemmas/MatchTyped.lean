/-
Matching well-typed terms: no panic, and well-typed replacements.
-/
import Verif.Lemmas.Specialize
import Verif.Lemmas.Extensionality
namespace Acorn

open Spec Term

/-- A closed term is typed without the bound variables around it. -/
theorem Spec.STyped.closed_nil {K : KCtx} {Γ : LCtx} {B : BCtx} {s : Term} {J : Jdg}
    (h : STyped K Γ B s J) {d : Nat} (hB : ∀ i, B (i + d) = none) (hs : s.escapes = false) :
    STyped K Γ BCtx.nil s J := by
  obtain ⟨J0, rfl, h0⟩ := h.strengthen (fun i => i + d) BCtx.nil s (fun i j e => Nat.add_right_cancel e)
    (fun i => by rw [hB]; rfl) (ren_closed _ s hs).symm
  cases J0 with
  | isTy => exact h0
  | ty T =>
    simp only [Jdg.ren]
    rw [ren_closed _ T (HasType.closed h0.typed).2]
    exact h0

theorem getType_lam (K : KCtx) (Γ : LCtx) (A B : Term) : getType K Γ (.lam A B) =
    (getType K (Γ.pushTy A) (inst 0 (.fvar Γ.length) B)).map fun T =>
      pi A (abstractVar Γ.length 0 T) := by
  rw [getType]
  split
  · rename_i h0; rw [openBound_eq] at h0; cases h0
  · rename_i o h0
    rw [openBound_eq] at h0
    cases h0
    cases getType K (Γ.pushTy A) (inst 0 (.fvar Γ.length) B) <;> rfl

/-- The computed type only depends on the number of variables in the context and on the types of the
variables that occur. -/
theorem getType_congr {K : KCtx} : ∀ (n : Nat) {Γ Γ' : LCtx} {t : Term}, t.size ≤ n →
    Γ'.length = Γ.length → (∀ i, t.hasVar i = true → Γ'.get i = Γ.get i) →
    getType K Γ' t = getType K Γ t := by
  intro n
  induction n with
  | zero => intro Γ Γ' t hn; cases t <;> simp [size] at hn
  | succ n ih =>
    intro Γ Γ' t hn hl hv
    match t with
    | .atom (.fvar i) => simp only [getType]; exact hv i (by simp [hv_fvar])
    | .atom (.bvar i) => simp only [getType]
    | .atom (.sym i) => simp only [getType]
    | .app f a =>
      simp only [size] at hn
      simp only [getType]
      rw [ih (by omega) hl fun i hi => hv i (hv_app.2 (.inl hi))]
    | .bind .pi A B => simp only [getType]
    | .bind .all A B => simp only [getType]
    | .bind .ex A B => simp only [getType]
    | .bind .lam A B =>
      simp only [size] at hn
      have hsz : (Term.inst 0 (.fvar Γ.length) B).size = B.size :=
        size_openBound_fvar B Γ.length _ (openBound_eq _ _)
      rw [getType_lam, getType_lam, hl,
        ih (Γ := Γ.pushTy A) (Γ' := Γ'.pushTy A) (by omega) (by simp [LCtx.pushTy, hl])]
      intro i hi
      by_cases hiΓ : i = Γ.length
      · rw [hiΓ, get_pushTy_eq]
        conv => lhs; rw [← hl, get_pushTy_eq]
      · have : B.hasVar i = true := by
          rcases hasVar_inst hi with h | h
          · exact h
          · rw [hv_fvar] at h; exact absurd h.symm (by omega)
        by_cases hlt : i < Γ.length
        · rw [get_pushTy_lt hlt, get_pushTy_lt (by omega)]
          exact hv i (hv_bind.2 (.inr this))
        · rw [LCtx.get, LCtx.get, List.getElem?_eq_none, List.getElem?_eq_none] <;>
            simp [LCtx.pushTy] <;> omega

/-- The code finds a type for every well-formed type, and it is a kind. -/
theorem getType_isTy {K : KCtx} {Γ : LCtx} (hΓ : CtxOk Γ) {s : Term} (h : STyped K Γ BCtx.nil s .isTy) :
    ∃ S, getType K Γ s = some S ∧ isKind S = true := by
  cases h with
  | tyType0 => exact ⟨.type0, by simp [getType, KCtx.symbolType], rfl⟩
  | tyClass => exact ⟨.type0, by simp [getType, KCtx.symbolType], rfl⟩
  | tyOf h =>
    rcases getType_of_typed s.size (Nat.le_refl _) hΓ h.typed with h1 | ⟨_, T', h1, h2⟩
    · exact ⟨_, h1, rfl⟩
    · exact ⟨_, h1, h2⟩
  | tyPi => exact ⟨_, by rw [getType], rfl⟩

/-- A larger context, as `match_terms` builds under binders. -/
structure Below (Γ Γ' : LCtx) : Prop where
  le : Γ.length ≤ Γ'.length
  get : ∀ i, i < Γ.length → Γ'.get i = Γ.get i

theorem Below.refl (Γ : LCtx) : Below Γ Γ := ⟨Nat.le_refl _, fun _ _ => rfl⟩

theorem Below.push {Γ Γ' : LCtx} (h : Below Γ Γ') (A : Term) : Below Γ (Γ'.pushTy A) :=
  ⟨by have := h.le; simp [LCtx.pushTy]; omega,
   fun i hi => by rw [get_pushTy_lt (by have := h.le; omega), h.get i hi]⟩

theorem fscoped_lt {Γ : LCtx} {t : Term} (h : FScoped Γ t) {i : Nat} (hi : t.hasVar i = true) :
    i < Γ.length := by
  obtain ⟨T, hT⟩ := Option.isSome_iff_exists.1 (h i hi)
  exact get_lt hT

/-- A context of a given length that is in order. -/
theorem exists_pad {Γ : LCtx} (hΓ : CtxOk Γ) : ∀ k, ∃ Γ', CtxOk Γ' ∧ Γ'.length = Γ.length + k ∧ Below Γ Γ' := by
  intro k
  induction k with
  | zero => exact ⟨Γ, hΓ, rfl, .refl Γ⟩
  | succ k ih =>
    obtain ⟨Γ', h1, h2, h3⟩ := ih
    refine ⟨Γ'.pushTy .type0, h1.push rfl (by intro i hi; simp [hasVar, atoms] at hi), ?_, h3.push _⟩
    simp [LCtx.pushTy, h2]; omega

/-- What `match_terms` computes as the type of a closed well-typed subterm, in whatever context the
binders around it have left. -/
theorem getType_below {K : KCtx} {Δ Δ' : LCtx} (hΔ : CtxOk Δ) (hb : Below Δ Δ') {s : Term} {J : Jdg}
    (hs : FScoped Δ s) (h : STyped K Δ BCtx.nil s J) :
    ∃ S, getType K Δ' s = some S ∧ (isKind S = false → J = .ty S) := by
  obtain ⟨Δ1, h1, h2, h3⟩ := exists_pad hΔ (Δ'.length - Δ.length)
  have e : getType K Δ' s = getType K Δ1 s := getType_congr s.size (Nat.le_refl _)
    (by have := hb.le; omega) fun i hi => by rw [hb.get i (fscoped_lt hs hi), h3.get i (fscoped_lt hs hi)]
  have h' : STyped K Δ1 BCtx.nil s J := h.weaken fun i T hi => by rw [h3.get i (get_lt hi), hi]
  rw [e]
  cases J with
  | isTy =>
    obtain ⟨S, e1, k⟩ := getType_isTy h1 h'
    exact ⟨S, e1, by rw [k]; intro h; cases h⟩
  | ty T =>
    rcases getType_of_typed s.size (Nat.le_refl _) h1 h'.typed with e1 | ⟨_, T', e1, k⟩
    · exact ⟨T, e1, fun _ => rfl⟩
    · exact ⟨T', e1, by rw [k]; intro h; cases h⟩

/-- What is kept while matching: the variables of the general context are either mapped to a term of
their type, or have a type all of whose variables are mapped and that is not a kind. -/
structure Sound (K : KCtx) (Γ Δ : LCtx) (m : VMap) : Prop where
  mapped : ∀ i T t, Γ.get i = some T → m.get i = some t → SHasType K Δ t (m.apply T)
  cover : ∀ i T, Γ.get i = some T → Covered m T
  value : ∀ i T, Γ.get i = some T → m.get i = none → isKind (m.apply T) = false

theorem matchVarTyped_sound {K : KCtx} {Γ Γ' Δ Δ' : LCtx} (hΔ : CtxOk Δ) (hg : Below Γ Γ')
    (hb : Below Δ Δ') {m : VMap} {i : Nat} {s : Term} {B : BCtx} {J : Jdg} {d : Nat}
    (hi : FScoped Γ (.fvar i)) (hB : ∀ i, B (i + d) = none)
    (hs : FScoped Δ s) (h : STyped K Δ B s J) (hm : Sound K Γ Δ m) :
    ∃ r, VMap.matchVarTyped K Γ' Δ' m i s = some r ∧ ∀ m', r = some m' → Sound K Γ Δ m' := by
  unfold VMap.matchVarTyped
  split
  · exact ⟨none, rfl, fun _ e => by cases e⟩
  · rename_i he
    have h' := h.closed_nil hB (by simpa using he)
    have hi' := hi i (by simp [hv_fvar])
    obtain ⟨T, hT⟩ := Option.isSome_iff_exists.1 hi'
    rw [hg.get i (get_lt hT), hT]
    obtain ⟨S, hS, hJ⟩ := getType_below hΔ hb hs h'
    simp only [hS]
    have key : (decide (m.apply T = S) || (m.apply T).isType0 && S.isTypeParamKind ||
        (m.apply T).asTypeclass.isSome) = true →
        ∀ m', m.matchVar i s = some m' → Sound K Γ Δ m' := by
      intro hc m' e
      obtain ⟨x1, x2, x3⟩ := matchVar_spec e
      have ap : ∀ j U, Γ.get j = some U → m'.apply U = m.apply U := fun j U hj =>
        apply_extends x1 U (hm.cover j U hj)
      have keep : ∀ j u, m'.get j = some u → m.get j = some u ∨ (m.get j = none ∧ j = i ∧ u = s) := by
        intro j u hj
        cases hmj : m.get j with
        | some w =>
          have := x1 j w hmj
          rw [hj] at this; cases this; exact .inl rfl
        | none =>
          rcases x3 j u hj with h | h
          · rw [hmj] at h; cases h
          · exact .inr ⟨rfl, h⟩
      refine ⟨?_, fun j U hj => (hm.cover j U hj).mono x1, ?_⟩
      · intro j U t hj ht
        rw [ap j U hj]
        rcases keep j t ht with h1 | ⟨h1, rfl, rfl⟩
        · exact hm.mapped j U t hj h1
        · rw [hT] at hj
          cases hj
          have hk := hm.value j T hT h1
          have e1 : m.apply T = S := by
            simp only [Bool.or_eq_true, decide_eq_true_eq, Bool.and_eq_true] at hc
            rcases hc with (hc | hc) | hc
            · exact hc
            · have := hc.1
              simp only [isType0, beq_iff_eq] at this
              rw [this] at hk; cases hk
            · exfalso
              revert hk hc
              generalize m.apply T = X
              intro hk hc
              unfold asTypeclass at hc
              split at hc
              · cases hk
              · cases hc
          rw [e1] at hk ⊢
          have := hJ hk
          subst this
          exact h'
      · intro j U hj hn
        rw [ap j U hj]
        refine hm.value j U hj ?_
        cases hmj : m.get j with
        | none => rfl
        | some w => rw [x1 j w hmj] at hn; cases hn
    split
    · exact ⟨none, rfl, fun _ e => by cases e⟩
    · rename_i hc
      simp only [Bool.not_eq_true, Bool.not_eq_false'] at hc
      split
      · split
        · exact ⟨_, rfl, key hc⟩
        · exact ⟨none, rfl, fun _ e => by cases e⟩
      · exact ⟨_, rfl, key hc⟩

/-- Failing is fine, panicking is not. -/
def MatchOk (K : KCtx) (Γ Δ : LCtx) (r : Option (Option VMap)) : Prop :=
  ∃ x, r = some x ∧ ∀ m', x = some m' → Sound K Γ Δ m'

theorem MatchOk.andThen {K : KCtx} {Γ Δ : LCtx} {r : Option (Option VMap)}
    {k : VMap → Option (Option VMap)} (h : MatchOk K Γ Δ r)
    (hk : ∀ m', Sound K Γ Δ m' → MatchOk K Γ Δ (k m')) : MatchOk K Γ Δ (VMap.andThen r k) := by
  obtain ⟨x, rfl, hx⟩ := h
  cases x with
  | none => exact ⟨none, rfl, fun _ e => by cases e⟩
  | some m' => exact hk m' (hx m' rfl)

theorem MatchOk.orElse {K : KCtx} {Γ Δ : LCtx} {r k : Option (Option VMap)} (h : MatchOk K Γ Δ r)
    (hk : MatchOk K Γ Δ k) : MatchOk K Γ Δ (VMap.orElse r k) := by
  obtain ⟨x, rfl, hx⟩ := h
  cases x with
  | none => exact hk
  | some m' => exact ⟨_, rfl, hx⟩

theorem Spec.STyped.body {K : KCtx} {Γ : LCtx} {Δ : BCtx} {q : Binder} {A b : Term} {J : Jdg}
    (h : STyped K Γ Δ (.bind q A b) J) : ∃ J1, STyped K Γ (BCtx.cons A Δ) b J1 := by
  cases q with
  | pi => exact ⟨_, h.pi_inv.2.2⟩
  | lam => obtain ⟨B, _, _, h2, _⟩ := h.lam_inv; exact ⟨_, h2⟩
  | all => obtain ⟨_, _, h2⟩ := h.quant_inv (.inl rfl); exact ⟨_, h2⟩
  | ex => obtain ⟨_, _, h2⟩ := h.quant_inv (.inr rfl); exact ⟨_, h2⟩

theorem cons_none {B : BCtx} {d : Nat} (hB : ∀ i, B (i + d) = none) (A : Term) :
    ∀ i, BCtx.cons A B (i + (d + 1)) = none := by
  intro i
  show BCtx.cons A B ((i + d) + 1) = none
  simp [BCtx.cons, hB]

theorem matchTerms_sound {K : KCtx} {Γ Δ : LCtx} (hΔ : CtxOk Δ) : ∀ (n : Nat) (Γ' Δ' : LCtx) (m : VMap)
    (g s : Term) (B : BCtx) (J : Jdg) (d : Nat), g.size ≤ n → Below Γ Γ' → Below Δ Δ' → FScoped Γ g →
    FScoped Δ s → (∀ i, B (i + d) = none) → STyped K Δ B s J → Sound K Γ Δ m →
    MatchOk K Γ Δ (VMap.matchTerms K Γ' Δ' m g s) := by
  intro n
  induction n with
  | zero => intro Γ' Δ' m g s B J d hn; cases g <;> simp [size] at hn
  | succ n ih =>
    intro Γ' Δ' m g s B J d hn hΓ' hΔ' hg hs hB h hm
    have fail : MatchOk K Γ Δ (some none) := ⟨none, rfl, fun _ e => by cases e⟩
    rw [VMap.matchTerms.eq_def]
    split
    · rename_i T a b T' a' b'
      simp only [size] at hn
      obtain ⟨_, h1, h2, h3⟩ := STyped.eq_inv h
      simp only [FScoped.app] at hg hs
      obtain ⟨⟨⟨-, g1⟩, g2⟩, g3⟩ := hg
      obtain ⟨⟨⟨-, s1⟩, s2⟩, s3⟩ := hs
      refine .orElse ?_ ?_
      · refine .andThen (ih _ _ _ _ _ _ _ d (by omega) hΓ' hΔ' g1 s1 hB h1 hm) fun m1 hm1 => ?_
        refine .andThen (ih _ _ _ _ _ _ _ d (by omega) hΓ' hΔ' g2 s2 hB h2 hm1) fun m2 hm2 => ?_
        exact ih _ _ _ _ _ _ _ d (by omega) hΓ' hΔ' g3 s3 hB h3 hm2
      · refine .andThen (ih _ _ _ _ _ _ _ d (by omega) hΓ' hΔ' g1 s1 hB h1 hm) fun m1 hm1 => ?_
        refine .andThen (ih _ _ _ _ _ _ _ d (by omega) hΓ' hΔ' g2 s3 hB h3 hm1) fun m2 hm2 => ?_
        exact ih _ _ _ _ _ _ _ d (by omega) hΓ' hΔ' g3 s2 hB h2 hm2
    · exact matchVarTyped_sound hΔ hΓ' hΔ' hg hB hs h hm
    · split
      · exact ⟨_, rfl, fun m' e => by cases e; exact hm⟩
      · exact fail
    · rename_i f a f' a' _
      simp only [size] at hn
      simp only [FScoped.app] at hg hs
      have h12 : ∃ J1 J2, STyped K Δ B f' J1 ∧ STyped K Δ B a' J2 := by
        rcases h.app_inv with ⟨A, C, _, h1, h2, _⟩ | ⟨A, C, h1, h2, _⟩ <;> exact ⟨_, _, h1, h2⟩
      obtain ⟨J1, J2, h1, h2⟩ := h12
      refine .andThen (ih _ _ _ _ _ _ _ d (by omega) hΓ' hΔ' hg.1 hs.1 hB h1 hm) fun m1 hm1 => ?_
      exact ih _ _ _ _ _ _ _ d (by omega) hΓ' hΔ' hg.2 hs.2 hB h2 hm1
    · simp only [size] at hn
      simp only [FScoped.bind] at hg hs
      split
      · obtain ⟨J1, h1⟩ := h.body
        refine .andThen (ih _ _ _ _ _ _ _ d (by omega) hΓ' hΔ' hg.1 hs.1 hB h.bind_dom hm) fun m1 hm1 => ?_
        exact ih _ _ _ _ _ _ _ (d + 1) (by omega) (hΓ'.push _) (hΔ'.push _) hg.2 hs.2 (cons_none hB _) h1 hm1
      · exact fail
    · exact fail

end Acorn
