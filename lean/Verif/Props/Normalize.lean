/-
C16: term normalization keeps meaning.

Full statement: for every well-typed term, normalization (beta, eta, double negation, orientation of
equalities) and pushing negation through a clause term keep its value in every interpretation.
This is false for lambdas that bind a type (`C16_eta_over_class_changes_value`).  The theorems named
`_partial` prove it for terms of the restricted judgement `SHasType` (Verif/Spec/SimplyTyped.lean):
lambdas bind values, and types do not mention values.  Missing: families such as `Fin[n]`.
-/
import Verif.Lemmas.NormalizeClauseTerm
import Verif.Lemmas.NormalForm
import Verif.Spec.DemoSimple
namespace Acorn
open Spec Term

universe u

/-- Whatever the normalizer returns has the same type and the same value. -/
theorem C16_normalize_term_partial {K : KCtx} {M : Interp.{u}} (L : Lawful K M) {Γ : LCtx}
    {ρ : Nat → M.D} (hρ : Models M Γ ρ) {t t' T : Term} {n : Nat} (h : SHasType K Γ t T)
    (e : normalizeTerm n t = some t') :
    SHasType K Γ t' T ∧ ∀ β, eval M ρ β t' = eval M ρ β t := by
  have s := normalizeTerm_same L hρ n h e
  exact ⟨s.typed, fun β => s.eval β (BModels.nil M ρ β)⟩

/-- Beta reduction alone. -/
theorem C16_beta_reduce_partial {K : KCtx} {M : Interp.{u}} (L : Lawful K M) {Γ : LCtx}
    {ρ : Nat → M.D} (hρ : Models M Γ ρ) {t t' T : Term} {n : Nat} (h : SHasType K Γ t T)
    (e : betaReduce n t = some t') :
    SHasType K Γ t' T ∧ ∀ β, eval M ρ β t' = eval M ρ β t := by
  have s := betaReduce_same L hρ n h e
  exact ⟨s.typed, fun β => s.eval β (BModels.nil M ρ β)⟩

/-- What the normalizer returns is a fixed point of the normalizer. -/
theorem C16_normalize_idempotent {t t' : Term} {n : Nat} (e : normalizeTerm n t = some t') :
    ∃ m, ∀ k, m ≤ k → normalizeTerm k t' = some t' :=
  ⟨t'.size, fun k hk => normalizeTerm_of_normal t' (normalizeTerm_normal n e) k hk⟩

/-- The answer does not depend on the number of steps allowed. -/
theorem C16_normalize_deterministic {t a b : Term} {n m : Nat} (ha : normalizeTerm n t = some a)
    (hb : normalizeTerm m t = some b) : a = b := by
  have h1 := normalizeTerm_mono n (max n m) (Nat.le_max_left _ _) ha
  have h2 := normalizeTerm_mono m (max n m) (Nat.le_max_right _ _) hb
  rw [h1] at h2
  exact Option.some.inj h2

/-- Normalizing a term for clause normalization (positive polarity) keeps type and value. -/
theorem C16_clause_term_partial {K : KCtx} {M : Interp.{u}} (L : Lawful K M) {Γ : LCtx}
    {ρ : Nat → M.D} (hρ : Models M Γ ρ) {t T : Term} (h : SHasType K Γ t T) :
    SHasType K Γ (normClauseTerm t) T ∧ ∀ β, eval M ρ β (normClauseTerm t) = eval M ρ β t := by
  have s := normClauseTerm_same L hρ h
  exact ⟨s.typed, fun β => s.eval β (BModels.nil M ρ β)⟩

/-- Normalizing under negative polarity gives the negation. -/
theorem C16_clause_term_negative_partial {K : KCtx} {M : Interp.{u}} (L : Lawful K M) {Γ : LCtx}
    {ρ : Nat → M.D} (hρ : Models M Γ ρ) {t : Term} (h : SHasType K Γ t .boolTy) :
    SHasType K Γ (normPol t false) .boolTy ∧
      ∀ β, (eval M ρ β (normPol t false) = M.sym .true_ ↔ eval M ρ β t ≠ M.sym .true_) := by
  have s := normPol_neg L hρ h
  exact ⟨s.typed, fun β => s.tr β (BModels.nil M ρ β)⟩

/-- Normalizing a signed term may change term and sign, but not whether the signed term holds: "the
term is true exactly if the sign is positive". -/
theorem C16_signed_term_partial {K : KCtx} {M : Interp.{u}} (L : Lawful K M) {Γ : LCtx}
    {ρ : Nat → M.D} (hρ : Models M Γ ρ) {t : Term} (p : Bool) (h : SHasType K Γ t .boolTy) :
    SHasType K Γ (normSigned t p).1 .boolTy ∧
      ∀ β, ((eval M ρ β (normSigned t p).1 = M.sym .true_ ↔ (normSigned t p).2 = true) ↔
        (eval M ρ β t = M.sym .true_ ↔ p = true)) := by
  have s := normSigned_spec L hρ t.size p (Nat.le_refl _) h
  exact ⟨s.1, fun β => s.2 β (BModels.nil M ρ β)⟩

/-- Non-vacuity: `(λ x: nat. not not (suc x = zero)) zero` normalizes to `zero = suc zero`. -/
example : SHasType Demo.K [] (.app (.lam Demo.nat (.not (.not (.eq Demo.nat (.app Demo.suc (.bvar 0))
      Demo.zero)))) Demo.zero) .boolTy ∧
    normalizeTerm 30 (.app (.lam Demo.nat (.not (.not (.eq Demo.nat (.app Demo.suc (.bvar 0))
      Demo.zero)))) Demo.zero) = some (.eq Demo.nat (.app Demo.suc Demo.zero) Demo.zero) ∧
    normalizeTerm 30 (.lam Demo.nat (.app Demo.suc (.bvar 0))) = some Demo.suc ∧
    Lawful Demo.K Demo.M ∧ ∃ ρ, Models Demo.M [] ρ := by
  refine ⟨?_, by decide, by decide, Demo.lawful, fun _ => (∅ : ZFSet), Demo.models_nil _⟩
  refine .appVal (B := .boolTy) (.lam (.tyOf Demo.s_nat) ?_ rfl rfl) Demo.s_zero rfl rfl
  exact .not (.not (.eq Demo.s_nat (Demo.s_suc (.bvar rfl)) Demo.s_zero))

/-- Non-vacuity: `not (even zero or forall x. even x)` under negative polarity, and signed. -/
example : SHasType Demo.K [] (.or (.app Demo.even Demo.zero)
      (.all Demo.nat (.app Demo.even (.bvar 0)))) .boolTy ∧
    normPol (.or (.app Demo.even Demo.zero) (.all Demo.nat (.app Demo.even (.bvar 0)))) false
      = .and (.not (.app Demo.even Demo.zero)) (.ex Demo.nat (.not (.app Demo.even (.bvar 0)))) ∧
    normSigned (.or (.app Demo.even Demo.zero) (.all Demo.nat (.app Demo.even (.bvar 0)))) true
      = (.and (.not (.app Demo.even Demo.zero)) (.ex Demo.nat (.not (.app Demo.even (.bvar 0)))),
        false) := by
  refine ⟨.or (Demo.s_even Demo.s_zero) (.all (.tyOf Demo.s_nat) (Demo.s_even (.bvar rfl))),
    by decide, by decide⟩

/-- The full statement fails: a lambda that binds a type of a typeclass is eta-reduced to a function
on all types.  `λ (T: mon). eq T` is well typed, is normalized to `eq`, and has a different value in a
lawful interpretation. -/
theorem C16_eta_over_class_changes_value : ∃ (K : KCtx) (M : Interp.{2}) (t t' T : Term) (n : Nat),
    Lawful K M ∧ HasType K [] t T ∧ normalizeTerm n t = some t' ∧
      ∀ ρ β, eval M ρ β t' ≠ eval M ρ β t := by
  refine ⟨Demo.K, Demo.M, .lam Demo.mon (.app (.sym .eq_) (.bvar 0)), .sym .eq_,
    .pi Demo.mon (.pi (.bvar 0) (.pi (.bvar 1) .boolTy)), 10, Demo.lawful, ?_, by decide, ?_⟩
  · refine .lam .tyClass ?_ rfl
    exact .app (A := .type0) (B := .pi (.bvar 0) (.pi (.bvar 1) .boolTy)) (Demo.typed_sym rfl rfl)
      (.forget (m := 0) (l := 0) (.bvar rfl))
  · intro ρ β e
    have L := Demo.lawful
    have hb : Demo.M.mem (vbool Demo.M) (vtype0 Demo.M) :=
      L.sym_type .bool .type0 rfl rfl (Demo.ground_of rfl rfl) ρ β
    have ht : Demo.M.mem (vtt Demo.M) (vbool Demo.M) := (L.mem_bool _).2 (Or.inl rfl)
    have h1 := (L.eq_tt _ _ _ hb ht ht).2 rfl
    simp only [eval] at e
    rw [e] at h1
    have h2 : ∀ g, Demo.M.app (Demo.M.bind .lam (Demo.M.sym (.typeclass 0 0)) g) (vbool Demo.M)
        = (∅ : ZFSet) := by
      intro g
      show SetModel.app (SetModel.lam {ZFSet.omega} g) SetModel.bool = ∅
      rw [SetModel.app, dif_neg]
      rintro ⟨b, hb⟩
      obtain ⟨z, hz, hp⟩ := SetModel.mem_img.1 hb
      have := (ZFSet.pair_injective hp).1
      rw [ZFSet.mem_singleton] at hz
      rw [hz] at this
      have h3 : SetModel.bool ∈ ZFSet.omega := by
        have : SetModel.bool = insert (insert ∅ ∅) (insert ∅ ∅) := by
          ext x
          simp [SetModel.bool, SetModel.ff, SetModel.tt, or_comm]
        rw [this]
        exact ZFSet.omega_succ (ZFSet.omega_succ ZFSet.omega_zero)
      rw [this] at h3
      exact ZFSet.mem_irrefl _ h3
    rw [h2] at h1
    have h4 : ∀ x, Demo.M.app (∅ : ZFSet) x = (∅ : ZFSet) := by
      intro x
      refine dif_neg ?_
      rintro ⟨b, hb⟩
      exact ZFSet.notMem_empty _ hb
    rw [h4, h4] at h1
    exact L.tt_ne_ff h1.symm

end Acorn
