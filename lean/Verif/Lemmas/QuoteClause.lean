/-
Quoting clauses.
-/
import Std.Data.String.ToNat
import Verif.Lemmas.Quote
import Verif.Lemmas.ValueStatements
import Verif.Lemmas.BoolReduce
namespace Acorn
namespace Spec

open Elab Term

universe u

theorem QuotableCtx.ok {K : KCtx} {Γ : LCtx} (h : QuotableCtx K Γ) : CtxOk Γ := by
  intro i T hi
  rcases h i T hi with hk | ⟨hT, _⟩
  · match T, hk with
    | .sym s, _ => exact ⟨rfl, fun j hj => by simp [hasVar, atoms] at hj⟩
  · exact ⟨isTy_closed hT, fun j hj => hT.declared hj⟩

theorem QuotableCtx.simple {K : KCtx} {Γ : LCtx} (h : QuotableCtx K Γ) : SimpleVars Γ := by
  intro i T hi
  rcases h i T hi with hk | ⟨_, hT⟩
  · exact .inl hk
  · exact .inr hT

/-! ### The variables of a clause -/

theorem clauseRemap_length : ∀ (Γ : LCtx) (k : Nat), (clauseRemap k Γ).length = List.length Γ
  | [], _ => rfl
  | none :: Γ, k => congrArg Nat.succ (clauseRemap_length Γ k)
  | some T :: Γ, k => by
    simp only [clauseRemap]
    split
    · exact congrArg Nat.succ (clauseRemap_length Γ k)
    · exact congrArg Nat.succ (clauseRemap_length Γ (k + 1))

/-- The values of the variables that are not types. -/
def valuesOf {D : Type u} (ρ : Nat → D) : Nat → LCtx → List D
  | _, [] => []
  | i, none :: Γ => valuesOf ρ (i + 1) Γ
  | i, some T :: Γ => if T.isTypeParamKind then valuesOf ρ (i + 1) Γ else ρ i :: valuesOf ρ (i + 1) Γ

theorem clauseRemap_get {D : Type u} (ρ : Nat → D) : ∀ (Γ : LCtx) (k i0 i j : Nat),
    (clauseRemap k Γ)[i]? = some (some j) → k ≤ j ∧ (valuesOf ρ i0 Γ)[j - k]? = some (ρ (i0 + i))
  | [], k, i0, i, j, h => by simp [clauseRemap] at h
  | none :: Γ, k, i0, i, j, h => by
    cases i with
    | zero => simp [clauseRemap] at h
    | succ i =>
      simp only [clauseRemap, List.getElem?_cons_succ] at h
      have := clauseRemap_get ρ Γ k (i0 + 1) i j h
      rw [show i0 + (i + 1) = i0 + 1 + i by omega]
      exact this
  | some T :: Γ, k, i0, i, j, h => by
    simp only [clauseRemap] at h
    simp only [valuesOf]
    split at h
    · cases i with
      | zero => simp at h
      | succ i =>
        rw [if_pos ‹_›, show i0 + (i + 1) = i0 + 1 + i by omega]
        exact clauseRemap_get ρ Γ k (i0 + 1) i j (by simpa using h)
    · rw [if_neg ‹_›]
      cases i with
      | zero =>
        simp only [List.getElem?_cons_zero, Option.some.injEq] at h
        subst h
        exact ⟨Nat.le_refl _, by simp⟩
      | succ i =>
        obtain ⟨h1, h2⟩ := clauseRemap_get ρ Γ (k + 1) (i0 + 1) i j (by simpa using h)
        refine ⟨by omega, ?_⟩
        rw [show j - k = (j - (k + 1)) + 1 by omega, List.getElem?_cons_succ, show i0 + (i + 1) = i0 + 1 + i by omega]
        exact h2

theorem clauseRemap_next {D : Type u} (ρ : Nat → D) : ∀ (Γ : LCtx) (k i0 : Nat),
    nextIndex (clauseRemap k Γ) = if (valuesOf ρ i0 Γ).length = 0 then 0 else k + (valuesOf ρ i0 Γ).length
  | [], k, i0 => rfl
  | none :: Γ, k, i0 => by
    simp only [clauseRemap, valuesOf]
    refine Eq.trans ?_ (clauseRemap_next ρ Γ k (i0 + 1))
    simp [nextIndex]
  | some T :: Γ, k, i0 => by
    simp only [clauseRemap, valuesOf]
    split
    · rw [← clauseRemap_next ρ Γ k (i0 + 1)]
      simp [nextIndex]
    · have := clauseRemap_next ρ Γ (k + 1) (i0 + 1)
      rw [if_neg (by simp)]
      simp only [nextIndex, List.foldr_cons, Option.elim, List.length_cons] at this ⊢
      rw [this]
      split <;> omega

theorem clauseRemap_size {D : Type u} (ρ : Nat → D) (Γ : LCtx) :
    nextIndex (clauseRemap 0 Γ) = (valuesOf ρ 0 Γ).length := by
  rw [clauseRemap_next ρ Γ 0 0]
  split <;> omega

theorem valuesOf_length {D : Type u} (ρ ρ' : Nat → D) : ∀ (Γ : LCtx) (i : Nat),
    (valuesOf ρ i Γ).length = (valuesOf ρ' i Γ).length
  | [], _ => rfl
  | none :: Γ, i => valuesOf_length ρ ρ' Γ (i + 1)
  | some T :: Γ, i => by
    simp only [valuesOf]
    split
    · exact valuesOf_length ρ ρ' Γ (i + 1)
    · exact congrArg Nat.succ (valuesOf_length ρ ρ' Γ (i + 1))

/-- Which variables are on the stack. -/
theorem clauseRemap_none : ∀ (Γ : LCtx) (k i : Nat) (T : Term), LCtx.get Γ i = some T →
    ((∃ j, (clauseRemap k Γ)[i]? = some (some j)) ↔ T.isTypeParamKind = false)
  | [], k, i, T, h => by simp [LCtx.get] at h
  | none :: Γ, k, i, T, h => by
    cases i with
    | zero => simp [LCtx.get] at h
    | succ i => exact clauseRemap_none Γ k i T h
  | some U :: Γ, k, i, T, h => by
    cases i with
    | zero =>
      have : U = T := by simpa [LCtx.get] using h
      subst this
      simp only [clauseRemap]
      split <;> simp_all
    | succ i =>
      simp only [clauseRemap]
      split
      · exact clauseRemap_none Γ k i T h
      · exact clauseRemap_none Γ (k + 1) i T h

/-- The assignment that takes the values from a stack. -/
def fromStack {D : Type u} (Γ : LCtx) (ρ : Nat → D) (xs : List D) (i : Nat) : D :=
  match (clauseRemap 0 Γ)[i]? with
  | some (some j) => xs.getD j (ρ i)
  | _ => ρ i

theorem index_eq {m : List (Option Nat)} {i j : Nat} (hi : i < m.length) (h : Remap.index i (some m) = some j) :
    m[i]? = some (some j) := by
  simp only [Remap.index] at h
  rw [List.getElem?_eq_getElem hi] at h ⊢
  exact congrArg some h

theorem stackOk_values {D : Type u} (Γ : LCtx) (ρ : Nat → D) :
    StackOk Γ (some (clauseRemap 0 Γ)) (valuesOf ρ 0 Γ) ρ := by
  refine ⟨clauseRemap_size ρ Γ, fun i j hi h => ?_, fun m e => by cases e; exact clauseRemap_length Γ 0⟩
  have := (clauseRemap_get ρ Γ 0 0 i j (index_eq (by rw [clauseRemap_length]; exact hi) h)).2
  simpa using this

theorem stackOk_from {D : Type u} (Γ : LCtx) (ρ : Nat → D) (xs : List D) (hx : xs.length = (valuesOf ρ 0 Γ).length) :
    StackOk Γ (some (clauseRemap 0 Γ)) xs (fromStack Γ ρ xs) := by
  refine ⟨(clauseRemap_size ρ Γ).trans hx.symm, fun i j hi h => ?_, fun m e => by cases e; exact clauseRemap_length Γ 0⟩
  have h' := index_eq (by rw [clauseRemap_length]; exact hi) h
  have hj := (List.getElem?_eq_some_iff.1 (clauseRemap_get ρ Γ 0 0 i j h').2).1
  simp only [fromStack, h']
  rw [List.getD_eq_getElem?_getD, List.getElem?_eq_getElem (by omega)]
  rfl

section
variable {F : Frame.{u}} {θ : String → F.T}

/-- A stack that fits the types of the variables has the values of the variables. -/
theorem fits_values {K : KCtx} {N : Names} {tn : Nat → Option String} {fuel n : Nat} (ρ : Nat → F.D) : ∀ (Γ : LCtx) (ts : List Ty) (i0 : Nat),
    quoteVarTypes K N tn fuel n Γ = some ts →
    (∀ i T a, LCtx.get Γ i = some T → T.isTypeParamKind = false → quoteType K N tn fuel n T = some a →
      F.mem (ρ (i0 + i)) (F.ty θ a)) →
    F.Fits (valuesOf ρ i0 Γ) (F.tys θ ts)
  | [], ts, i0, e, h => by cases e; trivial
  | none :: Γ, ts, i0, e, h => fits_values ρ Γ ts (i0 + 1) e fun i T a h1 h2 h3 => by
      have := h (i + 1) T a h1 h2 h3
      rwa [show i0 + (i + 1) = i0 + 1 + i by omega] at this
  | some U :: Γ, ts, i0, e, h => by
    have rest : ∀ ts, quoteVarTypes K N tn fuel n Γ = some ts → F.Fits (valuesOf ρ (i0 + 1) Γ) (F.tys θ ts) :=
      fun ts e => fits_values ρ Γ ts (i0 + 1) e fun i T a h1 h2 h3 => by
        have := h (i + 1) T a h1 h2 h3
        rwa [show i0 + (i + 1) = i0 + 1 + i by omega] at this
    simp only [quoteVarTypes] at e
    simp only [valuesOf]
    split at e
    · rw [if_pos ‹_›]; exact rest ts e
    · rename_i hk
      rw [if_neg hk]
      simp only [Option.bind_eq_bind, Option.pure_def] at e
      obtain ⟨a, ha, e⟩ := Option.bind_eq_some_iff.1 e
      obtain ⟨ts', hts, e⟩ := Option.bind_eq_some_iff.1 e
      cases e
      exact ⟨h 0 U a rfl (by simpa using hk) ha, rest ts' hts⟩

theorem values_fit {K : KCtx} {N : Names} {tn : Nat → Option String} {fuel n : Nat} : ∀ (Γ : LCtx) (ts : List Ty) (k : Nat) (xs : List F.D),
    quoteVarTypes K N tn fuel n Γ = some ts → F.Fits xs (F.tys θ ts) →
    ∀ i T j, LCtx.get Γ i = some T → (clauseRemap k Γ)[i]? = some (some j) →
    ∃ a x, quoteType K N tn fuel n T = some a ∧ xs[j - k]? = some x ∧ k ≤ j ∧ F.mem x (F.ty θ a)
  | [], ts, k, xs, e, hf, i, T, j, h1, h2 => by simp [LCtx.get] at h1
  | none :: Γ, ts, k, xs, e, hf, i, T, j, h1, h2 => by
    cases i with
    | zero => simp [LCtx.get] at h1
    | succ i => exact values_fit Γ ts k xs e hf i T j h1 h2
  | some U :: Γ, ts, k, xs, e, hf, i, T, j, h1, h2 => by
    simp only [quoteVarTypes] at e
    simp only [clauseRemap] at h2
    split at e
    · rename_i hk
      rw [if_pos hk] at h2
      cases i with
      | zero => simp at h2
      | succ i => exact values_fit Γ ts k xs e hf i T j h1 h2
    · rename_i hk
      rw [if_neg hk] at h2
      simp only [Option.bind_eq_bind, Option.pure_def] at e
      obtain ⟨a, ha, e⟩ := Option.bind_eq_some_iff.1 e
      obtain ⟨ts', hts, e⟩ := Option.bind_eq_some_iff.1 e
      cases e
      cases xs with
      | nil => exact hf.elim
      | cons x xs =>
        cases i with
        | zero =>
          have : U = T := by simpa [LCtx.get] using h1
          subst this
          simp only [List.getElem?_cons_zero, Option.some.injEq] at h2
          subst h2
          exact ⟨a, x, ha, by simp, Nat.le_refl _, hf.1⟩
        | succ i =>
          obtain ⟨a', y, g1, g2, g3, g4⟩ := values_fit Γ ts' (k + 1) xs hts hf.2 i T j h1 h2
          exact ⟨a', y, g1, by rw [show j - k = (j - (k + 1)) + 1 by omega]; simpa using g2, by omega, g4⟩

theorem fits_length {K : KCtx} {N : Names} {tn : Nat → Option String} {fuel n : Nat} {D : Type u} (ρ : Nat → D) : ∀ (Γ : LCtx) (ts : List Ty) (i0 : Nat),
    quoteVarTypes K N tn fuel n Γ = some ts → ts.length = (valuesOf ρ i0 Γ).length
  | [], ts, i0, e => by cases e; rfl
  | none :: Γ, ts, i0, e => fits_length ρ Γ ts (i0 + 1) e
  | some U :: Γ, ts, i0, e => by
    simp only [quoteVarTypes] at e
    simp only [valuesOf]
    split at e
    · rw [if_pos ‹_›]; exact fits_length ρ Γ ts (i0 + 1) e
    · rw [if_neg ‹_›]
      simp only [Option.bind_eq_bind, Option.pure_def] at e
      obtain ⟨a, ha, e⟩ := Option.bind_eq_some_iff.1 e
      obtain ⟨ts', hts, e⟩ := Option.bind_eq_some_iff.1 e
      cases e
      exact congrArg Nat.succ (fits_length ρ Γ ts' (i0 + 1) hts)
end

/-! ### Literals -/

section
variable {K : KCtx} {M : Interp.{u}} (h : Lawful K M) (L : Tables) (hK : Prenex K) {N : Names} {θ : String → M.D}
  (I : Inverse K M L N θ) {tn : Nat → Option String} {Γ : LCtx} {rm : Remap} {env : List M.D} {ρ β : Nat → M.D}

include hK I in
theorem quoteLiteral_holds (H : Here M θ tn Γ rm env ρ) {l : Literal} {k : Nat} {v : Value}
    (hl : ∃ T, SHasType K Γ l.left T ∧ SHasType K Γ l.right T ∧ endsKind T = false ∧
      Quotable K N 0 l.left ∧ Quotable K N 0 l.right)
    (e : quoteLiteral K N tn k Γ rm l = some v) :
    (kernelFrame h L).Holds (constMeaning M L) θ env v ↔ LitHolds M ρ β l := by
  obtain ⟨T, h1, h2, h3, q1, q2⟩ := hl
  simp only [quoteLiteral, Option.bind_eq_bind, Option.pure_def] at e
  obtain ⟨a, ha, e⟩ := Option.bind_eq_some_iff.1 e
  have da := (quote_keeps h L hK I false k).1 Γ rm l.left a env ρ β T H h1 h3 q1 ha
  have db : ∀ b, quoteTerm K N tn false k Γ rm l.right = some b →
      (kernelFrame h L).den (constMeaning M L) θ env b = eval M ρ β l.right := fun b hb =>
    (quote_keeps h L hK I false k).1 Γ rm l.right b env ρ β T H h2 h3 q2 hb
  have ht : (kernelFrame h L).den (constMeaning M L) θ env (.bool true) = vtt M := ofProp_tt.2 rfl
  split at e
  · rename_i hr
    have er : eval M ρ β l.right = vtt M := by rw [isTrue_eq h2 hr]; rfl
    split at e
    · rename_i hp
      have main : (kernelFrame h L).Holds (constMeaning M L) θ env a ↔ LitHolds M ρ β l := by
        simp only [Frame.Holds, LitHolds, hp, if_true, er, da]
      split at e
      · cases e
        rw [← main]
        exact (ofProp_tt (F := kernelFrame h L)).trans ⟨fun hh => Eq.trans hh ht, fun hh => Eq.trans hh ht.symm⟩
      · rename_i hf
        cases e
        rw [← main, Frame.Holds, Frame.Holds, da, hf]
        have hfa : (kernelFrame h L).den (constMeaning M L) θ env (.bool false) = vff M := if_neg (by simp)
        exact (ofProp_tt (F := kernelFrame h L)).trans
          ⟨fun hh => (hfa.symm.trans hh).trans ht, fun hh => (hfa.trans hh).trans ht.symm⟩
      · cases e; exact main
    · rename_i hp
      cases e
      refine (ofProp_tt (F := kernelFrame h L)).trans ?_
      simp only [LitHolds, er, da]
      rw [if_neg hp]
  · obtain ⟨b, hb, e⟩ := Option.bind_eq_some_iff.1 e
    cases e
    refine (ofProp_tt (F := kernelFrame h L)).trans ?_
    simp only [LitHolds, da, db b hb]
    by_cases hp : l.positive = true
    · simp only [hp, if_true, Frame.binary]
    · simp only [hp, if_false, Frame.binary]; exact Iff.rfl

include hK I in
theorem quoteLiterals_hold (H : Here M θ tn Γ rm env ρ) {k : Nat} : ∀ {ls : List Literal} {vs : List Value},
    (∀ l ∈ ls, ∃ T, SHasType K Γ l.left T ∧ SHasType K Γ l.right T ∧ endsKind T = false ∧
      Quotable K N 0 l.left ∧ Quotable K N 0 l.right) → quoteLiterals K N tn k Γ rm ls = some vs →
    ((∃ v ∈ vs, (kernelFrame h L).Holds (constMeaning M L) θ env v) ↔ LitsHold M ρ β ls)
  | [], vs, _, e => by cases e; simp [LitsHold]
  | l :: ls, vs, hl, e => by
    simp only [quoteLiterals, Option.bind_eq_bind, Option.pure_def] at e
    obtain ⟨v, hv, e⟩ := Option.bind_eq_some_iff.1 e
    obtain ⟨vs', hvs, e⟩ := Option.bind_eq_some_iff.1 e
    cases e
    have h1 := quoteLiteral_holds h L hK I (β := β) H (hl l (by simp)) hv
    have h2 := quoteLiterals_hold H (fun l' hl' => hl l' (by simp [hl'])) hvs
    simp only [LitsHold, List.mem_cons, exists_eq_or_imp] at h2 ⊢
    rw [h1, h2]

end

section
variable {K : KCtx} {M : Interp.{u}} (h : Lawful K M) (L : Tables) (hK : Prenex K) {N : Names} {θ : String → M.D}
  (I : Inverse K M L N θ)

include hK I in
theorem quoteClause_holds {names : Option (List String)} {c : Clause} {k : Nat} {v : Value} {ρ : Nat → M.D}
    (hc : QuotableClause K N c) (hne : c.lits ≠ [])
    (hm : ∀ i T, c.ctx.get i = some T → isKind T = true → M.mem (ρ i) (eval M ρ ρ T))
    (hθ : ∀ i T, c.ctx.get i = some T → isKind T = true → θ (varName (clauseNames names c.ctx) i) = ρ i)
    (e : quoteClause K N names k c = some v) :
    (kernelFrame h L).Holds (constMeaning M L) θ [] v ↔
      ∀ ρ', (∀ i T, c.ctx.get i = some T → isKind T = true → ρ' i = ρ i) → Models M c.ctx ρ' →
        ∀ β, LitsHold M ρ' β c.lits := by
  simp only [quoteClause, Option.bind_eq_bind, Option.pure_def] at e
  rw [if_neg (by simpa using hne)] at e
  obtain ⟨vs, hvs, e⟩ := Option.bind_eq_some_iff.1 e
  obtain ⟨d, hd, e⟩ := Option.bind_eq_some_iff.1 e
  obtain ⟨ts, hts, e⟩ := Option.bind_eq_some_iff.1 e
  cases e
  have hor : ∀ env, (kernelFrame h L).Holds (constMeaning M L) θ env d ↔
      ∃ v ∈ vs, (kernelFrame h L).Holds (constMeaning M L) θ env v := by
    intro env
    cases vs with
    | nil => cases hd
    | cons v vs => cases hd; exact holds_foldl_or (F := kernelFrame h L) θ env vs v
  have small : ∀ i T, c.ctx.get i = some T → T.isTypeParamKind = false → SmallType K c.ctx T := by
    intro i T hi hT
    rw [isKind_typeParam] at hT
    rcases hc.ctx i T hi with hk | ⟨h1, h2⟩
    · rw [hk] at hT; cases hT
    · exact (h1.shape hK hc.ctx.simple (by intro i T hi; cases hi) h2).2 rfl
  have hty : ∀ ρ' : Nat → M.D, (∀ i T, c.ctx.get i = some T → isKind T = true → ρ' i = ρ i) →
      ∀ i T a β, c.ctx.get i = some T → T.isTypeParamKind = false →
      quoteType K N (clauseNames names c.ctx) k c.ctx.length T = some a → (kernelFrame h L).ty θ a = eval M ρ' β T :=
    fun ρ' ha i T a β hi hT hq => (quoteType_spec h L I (fun i T hi hT => (hθ i T hi hT).trans (ha i T hi hT).symm) k).1
      _ T a β (small i T hi hT) hq
  rw [den_mkAll]
  constructor
  · intro hall ρ' ha hρ' β
    have hf : (kernelFrame h L).Fits (valuesOf ρ' 0 c.ctx) ((kernelFrame h L).tys θ ts) :=
      fits_values (F := kernelFrame h L) ρ' c.ctx ts 0 hts fun i T a h1 h2 h3 => by
        rw [hty ρ' ha i T a β h1 h2 h3, Nat.zero_add]
        exact hρ' i T h1 β
    have := hall _ hf
    rw [List.nil_append, hor] at this
    exact (quoteLiterals_hold h L hK I ⟨hc.ctx.ok, hc.ctx.simple, hρ', stackOk_values c.ctx ρ',
      fun i T hi hT => (hθ i T hi hT).trans (ha i T hi hT).symm⟩ hc.lits hvs).1 this
  · intro hall xs hxs
    have hlen : xs.length = (valuesOf ρ 0 c.ctx).length := by
      rw [Fits.length hxs, tys_length, fits_length ρ c.ctx ts 0 hts]
    have ha : ∀ i T, c.ctx.get i = some T → isKind T = true → fromStack c.ctx ρ xs i = ρ i := by
      intro i T hi hT
      simp only [fromStack]
      split
      · rename_i j hj
        have := (clauseRemap_none c.ctx 0 i T hi).1 ⟨j, hj⟩
        rw [isKind_typeParam, hT] at this
        cases this
      · rfl
    have hρ' : Models M c.ctx (fromStack c.ctx ρ xs) := by
      intro i T hi β
      by_cases hT : isKind T = true
      · rw [ha i T hi hT]
        match T, hT, hi with
        | .sym s, hT, hi => exact hm i _ hi hT
      · have hT' : T.isTypeParamKind = false := by rw [isKind_typeParam]; simpa using hT
        obtain ⟨j, hj⟩ := (clauseRemap_none c.ctx 0 i T hi).2 hT'
        obtain ⟨a, x, g1, g2, _, g4⟩ := values_fit (F := kernelFrame h L) c.ctx ts 0 xs hts hxs i T j hi hj
        rw [hty _ ha i T a β hi hT' g1] at g4
        have : fromStack c.ctx ρ xs i = x := by
          simp only [fromStack, hj, List.getD_eq_getElem?_getD]
          rw [Nat.sub_zero] at g2
          rw [g2]; rfl
        rw [this]
        exact g4
    rw [List.nil_append, hor]
    exact (quoteLiterals_hold h L hK I ⟨hc.ctx.ok, hc.ctx.simple, hρ', stackOk_from c.ctx ρ xs hlen,
      fun i T hi hT => (hθ i T hi hT).trans (ha i T hi hT).symm⟩ hc.lits hvs).2 (hall _ ha hρ' ρ)

open Classical in
include hK in
/-- The clause is true exactly when the quoted statement holds for all types that its type parameters may mean. -/
theorem quoteClause_true {θ₀ : String → M.D} (I : Inverse K M L N θ₀) {names : Option (List String)} {c : Clause}
    {k : Nat} {v : Value} (hc : QuotableClause K N c) (hne : c.lits = [] → ∃ ρ, Models M c.ctx ρ)
    (hd : ∀ i T j U, c.ctx.get i = some T → isKind T = true → c.ctx.get j = some U → isKind U = true →
      varName (clauseNames names c.ctx) i = varName (clauseNames names c.ctx) j → i = j)
    (ha : ∀ i T g n, c.ctx.get i = some T → isKind T = true → N.ground g = some (.arb n) →
      n ≠ varName (clauseNames names c.ctx) i)
    (e : quoteClause K N names k c = some v) :
    ClauseTrue M c ↔ ∀ θ : String → M.D,
      (∀ n, (∀ i T, c.ctx.get i = some T → isKind T = true → n ≠ varName (clauseNames names c.ctx) i) → θ n = θ₀ n) →
      (∀ i T, c.ctx.get i = some T → isKind T = true →
        ∀ ρ β, M.mem (θ (varName (clauseNames names c.ctx) i)) (eval M ρ β T)) →
      (kernelFrame h L).Holds (constMeaning M L) θ [] v := by
  have kindE : ∀ (T : Term), isKind T = true → ∀ ρ β ρ' β' : Nat → M.D, eval M ρ β T = eval M ρ' β' T := by
    intro T hT ρ β ρ' β'
    match T, hT with
    | .sym s, _ => rfl
  have inv : ∀ θ : String → M.D,
      (∀ n, (∀ i T, c.ctx.get i = some T → isKind T = true → n ≠ varName (clauseNames names c.ctx) i) → θ n = θ₀ n) →
      Inverse K M L N θ := by
    intro θ h0
    refine ⟨fun g t hg => ?_, I.const⟩
    rcases I.ground g t hg with h1 | ⟨n, rfl, hn⟩
    · exact .inl h1
    · exact .inr ⟨n, rfl, by rw [h0 n fun i T hi hT => ha i T g n hi hT hg]; exact hn⟩
  -- the types that an assignment gives to the type variables
  let θof : (Nat → M.D) → String → M.D := fun ρ n =>
    if hx : ∃ i : Nat, (∃ T, c.ctx.get i = some T ∧ isKind T = true) ∧ n = varName (clauseNames names c.ctx) i then
      ρ (choose hx) else θ₀ n
  have of1 : ∀ ρ i T, c.ctx.get i = some T → isKind T = true → θof ρ (varName (clauseNames names c.ctx) i) = ρ i := by
    intro ρ i T hi hT
    have hx : ∃ j : Nat, (∃ T, c.ctx.get j = some T ∧ isKind T = true) ∧
        varName (clauseNames names c.ctx) i = varName (clauseNames names c.ctx) j := ⟨i, ⟨T, hi, hT⟩, rfl⟩
    show (if hx : _ then _ else _) = _
    rw [dif_pos hx]
    obtain ⟨⟨U, hj, hU⟩, e⟩ := choose_spec hx
    congr 1
    exact (hd _ _ _ _ hi hT hj hU e).symm
  have of0 : ∀ ρ n, (∀ i T, c.ctx.get i = some T → isKind T = true → n ≠ varName (clauseNames names c.ctx) i) →
      θof ρ n = θ₀ n := by
    intro ρ n hn
    refine dif_neg ?_
    rintro ⟨i, ⟨T, hi, hT⟩, e⟩
    exact hn i T hi hT e
  by_cases hl : c.lits = []
  · obtain ⟨ρ, hρ⟩ := hne hl
    have h1 : ¬ ClauseTrue M c := by
      intro ht
      have := ht ρ hρ ρ
      simp [LitsHold, hl] at this
    have hv : v = .bool false := by
      simp only [quoteClause, hl, List.isEmpty_nil, if_true, Option.some.injEq] at e
      exact e.symm
    subst hv
    refine iff_of_false h1 fun h2 => ?_
    have h3 := h2 (θof ρ) (of0 ρ) (fun i T hi hT ρ' β' => by
      rw [of1 ρ i T hi hT, kindE T hT ρ' β' ρ ρ]
      exact hρ i T hi ρ)
    exact h.tt_ne_ff (h3.symm.trans (if_neg (by simp)))
  · constructor
    · intro ht θ h0 hm
      have hchoose : ∃ ρ : Nat → M.D, ∀ i T, c.ctx.get i = some T → isKind T = true →
          θ (varName (clauseNames names c.ctx) i) = ρ i :=
        ⟨fun i => θ (varName (clauseNames names c.ctx) i), fun _ _ _ _ => rfl⟩
      obtain ⟨ρ, hρ⟩ := hchoose
      exact (quoteClause_holds h L hK (inv θ h0) hc hl (fun i T hi hT => hρ i T hi hT ▸ hm i T hi hT ρ ρ) hρ e).2
        fun ρ' _ hρ' β => ht ρ' hρ' β
    · intro hh ρ hρ β
      have h3 := hh (θof ρ) (of0 ρ) (fun i T hi hT ρ' β' => by
        rw [of1 ρ i T hi hT, kindE T hT ρ' β' ρ ρ]
        exact hρ i T hi ρ)
      exact (quoteClause_holds h L hK (inv _ (of0 ρ)) hc hl (fun i T hi hT => hρ i T hi ρ)
        (fun i T hi hT => of1 ρ i T hi hT) e).1 h3 ρ (fun _ _ _ _ => rfl) hρ β

/-- Without given names, the type variables have different names. -/
theorem default_names (Γ : LCtx) (i j : Nat) (e : varName (clauseNames none Γ) i = varName (clauseNames none Γ) j) :
    i = j := by
  simp only [varName, clauseNames, Option.getD_none, String.append_right_inj] at e
  exact Nat.repr_inj.1 e

theorem typeVarIds_names : ∀ (Γ : LCtx) (k i : Nat) (T : Term) (ns : List String) (n : String), LCtx.get Γ i = some T →
    isKind T = true → ns[((Γ.take i).filter fun o => o.any isKind).length]? = some n →
    ((typeVarIds k Γ).zip ns).lookup (k + i) = some n
  | [], k, i, T, ns, n, h, _, _ => by simp [LCtx.get] at h
  | none :: Γ, k, i, T, ns, n, h, hT, hn => by
    match i, h with
    | i + 1, h =>
      have := typeVarIds_names Γ (k + 1) i T ns n h hT (by simpa using hn)
      rw [← this]
      show _ = ((typeVarIds (k + 1) Γ).zip ns).lookup (k + 1 + i)
      rw [show k + 1 + i = k + (i + 1) by omega]
      rfl
  | some U :: Γ, k, i, T, ns, n, h, hT, hn => by
    match i, h with
    | 0, h =>
      cases h
      match ns, hn with
      | m :: ns, hn =>
        simp only [List.take_zero, List.filter_nil, List.length_nil, List.getElem?_cons_zero, Option.some.injEq] at hn
        subst hn
        simp [typeVarIds, isKind_typeParam, hT]
    | i + 1, h =>
      by_cases hU : isKind U = true
      · simp only [typeVarIds, isKind_typeParam, hU, if_true]
        match ns, hn with
        | [], hn => simp at hn
        | m :: ns, hn =>
          have := typeVarIds_names Γ (k + 1) i T ns n h hT (by simpa [hU] using hn)
          rw [List.zip_cons_cons, List.lookup_cons]
          have hne : (k + (i + 1) == k) = false := by simp
          rw [hne, ← this, show k + 1 + i = k + (i + 1) by omega]
      · have := typeVarIds_names Γ (k + 1) i T ns n h hT (by simpa [hU] using hn)
        simp only [typeVarIds, isKind_typeParam, hU]
        rw [← this, show k + 1 + i = k + (i + 1) by omega]
        simp

/-- The type variables get the given names in order. -/
theorem given_names {Γ : LCtx} {ns : List String} {i : Nat} {T : Term} {n : String} (hi : Γ.get i = some T)
    (hT : isKind T = true) (hn : ns[((Γ.take i).filter fun o => o.any isKind).length]? = some n) :
    varName (clauseNames (some ns) Γ) i = n := by
  have := typeVarIds_names Γ 0 i T ns n hi hT hn
  rw [Nat.zero_add] at this
  simp [varName, clauseNames, this]

end

end Spec
end Acorn
