/-
The polarity-aware normalizer keeps types and values.
-/
import Verif.Lemmas.Normalize
namespace Acorn
namespace Spec
open Term

universe u

section
variable {K : KCtx} {Γ : LCtx} {M : Interp.{u}} {ρ : Nat → M.D} {Δ : BCtx}

/-- The term has the value `true`. -/
def Tr (M : Interp.{u}) (ρ β : Nat → M.D) (t : Term) : Prop := eval M ρ β t = vtt M

theorem tr_not (L : Lawful K M) (hρ : Models M Γ ρ) {x : Term} (h : STyped K Γ Δ x (.ty .boolTy))
    {β : Nat → M.D} (hβ : BModels M Δ ρ β) : Tr M ρ β (.not x) ↔ ¬ Tr M ρ β x := by
  have m := h.bool_mem L hρ hβ
  simp only [Tr, eval]
  rw [L.not_tt _ m, bool_ff_iff L m]

theorem tr_and (L : Lawful K M) (hρ : Models M Γ ρ) {x y : Term} (h : STyped K Γ Δ x (.ty .boolTy))
    (h' : STyped K Γ Δ y (.ty .boolTy))
    {β : Nat → M.D} (hβ : BModels M Δ ρ β) : Tr M ρ β (.and x y) ↔ Tr M ρ β x ∧ Tr M ρ β y := by
  simp only [Tr, eval]
  rw [L.and_tt _ _ (h.bool_mem L hρ hβ) (h'.bool_mem L hρ hβ)]

theorem tr_or (L : Lawful K M) (hρ : Models M Γ ρ) {x y : Term} (h : STyped K Γ Δ x (.ty .boolTy))
    (h' : STyped K Γ Δ y (.ty .boolTy))
    {β : Nat → M.D} (hβ : BModels M Δ ρ β) : Tr M ρ β (.or x y) ↔ Tr M ρ β x ∨ Tr M ρ β y := by
  simp only [Tr, eval]
  rw [L.or_tt _ _ (h.bool_mem L hρ hβ) (h'.bool_mem L hρ hβ)]

theorem tr_eq (L : Lawful K M) (hρ : Models M Γ ρ) {T x y : Term} {J : Jdg}
    (h : STyped K Γ Δ (.eq T x y) J) {β : Nat → M.D} (hβ : BModels M Δ ρ β) :
    Tr M ρ β (.eq T x y) ↔ eval M ρ β x = eval M ρ β y := by
  obtain ⟨_, hT, hx, hy⟩ := h.eq_inv
  simp only [Tr, eval]
  rw [L.eq_tt _ _ _ (hT.val_mem L hρ hβ) (hx.val_mem L hρ hβ) (hy.val_mem L hρ hβ)]

theorem tr_all (L : Lawful K M) (hρ : Models M Γ ρ) {A b : Term}
    (h : STyped K Γ (BCtx.cons A Δ) b (.ty .boolTy)) {β : Nat → M.D} (hβ : BModels M Δ ρ β) :
    Tr M ρ β (.all A b) ↔ ∀ d, M.mem d (eval M ρ β A) → Tr M ρ (push d β) b := by
  simp only [Tr, eval]
  rw [L.all_tt _ _ fun d hd => h.bool_mem L hρ (hβ.cons hd)]

theorem tr_ex (L : Lawful K M) (hρ : Models M Γ ρ) {A b : Term}
    (h : STyped K Γ (BCtx.cons A Δ) b (.ty .boolTy)) {β : Nat → M.D} (hβ : BModels M Δ ρ β) :
    Tr M ρ β (.ex A b) ↔ ∃ d, M.mem d (eval M ρ β A) ∧ Tr M ρ (push d β) b := by
  simp only [Tr, eval]
  rw [L.ex_tt _ _ fun d hd => h.bool_mem L hρ (hβ.cons hd)]

/-- For booleans it is enough to compare when they are true. -/
theorem Same.of_tr (L : Lawful K M) (hρ : Models M Γ ρ) {t t' : Term}
    (h : STyped K Γ Δ t (.ty .boolTy)) (h' : STyped K Γ Δ t' (.ty .boolTy))
    (e : ∀ β, BModels M Δ ρ β → (Tr M ρ β t' ↔ Tr M ρ β t)) : Same K Γ M ρ Δ t t' (.ty .boolTy) :=
  ⟨h', fun β hβ => bool_ext L (h'.bool_mem L hρ hβ) (h.bool_mem L hρ hβ) (e β hβ)⟩

/-- `t'` is a boolean and is true exactly when the boolean `t` is not. -/
structure Neg (K : KCtx) (Γ : LCtx) (M : Interp.{u}) (ρ : Nat → M.D) (Δ : BCtx) (t t' : Term) :
    Prop where
  typed : STyped K Γ Δ t' (.ty .boolTy)
  tr : ∀ β, BModels M Δ ρ β → (Tr M ρ β t' ↔ ¬ Tr M ρ β t)

theorem Same.tr {t t' : Term} {J : Jdg} (h : Same K Γ M ρ Δ t t' J) {β : Nat → M.D}
    (hβ : BModels M Δ ρ β) : Tr M ρ β t' ↔ Tr M ρ β t := by
  simp only [Tr, h.eval β hβ]

theorem Same.not_neg (L : Lawful K M) (hρ : Models M Γ ρ) {t t' : Term}
    (h : Same K Γ M ρ Δ t t' (.ty .boolTy)) : Neg K Γ M ρ Δ t (.not t') :=
  ⟨h.typed.not, fun β hβ => by rw [tr_not L hρ h.typed hβ, h.tr hβ]⟩

theorem list_len_one {α : Type} {l : List α} (h : l.length = 1) : ∃ a, l = [a] := by
  match l, h with
  | [a], _ => exact ⟨a, rfl⟩

theorem list_len_two {α : Type} {l : List α} (h : l.length = 2) : ∃ a b, l = [a, b] := by
  match l, h with
  | [a, b], _ => exact ⟨a, b, rfl⟩

/-- Everything about the polarity-aware normalizer. -/
theorem normPol_spec (L : Lawful K M) (hρ : Models M Γ ρ) : ∀ (n : Nat) {Δ : BCtx} {t : Term},
    t.size ≤ n → ∀ {J : Jdg}, STyped K Γ Δ t J →
      Same K Γ M ρ Δ t (normPolAux n t true) J ∧
      (J = .ty .boolTy → Neg K Γ M ρ Δ t (normPolAux n t false)) ∧
      (Typelike J → normPolAux n t true = t) := by
  intro n
  induction n with
  | zero => intro Δ t h; cases t <;> simp [size] at h
  | succ n ih =>
    intro Δ t hn J h
    have nb : ¬ Typelike (.ty .boolTy) := by
      rintro (h | ⟨T, h, h2⟩)
      · cases h
      · cases h; cases h2
    simp only [normPolAux]
    cases e1 : splitSym t .not_ 1 with
    | some as =>
      obtain ⟨x, rfl⟩ := list_len_one (h.splitSym rfl e1).2
      have hx := size_args_lt e1 x (by simp)
      obtain ⟨rfl, _⟩ := h.splitSym rfl e1
      obtain ⟨rfl, h1⟩ := STyped.not_inv h
      obtain ⟨p1, p2, _⟩ := ih (Δ := Δ) (t := x) (by omega) h1
      obtain p2 := p2 rfl
      simp only [Bool.not_true, Bool.not_false]
      refine ⟨?_, fun _ => ?_, fun hJ => absurd hJ nb⟩
      · refine .of_tr L hρ h p2.typed fun β hβ => ?_
        rw [p2.tr β hβ]
        exact (tr_not L hρ h1 hβ).symm
      · refine ⟨p1.typed, fun β hβ => ?_⟩
        rw [p1.tr hβ]
        have := tr_not L hρ h1 hβ
        simp only [Term.apply, List.foldl] at *
        rw [this, Classical.not_not]
    | none =>
    cases e2 : splitSym t .and_ 2 with
    | some as =>
      obtain ⟨x, y, rfl⟩ := list_len_two (h.splitSym rfl e2).2
      have hx := size_args_lt e2 x (by simp)
      have hy := size_args_lt e2 y (by simp)
      obtain ⟨rfl, _⟩ := h.splitSym rfl e2
      obtain ⟨rfl, h1, h2⟩ := STyped.and_inv h
      obtain ⟨p1, p2, _⟩ := ih (Δ := Δ) (t := x) (by omega) h1
      obtain ⟨q1, q2, _⟩ := ih (Δ := Δ) (t := y) (by omega) h2
      obtain p2 := p2 rfl
      obtain q2 := q2 rfl
      simp only [if_true, if_false, Bool.false_eq_true]
      refine ⟨?_, fun _ => ?_, fun hJ => absurd hJ nb⟩
      · refine .of_tr L hρ h (.and p1.typed q1.typed) fun β hβ => ?_
        rw [tr_and L hρ p1.typed q1.typed hβ, p1.tr hβ, q1.tr hβ]
        exact (tr_and L hρ h1 h2 hβ).symm
      · refine ⟨.or p2.typed q2.typed, fun β hβ => ?_⟩
        rw [tr_or L hρ p2.typed q2.typed hβ, p2.tr β hβ, q2.tr β hβ]
        have := tr_and L hρ h1 h2 hβ
        simp only [Term.apply, List.foldl] at *
        rw [this, Classical.not_and_iff_not_or_not]
    | none =>
    cases e3 : splitSym t .or_ 2 with
    | some as =>
      obtain ⟨x, y, rfl⟩ := list_len_two (h.splitSym rfl e3).2
      have hx := size_args_lt e3 x (by simp)
      have hy := size_args_lt e3 y (by simp)
      obtain ⟨rfl, _⟩ := h.splitSym rfl e3
      obtain ⟨rfl, h1, h2⟩ := STyped.or_inv h
      obtain ⟨p1, p2, _⟩ := ih (Δ := Δ) (t := x) (by omega) h1
      obtain ⟨q1, q2, _⟩ := ih (Δ := Δ) (t := y) (by omega) h2
      obtain p2 := p2 rfl
      obtain q2 := q2 rfl
      simp only [if_true, if_false, Bool.false_eq_true]
      refine ⟨?_, fun _ => ?_, fun hJ => absurd hJ nb⟩
      · refine .of_tr L hρ h (.or p1.typed q1.typed) fun β hβ => ?_
        rw [tr_or L hρ p1.typed q1.typed hβ, p1.tr hβ, q1.tr hβ]
        exact (tr_or L hρ h1 h2 hβ).symm
      · refine ⟨.and p2.typed q2.typed, fun β hβ => ?_⟩
        rw [tr_and L hρ p2.typed q2.typed hβ, p2.tr β hβ, q2.tr β hβ]
        have := tr_or L hρ h1 h2 hβ
        simp only [Term.apply, List.foldl] at *
        rw [this, not_or]
    | none =>
    clear e1 e2 e3
    match t, hn, h with
    | .atom a, hn, h =>
      simp only [if_true, if_false, Bool.false_eq_true]
      refine ⟨.refl h, ?_, fun _ => trivial⟩
      rintro rfl
      exact (Same.refl h).not_neg L hρ
    | .app f a, hn, h =>
      simp only [if_true, if_false, Bool.false_eq_true]
      simp only [size] at hn
      have hf := fun J1 h1 => ih (Δ := Δ) (t := f) (by omega) (J := J1) h1
      have ha := fun J1 h1 => ih (Δ := Δ) (t := a) (by omega) (J := J1) h1
      have s1 : Same K Γ M ρ Δ (.app f a) (.app (normPolAux n f true) (normPolAux n a true)) J :=
        .app_children h (fun J1 h1 => (hf J1 h1).1) (fun J1 h1 => (ha J1 h1).1)
          (fun J1 h1 k1 => (ha J1 h1).2.2 k1) (fun J1 h1 k1 => (hf J1 h1).2.2 k1)
      have s2 := s1.trans (orientEq_getD_same L hρ s1.typed)
      refine ⟨s2, ?_, fun hJ => ?_⟩
      · rintro rfl; exact s2.not_neg L hρ
      · obtain ⟨⟨J1, h1, k1⟩, ⟨J2, h2, k2⟩⟩ := h.app_typelike hJ
        rw [(hf J1 h1).2.2 k1, (ha J2 h2).2.2 k2, orientEq_typelike h hJ]
        rfl
    | .bind .pi A b, hn, h =>
      simp only [if_true, if_false, Bool.false_eq_true]
      simp only [size] at hn
      obtain ⟨hT, h1, h2⟩ := h.pi_inv
      have e1 := (ih (Δ := Δ) (t := A) (by omega) h1).2.2 (Or.inl rfl)
      have e2 := (ih (Δ := BCtx.cons A Δ) (t := b) (by omega) h2).2.2 (Or.inl rfl)
      rw [e1, e2]
      refine ⟨.refl h, ?_, fun _ => rfl⟩
      rintro rfl
      exact absurd hT nb
    | .bind .lam A b, hn, h =>
      simp only [if_true, if_false, Bool.false_eq_true]
      simp only [size] at hn
      have e1 := (ih (Δ := Δ) (t := A) (by omega) h.bind_dom).2.2 (Or.inl rfl)
      have hb := fun J1 h1 => ih (Δ := BCtx.cons A Δ) (t := b) (by omega) (J := J1) h1
      have s1 : Same K Γ M ρ Δ (.bind .lam A b) (.bind .lam (normPolAux n A true) (normPolAux n b true)) J :=
        .bind_children L h (fun _ _ _ => e1) (fun J1 h1 => (hb J1 h1).1)
          (fun J1 h1 k1 => (hb J1 h1).2.2 k1)
      refine ⟨s1, ?_, fun hJ => (h.lam_not_typelike hJ).elim⟩
      rintro rfl; exact s1.not_neg L hρ
    | .bind .all A b, hn, h =>
      simp only [if_true, if_false, Bool.false_eq_true]
      simp only [size] at hn
      obtain ⟨rfl, h1, h2⟩ := h.quant_inv (Or.inl rfl)
      have e1 := (ih (Δ := Δ) (t := A) (by omega) h1).2.2 (Or.inl rfl)
      obtain ⟨p1, p2, _⟩ := ih (Δ := BCtx.cons A Δ) (t := b) (by omega) h2
      obtain p2 := p2 rfl
      rw [e1]
      refine ⟨.quant L (Or.inl rfl) h1 p1, fun _ => ⟨.ex h1 p2.typed, fun β hβ => ?_⟩,
        fun hJ => absurd hJ nb⟩
      rw [tr_ex L hρ p2.typed hβ, tr_all L hρ h2 hβ]
      simp only [Classical.not_forall]
      refine exists_congr fun d => ?_
      constructor
      · rintro ⟨hd, ht⟩
        exact ⟨hd, (p2.tr _ (hβ.cons hd)).1 ht⟩
      · rintro ⟨hd, ht⟩
        exact ⟨hd, (p2.tr _ (hβ.cons hd)).2 ht⟩
    | .bind .ex A b, hn, h =>
      simp only [if_true, if_false, Bool.false_eq_true]
      simp only [size] at hn
      obtain ⟨rfl, h1, h2⟩ := h.quant_inv (Or.inr rfl)
      have e1 := (ih (Δ := Δ) (t := A) (by omega) h1).2.2 (Or.inl rfl)
      obtain ⟨p1, p2, _⟩ := ih (Δ := BCtx.cons A Δ) (t := b) (by omega) h2
      obtain p2 := p2 rfl
      rw [e1]
      refine ⟨.quant L (Or.inr rfl) h1 p1, fun _ => ⟨.all h1 p2.typed, fun β hβ => ?_⟩,
        fun hJ => absurd hJ nb⟩
      rw [tr_all L hρ p2.typed hβ, tr_ex L hρ h2 hβ]
      simp only [not_exists, not_and]
      exact forall_congr' fun d => forall_congr' fun hd => p2.tr _ (hβ.cons hd)

theorem normClauseTerm_same (L : Lawful K M) (hρ : Models M Γ ρ) {t : Term} {J : Jdg}
    (h : STyped K Γ Δ t J) : Same K Γ M ρ Δ t (normClauseTerm t) J :=
  (normPol_spec L hρ _ (Nat.le_refl _) h).1

theorem normPol_neg (L : Lawful K M) (hρ : Models M Γ ρ) {t : Term}
    (h : STyped K Γ Δ t (.ty .boolTy)) : Neg K Γ M ρ Δ t (normPol t false) :=
  (normPol_spec L hρ _ (Nat.le_refl _) h).2.1 rfl

/-- The signed normalizer returns a boolean whose truth, read with the new sign, is that of the
original read with the old sign. -/
theorem normSigned_spec (L : Lawful K M) (hρ : Models M Γ ρ) : ∀ (n : Nat) {t : Term} (p : Bool),
    t.size ≤ n → STyped K Γ Δ t (.ty .boolTy) →
      STyped K Γ Δ (normSignedAux n t p).1 (.ty .boolTy) ∧
      ∀ β, BModels M Δ ρ β → ((Tr M ρ β (normSignedAux n t p).1 ↔ (normSignedAux n t p).2 = true) ↔
        (Tr M ρ β t ↔ p = true)) := by
  intro n
  induction n with
  | zero => intro t p h; cases t <;> simp [size] at h
  | succ n ih =>
    intro t p hn h
    simp only [normSignedAux]
    cases e1 : splitSym t .not_ 1 with
    | some as =>
      obtain ⟨x, rfl⟩ := list_len_one (h.splitSym rfl e1).2
      have hx := size_args_lt e1 x (by simp)
      obtain ⟨rfl, _⟩ := h.splitSym rfl e1
      obtain ⟨_, h1⟩ := STyped.not_inv h
      obtain ⟨q1, q2⟩ := ih (t := x) (!p) (by omega) h1
      refine ⟨q1, fun β hβ => ?_⟩
      simp only
      rw [q2 β hβ]
      have := tr_not L hρ h1 hβ
      simp only [Term.apply, List.foldl] at *
      rw [this]
      cases p <;> simp
    | none =>
    cases e3 : splitSym t .or_ 2 with
    | some as =>
      obtain ⟨x, y, rfl⟩ := list_len_two (h.splitSym rfl e3).2
      obtain ⟨rfl, _⟩ := h.splitSym rfl e3
      obtain ⟨_, h1, h2⟩ := STyped.or_inv h
      have p2 := normPol_neg L hρ h1
      have q2 := normPol_neg L hρ h2
      refine ⟨.and p2.typed q2.typed, fun β hβ => ?_⟩
      simp only
      rw [tr_and L hρ p2.typed q2.typed hβ, p2.tr β hβ, q2.tr β hβ]
      have := tr_or L hρ h1 h2 hβ
      simp only [Term.apply, List.foldl] at *
      rw [this, ← not_or]
      by_cases hh : Tr M ρ β x ∨ Tr M ρ β y <;> cases p <;> simp [hh]
    | none =>
      have s := normClauseTerm_same L hρ h
      refine ⟨s.typed, fun β hβ => ?_⟩
      simp only
      rw [s.tr hβ]

end
end Spec
end Acorn
