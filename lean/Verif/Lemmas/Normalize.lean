/-
Term normalization keeps types and values.
-/
import Verif.Lemmas.Connectives
namespace Acorn
namespace Spec
open Term

universe u

/-- Two terms have the same value under every assignment respecting the bound variables in scope. -/
def EvalEq (M : Interp.{u}) (ρ : Nat → M.D) (Δ : BCtx) (t t' : Term) : Prop :=
  ∀ β, BModels M Δ ρ β → eval M ρ β t' = eval M ρ β t

/-- Same type, same value. -/
structure Same (K : KCtx) (Γ : LCtx) (M : Interp.{u}) (ρ : Nat → M.D) (Δ : BCtx) (t t' : Term)
    (J : Jdg) : Prop where
  typed : STyped K Γ Δ t' J
  eval : EvalEq M ρ Δ t t'

section
variable {K : KCtx} {Γ : LCtx} {M : Interp.{u}} {ρ : Nat → M.D} {Δ : BCtx}

theorem Same.refl {t : Term} {J : Jdg} (h : STyped K Γ Δ t J) : Same K Γ M ρ Δ t t J :=
  ⟨h, fun _ _ => rfl⟩

theorem Same.trans {t t' t'' : Term} {J : Jdg} (h : Same K Γ M ρ Δ t t' J)
    (h' : Same K Γ M ρ Δ t' t'' J) : Same K Γ M ρ Δ t t'' J :=
  ⟨h'.typed, fun β hβ => (h'.eval β hβ).trans (h.eval β hβ)⟩

theorem Same.lam (L : Lawful K M) {A b b' B : Term} (hA : STyped K Γ Δ A .isTy)
    (h : Same K Γ M ρ (BCtx.cons A Δ) b b' (.ty (Term.ren Nat.succ B)))
    (kA : endsKind A = false) (kB : endsKind B = false) :
    Same K Γ M ρ Δ (.lam A b) (.lam A b') (.ty (.pi A (Term.ren Nat.succ B))) := by
  refine ⟨.lam hA h.typed kA kB, fun β hβ => ?_⟩
  simp only [Acorn.eval]
  exact L.bind_congr _ _ _ _ fun d hd => h.eval _ (hβ.cons hd)

theorem Same.quant (L : Lawful K M) {q : Binder} (hq : q = .all ∨ q = .ex) {A b b' : Term}
    (hA : STyped K Γ Δ A .isTy)
    (h : Same K Γ M ρ (BCtx.cons A Δ) b b' (.ty .boolTy)) :
    Same K Γ M ρ Δ (.bind q A b) (.bind q A b') (.ty .boolTy) := by
  refine ⟨?_, fun β hβ => ?_⟩
  · rcases hq with rfl | rfl
    · exact .all hA h.typed
    · exact .ex hA h.typed
  · simp only [Acorn.eval]
    exact L.bind_congr _ _ _ _ fun d hd => h.eval _ (hβ.cons hd)

/-- The value of a boolean term is `true` or `false`. -/
theorem STyped.bool_mem (L : Lawful K M) (hρ : Models M Γ ρ) {t : Term}
    (h : STyped K Γ Δ t (.ty .boolTy)) {β : Nat → M.D} (hβ : BModels M Δ ρ β) :
    M.mem (eval M ρ β t) (vbool M) := h.typed.mem L hρ β hβ

theorem STyped.val_mem (L : Lawful K M) (hρ : Models M Γ ρ) {t T : Term}
    (h : STyped K Γ Δ t (.ty T)) {β : Nat → M.D} (hβ : BModels M Δ ρ β) :
    M.mem (eval M ρ β t) (eval M ρ β T) := h.typed.mem L hρ β hβ

/-- Booleans that are `true` together are equal. -/
theorem bool_ext (L : Lawful K M) {a b : M.D} (ha : M.mem a (vbool M)) (hb : M.mem b (vbool M))
    (h : a = vtt M ↔ b = vtt M) : a = b := by
  rw [L.mem_bool] at ha hb
  rcases ha with rfl | rfl <;> rcases hb with rfl | rfl
  · rfl
  · exact (h.1 rfl).symm
  · exact h.2 rfl
  · rfl

theorem bool_ff_iff (L : Lawful K M) {a : M.D} (ha : M.mem a (vbool M)) :
    a = vff M ↔ ¬ a = vtt M := by
  rw [L.mem_bool] at ha
  rcases ha with rfl | rfl
  · simp [L.tt_ne_ff]
  · simp [L.tt_ne_ff.symm]

/-! ### Single steps -/

theorem Same.beta (L : Lawful K M) (hρ : Models M Γ ρ) {A b a : Term} {J : Jdg}
    (h : STyped K Γ Δ (.app (.lam A b) a) J) :
    Same K Γ M ρ Δ (.app (.lam A b) a) (Term.inst 0 a b) J := by
  obtain ⟨A1, B1, hf⟩ := h.app_typed_fun
  obtain ⟨B, e, hA, hb, kA, kB⟩ := hf.lam_inv
  cases e
  obtain ⟨ha, e⟩ := h.app_fun_val hf (by rw [inst_up]; exact isKind_of_endsKind_false kB)
  rw [inst_up] at e
  subst e
  refine ⟨?_, fun β hβ => ?_⟩
  · have := hb.inst0 ha
    simp only [Jdg.sub] at this
    rwa [← inst_zero_eq, inst_up] at this
  · rw [eval_inst_zero]
    simp only [Acorn.eval]
    rw [L.beta _ _ _ (ha.val_mem L hρ hβ)]

theorem Same.eta (L : Lawful K M) (hρ : Models M Γ ρ) {A g : Term} {J : Jdg}
    (h : STyped K Γ Δ (.lam A (.app (Term.ren Nat.succ g) (.bvar 0))) J) :
    Same K Γ M ρ Δ (.lam A (.app (Term.ren Nat.succ g) (.bvar 0))) g J := by
  obtain ⟨B, rfl, hA, hb, kA, kB⟩ := h.lam_inv
  have hbv : STyped K Γ (BCtx.cons A Δ) (.bvar 0) (.ty (Term.ren Nat.succ A)) := .bvar rfl
  rcases hb.app_inv with ⟨A', B', e, h1, h2, h3, h4⟩ | ⟨A', B', h1, h2, h3, h4⟩
  · cases e
    have e := Typed.unique_of_not_kind hbv.typed h2.typed (by
      rw [isKind_ren]; exact isKind_of_endsKind_false kA)
    subst e
    have e2 : Term.pi (Term.ren Nat.succ A) (Term.ren Nat.succ (Term.ren Nat.succ B))
        = Term.ren Nat.succ (.pi A (Term.ren Nat.succ B)) := by
      simp only [Term.ren, ren_ren]; rfl
    rw [e2] at h1
    obtain ⟨J0, e3, h5⟩ := h1.drop
    cases J0 with
    | isTy => cases e3
    | ty T0 =>
      simp only [Jdg.ren, Jdg.ty.injEq] at e3
      have := ren_injective (fun _ _ h => Nat.succ.inj h) e3
      subst this
      refine ⟨h5, fun β hβ => ?_⟩
      have hm := h5.val_mem L hρ hβ
      simp only [Acorn.eval] at hm ⊢
      rw [L.mem_pi] at hm
      rw [← hm.1]
      refine L.bind_congr _ _ _ _ fun d hd => ?_
      rw [eval_ren]
      rfl
  · have e := Typed.unique_of_not_kind hbv.typed h2.typed (by
      rw [isKind_ren]; exact isKind_of_endsKind_false kA)
    subst e
    rw [endsKind_ren, kA] at h3
    cases h3

theorem Same.notnot (L : Lawful K M) (hρ : Models M Γ ρ) {x : Term} {J : Jdg}
    (h : STyped K Γ Δ (.not (.not x)) J) : Same K Γ M ρ Δ (.not (.not x)) x J := by
  obtain ⟨rfl, h1⟩ := h.not_inv
  obtain ⟨_, h2⟩ := h1.not_inv
  refine ⟨h2, fun β hβ => ?_⟩
  have m0 := h.bool_mem L hρ hβ
  have m1 := h1.bool_mem L hρ hβ
  have m2 := h2.bool_mem L hρ hβ
  apply bool_ext L m2 m0
  simp only [Acorn.eval] at m0 m1 ⊢
  rw [L.not_tt _ m1, bool_ff_iff L m1, L.not_tt _ m2, bool_ff_iff L m2, Classical.not_not]

theorem Same.eqSwap (L : Lawful K M) (hρ : Models M Γ ρ) {T x y : Term} {J : Jdg}
    (h : STyped K Γ Δ (.eq T x y) J) : Same K Γ M ρ Δ (.eq T x y) (.eq T y x) J := by
  obtain ⟨rfl, hT, hx, hy⟩ := h.eq_inv
  have h' := STyped.eq hT hy hx
  refine ⟨h', fun β hβ => ?_⟩
  have m0 := h.bool_mem L hρ hβ
  have m1 := h'.bool_mem L hρ hβ
  have mT := hT.val_mem L hρ hβ
  have mx := hx.val_mem L hρ hβ
  have my := hy.val_mem L hρ hβ
  apply bool_ext L m1 m0
  simp only [Acorn.eval] at m0 m1 ⊢
  rw [L.eq_tt _ _ _ mT mx my, L.eq_tt _ _ _ mT my mx]
  exact eq_comm

/-! ### The model's step functions -/

theorem betaHead_same (L : Lawful K M) (hρ : Models M Γ ρ) {t : Term} {r : Option Term} {J : Jdg}
    (h : STyped K Γ Δ t J) (e : betaHead t = some r) : ∃ t', r = some t' ∧ Same K Γ M ρ Δ t t' J := by
  match t, e with
  | .app (.bind .lam A b) a, e =>
    simp only [betaHead, Option.some.injEq] at e
    rw [openBound_eq] at e
    exact ⟨_, e.symm, .beta L hρ h⟩

theorem ren_shift (t : Term) : ∀ d, refsBoundAt 0 d t = false →
    ∃ t', shift (d + 1) (-1) t = some t' ∧ t = Term.up d 1 t' := by
  induction t with
  | atom a =>
    intro d h
    cases a with
    | bvar i =>
      simp only [refsBoundAt, Nat.zero_add, beq_eq_false_iff_ne, ne_eq] at h
      by_cases hi : d + 1 ≤ i
      · refine ⟨.bvar (i - 1), ?_, ?_⟩
        · simp only [shift]
          rw [if_pos hi, if_pos (by omega)]
          congr 3; omega
        · simp only [up]
          rw [if_pos (by omega)]
          congr 2; omega
      · refine ⟨.bvar i, ?_, ?_⟩
        · simp only [shift]
          rw [if_neg hi]
        · simp only [up]
          rw [if_neg (by omega)]
    | fvar i => exact ⟨.fvar i, rfl, rfl⟩
    | sym s => exact ⟨.sym s, rfl, rfl⟩
  | app f a ihf iha =>
    intro d h
    simp only [refsBoundAt, Bool.or_eq_false_iff] at h
    obtain ⟨f', e1, h1⟩ := ihf d h.1
    obtain ⟨a', e2, h2⟩ := iha d h.2
    exact ⟨.app f' a', by simp [shift, e1, e2], by rw [h1, h2]; rfl⟩
  | bind b A B ihA ihB =>
    intro d h
    simp only [refsBoundAt, Bool.or_eq_false_iff] at h
    obtain ⟨f', e1, h1⟩ := ihA d h.1
    obtain ⟨a', e2, h2⟩ := ihB (d + 1) h.2
    exact ⟨.bind b f' a', by simp [shift, e1, e2], by rw [h1, h2]; rfl⟩

theorem refsBound_apply {n : Nat} : ∀ (as : List Term) (f : Term), f.refsBound n = false →
    (as.any fun x => x.refsBound n) = false → (f.apply as).refsBound n = false := by
  intro as
  induction as with
  | nil => intro f h _; exact h
  | cons a as ih =>
    intro f h h'
    simp only [List.any_cons, Bool.or_eq_false_iff] at h'
    refine ih (.app f a) ?_ h'.2
    simp only [refsBound, refsBoundAt, Bool.or_eq_false_iff] at h h' ⊢
    exact ⟨h, h'.1⟩

theorem etaHead_same (L : Lawful K M) (hρ : Models M Γ ρ) {t : Term} {r : Option Term} {J : Jdg}
    (h : STyped K Γ Δ t J) (e : etaHead t = some r) : ∃ t', r = some t' ∧ Same K Γ M ρ Δ t t' J := by
  match t, e, h with
  | .bind .lam A (.app f a), e, h =>
    simp only [etaHead, args, List.getLast?_append, List.getLast?_singleton, Option.some_or,
      List.dropLast_concat, spineHead] at e
    split at e
    · cases e
    · rename_i h1
      split at e
      · cases e
      · rename_i h2
        split at e
        · cases e
        · rename_i h3
          simp only [Option.some.injEq] at e
          rw [apply_args] at e
          simp only [ne_eq, Decidable.not_not] at h1
          simp only [Bool.not_eq_true] at h2 h3
          have h4 : f.refsBound 0 = false := by
            have := refsBound_apply _ _ h2 h3
            rwa [apply_args] at this
          obtain ⟨f', e1, e2⟩ := ren_shift f 0 h4
          rw [e1] at e
          refine ⟨f', e.symm, ?_⟩
          rw [up_zero_one] at e2
          subst e2 h1
          exact .eta L hρ h

theorem cancelNotNot_same (L : Lawful K M) (hρ : Models M Γ ρ) {t t' : Term} {J : Jdg}
    (h : STyped K Γ Δ t J) (e : cancelNotNot t = some t') : Same K Γ M ρ Δ t t' J := by
  simp only [cancelNotNot] at e
  split at e
  · rename_i x ex
    split at e
    · rename_i y ey
      cases e
      obtain ⟨rfl, _⟩ := h.splitSym rfl ex
      have hx := (STyped.not_inv h).2
      obtain ⟨rfl, _⟩ := hx.splitSym rfl ey
      exact .notnot L hρ h
    · cases e
  · cases e

theorem orientEq_same (L : Lawful K M) (hρ : Models M Γ ρ) {t t' : Term} {J : Jdg}
    (h : STyped K Γ Δ t J) (e : orientEq t = some t') : Same K Γ M ρ Δ t t' J := by
  simp only [orientEq] at e
  split at e
  · rename_i ty l r ex
    split at e
    · cases e
    · cases e
      obtain ⟨rfl, _⟩ := h.splitSym rfl ex
      exact .eqSwap L hρ h
  · cases e

theorem orientEq_getD_same (L : Lawful K M) (hρ : Models M Γ ρ) {t : Term} {J : Jdg}
    (h : STyped K Γ Δ t J) : Same K Γ M ρ Δ t ((orientEq t).getD t) J := by
  cases e : orientEq t with
  | none => exact .refl h
  | some t' => exact orientEq_same L hρ h e

theorem cancelNotNot_getD_same (L : Lawful K M) (hρ : Models M Γ ρ) {t : Term} {J : Jdg}
    (h : STyped K Γ Δ t J) : Same K Γ M ρ Δ t ((cancelNotNot t).getD t) J := by
  cases e : cancelNotNot t with
  | none => exact .refl h
  | some t' => exact cancelNotNot_same L hρ h e

/-! ### Types are already normal -/

theorem orientEq_typelike {t : Term} {J : Jdg} (h : STyped K Γ Δ t J) (hJ : Typelike J) :
    orientEq t = none := by
  simp only [orientEq, splitSym_none (h.typelike_head' (s := .eq_) rfl hJ)]

theorem cancelNotNot_typelike {t : Term} {J : Jdg} (h : STyped K Γ Δ t J) (hJ : Typelike J) :
    cancelNotNot t = none := by
  simp only [cancelNotNot, splitSym_none (h.typelike_head' (s := .not_) rfl hJ)]

theorem betaHead_typelike {t : Term} {J : Jdg} (h : STyped K Γ Δ t J) (hJ : Typelike J) :
    betaHead t = none := by
  match t, h with
  | .atom _, _ => rfl
  | .bind _ _ _, _ => rfl
  | .app (.atom _) _, _ => rfl
  | .app (.app _ _) _, _ => rfl
  | .app (.bind .pi _ _) _, _ => rfl
  | .app (.bind .all _ _) _, _ => rfl
  | .app (.bind .ex _ _) _, _ => rfl
  | .app (.bind .lam _ _) _, h =>
    obtain ⟨⟨J1, h1, h2⟩, _⟩ := h.app_typelike hJ
    exact (h1.lam_not_typelike h2).elim

theorem etaHead_typelike {t : Term} {J : Jdg} (h : STyped K Γ Δ t J) (hJ : Typelike J) :
    etaHead t = none := by
  match t, h with
  | .atom _, _ => rfl
  | .app _ _, _ => rfl
  | .bind .pi _ _, _ => rfl
  | .bind .all _ _, _ => rfl
  | .bind .ex _ _, _ => rfl
  | .bind .lam _ _, h => exact (h.lam_not_typelike hJ).elim

theorem normalizeTerm_typelike : ∀ (n : Nat) {Δ : BCtx} {t t' : Term} {J : Jdg},
    STyped K Γ Δ t J → Typelike J → normalizeTerm n t = some t' → t' = t := by
  intro n
  induction n with
  | zero => intro Δ t t' J _ _ e; cases e
  | succ n ih =>
    intro Δ t t' J h hJ e
    have fin : ∀ (s : Term), s = t → (match betaHead s with
        | some r => (do normalizeTerm n (← r) : Option Term)
        | none => match etaHead s with
          | some r => (do normalizeTerm n (← r) : Option Term)
          | none => some ((orientEq ((cancelNotNot s).getD s)).getD ((cancelNotNot s).getD s)))
          = some t' → t' = t := by
      rintro s rfl e
      rw [betaHead_typelike h hJ] at e
      simp only [etaHead_typelike h hJ, cancelNotNot_typelike h hJ, Option.getD_none,
        orientEq_typelike h hJ, Option.some.injEq] at e
      exact e.symm
    match t, h, e, fin with
    | .atom a, h, e, fin => simp only [normalizeTerm, mapChildren, Option.bind_eq_bind, Option.bind_some] at e; exact fin _ rfl e
    | .app f a, h, e, fin =>
      obtain ⟨⟨J1, h1, k1⟩, ⟨J2, h2, k2⟩⟩ := h.app_typelike hJ
      simp only [normalizeTerm, mapChildren, Option.bind_eq_bind, Option.pure_def, Option.bind_eq_some_iff] at e
      obtain ⟨s, ⟨f', ef, a', ea, es⟩, e⟩ := e
      cases es
      rw [ih h1 k1 ef, ih h2 k2 ea] at e
      exact fin _ rfl e
    | .bind .pi A B, h, e, fin =>
      obtain ⟨_, h1, h2⟩ := h.pi_inv
      simp only [normalizeTerm, mapChildren, Option.bind_eq_bind, Option.pure_def, Option.bind_eq_some_iff] at e
      obtain ⟨s, ⟨f', ef, a', ea, es⟩, e⟩ := e
      cases es
      rw [ih h1 (Or.inl rfl) ef, ih h2 (Or.inl rfl) ea] at e
      exact fin _ rfl e
    | .bind .all A B, h, e, fin => exact (h.quant_not_typelike (Or.inl rfl) hJ).elim
    | .bind .ex A B, h, e, fin => exact (h.quant_not_typelike (Or.inr rfl) hJ).elim
    | .bind .lam A B, h, e, fin => exact (h.lam_not_typelike hJ).elim

theorem betaReduce_typelike : ∀ (n : Nat) {Δ : BCtx} {t t' : Term} {J : Jdg},
    STyped K Γ Δ t J → Typelike J → betaReduce n t = some t' → t' = t := by
  intro n
  induction n with
  | zero => intro Δ t t' J _ _ e; cases e
  | succ n ih =>
    intro Δ t t' J h hJ e
    have fin : ∀ (s : Term), s = t → (match betaHead s with
        | some r => (do betaReduce n (← r) : Option Term)
        | none => some s) = some t' → t' = t := by
      rintro s rfl e
      rw [betaHead_typelike h hJ] at e
      cases e; rfl
    match t, h, e, fin with
    | .atom a, h, e, fin => simp only [betaReduce, mapChildren, Option.bind_eq_bind, Option.bind_some] at e; exact fin _ rfl e
    | .app f a, h, e, fin =>
      obtain ⟨⟨J1, h1, k1⟩, ⟨J2, h2, k2⟩⟩ := h.app_typelike hJ
      simp only [betaReduce, mapChildren, Option.bind_eq_bind, Option.pure_def, Option.bind_eq_some_iff] at e
      obtain ⟨s, ⟨f', ef, a', ea, es⟩, e⟩ := e
      cases es
      rw [ih h1 k1 ef, ih h2 k2 ea] at e
      exact fin _ rfl e
    | .bind .pi A B, h, e, fin =>
      obtain ⟨_, h1, h2⟩ := h.pi_inv
      simp only [betaReduce, mapChildren, Option.bind_eq_bind, Option.pure_def, Option.bind_eq_some_iff] at e
      obtain ⟨s, ⟨f', ef, a', ea, es⟩, e⟩ := e
      cases es
      rw [ih h1 (Or.inl rfl) ef, ih h2 (Or.inl rfl) ea] at e
      exact fin _ rfl e
    | .bind .all A B, h, e, fin => exact (h.quant_not_typelike (Or.inl rfl) hJ).elim
    | .bind .ex A B, h, e, fin => exact (h.quant_not_typelike (Or.inr rfl) hJ).elim
    | .bind .lam A B, h, e, fin => exact (h.lam_not_typelike hJ).elim

/-! ### Congruence for the children -/

/-- Rebuilding a node from children rewritten by a sound `step` that leaves types alone. -/
theorem Same.app_children {f a f' a' : Term} {J : Jdg}
    (h : STyped K Γ Δ (.app f a) J)
    (hf : ∀ J1, STyped K Γ Δ f J1 → Same K Γ M ρ Δ f f' J1)
    (ha : ∀ J1, STyped K Γ Δ a J1 → Same K Γ M ρ Δ a a' J1)
    (hn : ∀ J1, STyped K Γ Δ a J1 → Typelike J1 → a' = a)
    (hn' : ∀ J1, STyped K Γ Δ f J1 → Typelike J1 → f' = f) :
    Same K Γ M ρ Δ (.app f a) (.app f' a') J := by
  classical
  by_cases hJ : Typelike J
  · obtain ⟨⟨J1, h1, k1⟩, ⟨J2, h2, k2⟩⟩ := h.app_typelike hJ
    rw [hn J2 h2 k2, hn' J1 h1 k1]
    exact .refl h
  · have hev : EvalEq M ρ Δ (.app f a) (.app f' a') := by
      intro β hβ
      rcases h.app_inv with ⟨A, B, _, h1, h2, _⟩ | ⟨A, B, h1, h2, _⟩
      · simp only [Acorn.eval, (hf _ h1).eval β hβ, (ha _ h2).eval β hβ]
      · simp only [Acorn.eval, (hf _ h1).eval β hβ, (ha _ h2).eval β hβ]
    refine ⟨?_, hev⟩
    rcases h.app_inv with ⟨A, B, rfl, h1, h2, h3, h4⟩ | ⟨A, B, h1, h2, h3, h4⟩
    · exact .appVal (hf _ h1).typed (ha _ h2).typed h3 h4
    · rw [hn _ h2 (Or.inr ⟨_, rfl, h3⟩)]
      rcases h4 with rfl | ⟨_, rfl | ⟨T, rfl, hT⟩⟩
      · exact .appTy (hf _ h1).typed h2 h3
      · exact absurd (Or.inl rfl) hJ
      · exact absurd (Or.inr ⟨T, rfl, endsKind_of_isKind hT⟩) hJ

theorem Same.bind_children (L : Lawful K M) {q : Binder} {A b A' b' : Term} {J : Jdg}
    (h : STyped K Γ Δ (.bind q A b) J)
    (hA : ∀ J1, STyped K Γ Δ A J1 → Typelike J1 → A' = A)
    (hb : ∀ J1, STyped K Γ (BCtx.cons A Δ) b J1 → Same K Γ M ρ (BCtx.cons A Δ) b b' J1)
    (hb' : ∀ J1, STyped K Γ (BCtx.cons A Δ) b J1 → Typelike J1 → b' = b) :
    Same K Γ M ρ Δ (.bind q A b) (.bind q A' b') J := by
  rw [hA _ h.bind_dom (Or.inl rfl)]
  cases q with
  | pi =>
    rw [hb' _ h.pi_inv.2.2 (Or.inl rfl)]
    exact .refl h
  | lam =>
    obtain ⟨B, rfl, h1, h2, h3, h4⟩ := h.lam_inv
    exact .lam L h1 (hb _ h2) h3 h4
  | all =>
    obtain ⟨rfl, h1, h2⟩ := h.quant_inv (Or.inl rfl)
    exact .quant L (Or.inl rfl) h1 (hb _ h2)
  | ex =>
    obtain ⟨rfl, h1, h2⟩ := h.quant_inv (Or.inr rfl)
    exact .quant L (Or.inr rfl) h1 (hb _ h2)

/-! ### The normalizers -/

theorem normalizeTerm_same (L : Lawful K M) (hρ : Models M Γ ρ) : ∀ (n : Nat) {Δ : BCtx}
    {t t' : Term} {J : Jdg}, STyped K Γ Δ t J → normalizeTerm n t = some t' →
      Same K Γ M ρ Δ t t' J := by
  intro n
  induction n with
  | zero => intro Δ t t' J _ e; cases e
  | succ n ih =>
    intro Δ t t' J h e
    have fin : ∀ (s : Term), Same K Γ M ρ Δ t s J → (match betaHead s with
        | some r => (do normalizeTerm n (← r) : Option Term)
        | none => match etaHead s with
          | some r => (do normalizeTerm n (← r) : Option Term)
          | none => some ((orientEq ((cancelNotNot s).getD s)).getD ((cancelNotNot s).getD s)))
          = some t' → Same K Γ M ρ Δ t t' J := by
      intro s hs e
      split at e
      · rename_i r er
        obtain ⟨s', rfl, h1⟩ := betaHead_same L hρ hs.typed er
        exact hs.trans (h1.trans (ih h1.typed e))
      · split at e
        · rename_i r er
          obtain ⟨s', rfl, h1⟩ := etaHead_same L hρ hs.typed er
          exact hs.trans (h1.trans (ih h1.typed e))
        · cases e
          have h1 := cancelNotNot_getD_same L hρ hs.typed
          exact hs.trans (h1.trans (orientEq_getD_same L hρ h1.typed))
    match t, h, e, fin with
    | .atom a, h, e, fin => simp only [normalizeTerm, mapChildren, Option.bind_eq_bind, Option.bind_some] at e; exact fin _ (.refl h) e
    | .app f a, h, e, fin =>
      simp only [normalizeTerm, mapChildren, Option.bind_eq_bind, Option.pure_def, Option.bind_eq_some_iff] at e
      obtain ⟨s, ⟨f', ef, a', ea, es⟩, e⟩ := e
      cases es
      exact fin _ (.app_children h (fun J1 h1 => ih h1 ef) (fun J1 h1 => ih h1 ea)
        (fun J1 h1 k1 => normalizeTerm_typelike n h1 k1 ea)
        (fun J1 h1 k1 => normalizeTerm_typelike n h1 k1 ef)) e
    | .bind q A B, h, e, fin =>
      simp only [normalizeTerm, mapChildren, Option.bind_eq_bind, Option.pure_def, Option.bind_eq_some_iff] at e
      obtain ⟨s, ⟨f', ef, a', ea, es⟩, e⟩ := e
      cases es
      exact fin _ (.bind_children L h (fun J1 h1 k1 => normalizeTerm_typelike n h1 k1 ef)
        (fun J1 h1 => ih h1 ea) (fun J1 h1 k1 => normalizeTerm_typelike n h1 k1 ea)) e

theorem betaReduce_same (L : Lawful K M) (hρ : Models M Γ ρ) : ∀ (n : Nat) {Δ : BCtx}
    {t t' : Term} {J : Jdg}, STyped K Γ Δ t J → betaReduce n t = some t' →
      Same K Γ M ρ Δ t t' J := by
  intro n
  induction n with
  | zero => intro Δ t t' J _ e; cases e
  | succ n ih =>
    intro Δ t t' J h e
    have fin : ∀ (s : Term), Same K Γ M ρ Δ t s J → (match betaHead s with
        | some r => (do betaReduce n (← r) : Option Term)
        | none => some s) = some t' → Same K Γ M ρ Δ t t' J := by
      intro s hs e
      split at e
      · rename_i r er
        obtain ⟨s', rfl, h1⟩ := betaHead_same L hρ hs.typed er
        exact hs.trans (h1.trans (ih h1.typed e))
      · cases e; exact hs
    match t, h, e, fin with
    | .atom a, h, e, fin => simp only [betaReduce, mapChildren, Option.bind_eq_bind, Option.bind_some] at e; exact fin _ (.refl h) e
    | .app f a, h, e, fin =>
      simp only [betaReduce, mapChildren, Option.bind_eq_bind, Option.pure_def, Option.bind_eq_some_iff] at e
      obtain ⟨s, ⟨f', ef, a', ea, es⟩, e⟩ := e
      cases es
      exact fin _ (.app_children h (fun J1 h1 => ih h1 ef) (fun J1 h1 => ih h1 ea)
        (fun J1 h1 k1 => betaReduce_typelike n h1 k1 ea)
        (fun J1 h1 k1 => betaReduce_typelike n h1 k1 ef)) e
    | .bind q A B, h, e, fin =>
      simp only [betaReduce, mapChildren, Option.bind_eq_bind, Option.pure_def, Option.bind_eq_some_iff] at e
      obtain ⟨s, ⟨f', ef, a', ea, es⟩, e⟩ := e
      cases es
      exact fin _ (.bind_children L h (fun J1 h1 k1 => betaReduce_typelike n h1 k1 ef)
        (fun J1 h1 => ih h1 ea) (fun J1 h1 k1 => betaReduce_typelike n h1 k1 ea)) e

end
end Spec
end Acorn
