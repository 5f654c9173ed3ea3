/-
Boolean reductions of a single literal: what the replacement says.
-/
import Verif.Model.BoolReduce
import Verif.Lemmas.ClauseNew
namespace Acorn
namespace Spec
open Term

universe u

section
variable {K : KCtx} {Γ : LCtx} {M : Interp.{u}} {ρ : Nat → M.D} {Δ : BCtx}

/-! ### Splitting -/

theorem splitSymExact_eq {t : Term} {s : Symbol} {n : Nat} {as : List Term}
    (e : splitSymExact t s n = some as) : t = (Term.sym s).apply as ∧ as.length = n := by
  cases t with
  | atom _ => simp [splitSymExact] at e
  | bind _ _ _ => simp [splitSymExact] at e
  | app f x =>
    simp only [splitSymExact] at e
    split at e
    · rename_i hc
      cases e
      refine ⟨?_, hc.1⟩
      rw [← hc.2, apply_args]
    · cases e

theorem splitSymExact_none {t : Term} {s : Symbol} (h : t.headAtom ≠ .sym s) (n : Nat) :
    splitSymExact t s n = none := by
  cases t with
  | atom _ => rfl
  | bind _ _ _ => rfl
  | app f x =>
    simp only [splitSymExact]
    rw [if_neg]
    rintro ⟨_, hc⟩
    apply h
    rw [← headAtom_spineHead, hc]
    rfl

/-! ### If-then-else -/

theorem ff_typed : STyped K Γ Δ .ff (.ty .boolTy) := STyped.valueSym rfl rfl
theorem tt_typed : STyped K Γ Δ .tt (.ty .boolTy) := STyped.valueSym rfl rfl

theorem eval_ite (L : Lawful K M) (hρ : Models M Γ ρ) {T c x y : Term} {J : Jdg}
    (h : STyped K Γ Δ (.ite T c x y) J) {β : Nat → M.D} (hβ : BModels M Δ ρ β) :
    (Tr M ρ β c → eval M ρ β (.ite T c x y) = eval M ρ β x) ∧
    (¬ Tr M ρ β c → eval M ρ β (.ite T c x y) = eval M ρ β y) := by
  obtain ⟨_, hT, hc, hx, hy⟩ := h.ite_inv
  have mT := hT.val_mem L hρ hβ
  have mx := hx.val_mem L hρ hβ
  have my := hy.val_mem L hρ hβ
  have mc := hc.bool_mem L hρ hβ
  refine ⟨fun e => ?_, fun e => ?_⟩
  · simp only [Tr] at e
    simp only [eval]
    rw [e]
    exact L.ite_tt _ _ _ mT mx my
  · have e' := (bool_ff_iff L mc).2 e
    simp only [eval]
    rw [e']
    exact L.ite_ff _ _ _ mT mx my

theorem iteStep_same (L : Lawful K M) (hρ : Models M Γ ρ) {t : Term} {J : Jdg}
    (h : STyped K Γ Δ t J) : Same K Γ M ρ Δ t (iteStep t) J := by
  simp only [iteStep]
  split
  · rename_i T c x y e
    obtain ⟨rfl, _⟩ := splitSymExact_eq e
    obtain ⟨rfl, hT, hc, hx, hy⟩ := STyped.ite_inv h
    have ev := fun {β : Nat → M.D} (hβ : BModels M Δ ρ β) => eval_ite L hρ h hβ
    split
    · rename_i e1
      have := isTrue_eq hc e1
      subst this
      exact ⟨hx, fun β hβ => ((ev hβ).1 rfl).symm⟩
    · split
      · rename_i e1
        subst e1
        exact ⟨hy, fun β hβ => ((ev hβ).2 (fun e => L.tt_ne_ff e.symm)).symm⟩
      · split
        · rename_i e1
          subst e1
          refine ⟨hx, fun β hβ => ?_⟩
          by_cases e : Tr M ρ β c
          · exact ((ev hβ).1 e).symm
          · exact ((ev hβ).2 e).symm
        · exact .refl h
  · exact .refl h

theorem iteStep_typelike {t : Term} {J : Jdg} (h : STyped K Γ Δ t J) (hJ : Typelike J) :
    iteStep t = t := by
  simp only [iteStep, splitSymExact_none (h.typelike_head' (s := .ite_) rfl hJ)]

theorem simplifyIte_typelike : ∀ (n : Nat) {Δ : BCtx} {t t' : Term} {J : Jdg},
    STyped K Γ Δ t J → Typelike J → simplifyIte n t = some t' → t' = t := by
  intro n
  induction n with
  | zero => intro Δ t t' J _ _ e; cases e
  | succ n ih =>
    intro Δ t t' J h hJ e
    have fin : ∀ (s : Term), s = t → (match betaHead s with
        | some r => (do simplifyIte n (← r) : Option Term)
        | none => some (iteStep s)) = some t' → t' = t := by
      rintro s rfl e
      rw [betaHead_typelike h hJ] at e
      simp only [iteStep_typelike h hJ, Option.some.injEq] at e
      exact e.symm
    match t, h, e, fin with
    | .atom a, h, e, fin =>
      simp only [simplifyIte, mapChildren, Option.bind_eq_bind, Option.bind_some] at e
      exact fin _ rfl e
    | .app f a, h, e, fin =>
      obtain ⟨⟨J1, h1, k1⟩, ⟨J2, h2, k2⟩⟩ := h.app_typelike hJ
      simp only [simplifyIte, mapChildren, Option.bind_eq_bind, Option.pure_def,
        Option.bind_eq_some_iff] at e
      obtain ⟨s, ⟨f', ef, a', ea, es⟩, e⟩ := e
      cases es
      rw [ih h1 k1 ef, ih h2 k2 ea] at e
      exact fin _ rfl e
    | .bind .pi A B, h, e, fin =>
      obtain ⟨_, h1, h2⟩ := h.pi_inv
      simp only [simplifyIte, mapChildren, Option.bind_eq_bind, Option.pure_def,
        Option.bind_eq_some_iff] at e
      obtain ⟨s, ⟨f', ef, a', ea, es⟩, e⟩ := e
      cases es
      rw [ih h1 (Or.inl rfl) ef, ih h2 (Or.inl rfl) ea] at e
      exact fin _ rfl e
    | .bind .all A B, h, e, fin => exact (h.quant_not_typelike (Or.inl rfl) hJ).elim
    | .bind .ex A B, h, e, fin => exact (h.quant_not_typelike (Or.inr rfl) hJ).elim
    | .bind .lam A B, h, e, fin => exact (h.lam_not_typelike hJ).elim

theorem simplifyIte_same (L : Lawful K M) (hρ : Models M Γ ρ) : ∀ (n : Nat) {Δ : BCtx}
    {t t' : Term} {J : Jdg}, STyped K Γ Δ t J → simplifyIte n t = some t' →
      Same K Γ M ρ Δ t t' J := by
  intro n
  induction n with
  | zero => intro Δ t t' J _ e; cases e
  | succ n ih =>
    intro Δ t t' J h e
    have fin : ∀ (s : Term), Same K Γ M ρ Δ t s J → (match betaHead s with
        | some r => (do simplifyIte n (← r) : Option Term)
        | none => some (iteStep s)) = some t' → Same K Γ M ρ Δ t t' J := by
      intro s hs e
      split at e
      · rename_i r er
        obtain ⟨s', rfl, h1⟩ := betaHead_same L hρ hs.typed er
        exact hs.trans (h1.trans (ih h1.typed e))
      · cases e; exact hs.trans (iteStep_same L hρ hs.typed)
    match t, h, e, fin with
    | .atom a, h, e, fin =>
      simp only [simplifyIte, mapChildren, Option.bind_eq_bind, Option.bind_some] at e
      exact fin _ (.refl h) e
    | .app f a, h, e, fin =>
      simp only [simplifyIte, mapChildren, Option.bind_eq_bind, Option.pure_def,
        Option.bind_eq_some_iff] at e
      obtain ⟨s, ⟨f', ef, a', ea, es⟩, e⟩ := e
      cases es
      exact fin _ (.app_children h (fun J1 h1 => ih h1 ef) (fun J1 h1 => ih h1 ea)
        (fun J1 h1 k1 => simplifyIte_typelike n h1 k1 ea)
        (fun J1 h1 k1 => simplifyIte_typelike n h1 k1 ef)) e
    | .bind q A B, h, e, fin =>
      simp only [simplifyIte, mapChildren, Option.bind_eq_bind, Option.pure_def,
        Option.bind_eq_some_iff] at e
      obtain ⟨s, ⟨f', ef, a', ea, es⟩, e⟩ := e
      cases es
      exact fin _ (.bind_children L h (fun J1 h1 k1 => simplifyIte_typelike n h1 k1 ef)
        (fun J1 h1 => ih h1 ea) (fun J1 h1 k1 => simplifyIte_typelike n h1 k1 ea)) e

/-! ### Literals -/

theorem holds_pos {β : Nat → M.D} {t : Term} : LitHolds M ρ β (Literal.pos t) ↔ Tr M ρ β t := by
  rw [Literal.pos, litHolds_new, litHolds_signed]; simp

theorem holds_neg {β : Nat → M.D} {t : Term} : LitHolds M ρ β (Literal.neg t) ↔ ¬ Tr M ρ β t := by
  rw [Literal.neg, litHolds_new, litHolds_signed]; simp

theorem holds_fromSigned {β : Nat → M.D} {t : Term} {p : Bool} :
    LitHolds M ρ β (Literal.fromSigned t p) ↔ (Tr M ρ β t ↔ p = true) := by
  rw [Literal.fromSigned, litHolds_new, litHolds_signed]

theorem typed_fromSigned {t : Term} {p : Bool} (h : SHasType K Γ t .boolTy) :
    LitTyped K Γ (Literal.fromSigned t p) := litTyped_new.2 ⟨_, h, tt_typed⟩
theorem typed_pos {t : Term} (h : SHasType K Γ t .boolTy) : LitTyped K Γ (Literal.pos t) :=
  litTyped_new.2 ⟨_, h, tt_typed⟩
theorem typed_neg {t : Term} (h : SHasType K Γ t .boolTy) : LitTyped K Γ (Literal.neg t) :=
  litTyped_new.2 ⟨_, h, tt_typed⟩

theorem lits_one {β : Nat → M.D} {a : Literal} : LitsHold M ρ β [a] ↔ LitHolds M ρ β a := by
  simp [LitsHold]
theorem lits_two {β : Nat → M.D} {a b : Literal} :
    LitsHold M ρ β [a, b] ↔ LitHolds M ρ β a ∨ LitHolds M ρ β b := by
  simp [LitsHold]
theorem typed_one {a : Literal} (h : LitTyped K Γ a) : LitsTyped K Γ [a] := by
  intro l hl; rw [List.mem_singleton] at hl; subst hl; exact h
theorem typed_two {a b : Literal} (h : LitTyped K Γ a) (h' : LitTyped K Γ b) :
    LitsTyped K Γ [a, b] := by
  intro l hl
  simp only [List.mem_cons, List.not_mem_nil, or_false] at hl
  rcases hl with rfl | rfl
  · exact h
  · exact h'

theorem bmodels_nil {β : Nat → M.D} : BModels M BCtx.nil ρ β := by intro i T h; cases h

/-- A signed boolean literal. -/
theorem signed_parts {l : Literal} (h : LitTyped K Γ l) (e : l.right.isTrue = true) :
    SHasType K Γ l.left .boolTy ∧ l = ⟨l.positive, l.left, .tt⟩ := by
  obtain ⟨T, h1, h2⟩ := h
  have e1 := isTrue_eq h2 e
  rw [e1] at h2
  have := tt_type h2
  subst this
  exact ⟨h1, by rw [← e1]⟩

theorem signed_holds {l : Literal} (h : LitTyped K Γ l) (e : l.right.isTrue = true)
    {β : Nat → M.D} : LitHolds M ρ β l ↔ (Tr M ρ β l.left ↔ l.positive = true) := by
  rw [(signed_parts h e).2]
  exact litHolds_signed

theorem signedBool_iff {l : Literal} :
    signedBool K Γ l = true ↔ getType K Γ l.left = some .boolTy ∧ l.right.isTrue = true := by
  simp [signedBool]

/-- The computed type is the type, when it is not a kind. -/
theorem getType_unique (hΓ : CtxOk Γ) {t T U : Term} (h : SHasType K Γ t T)
    (e : getType K Γ t = some U) (hU : isKind U = false) : T = U := by
  rcases getType_of_typed t.size (Nat.le_refl _) hΓ h.typed with h1 | ⟨_, T', h1, h2⟩
  · rw [e] at h1; cases h1; rfl
  · rw [e] at h1; cases h1; rw [hU] at h2; cases h2

theorem shas_closed {t T : Term} (h : SHasType K Γ t T) : t.escapes = false :=
  (Typed.closed h.typed 0 BScoped.nil).1

theorem isTy_closed {A : Term} (h : STyped K Γ BCtx.nil A .isTy) : A.escapes = false :=
  (Typed.closed h.typed 0 BScoped.nil).1

/-- Under a binder. -/
theorem shas_under {t T A : Term} (h : SHasType K Γ t T) :
    STyped K Γ (BCtx.cons A BCtx.nil) t (.ty (Term.ren Nat.succ T)) := by
  have := h.ren Nat.succ (BCtx.cons A BCtx.nil) (by intro i T h; cases h)
  rwa [ren_closed _ _ (shas_closed h)] at this

theorem fn_exists (L : Lawful K M) (hρ : Models M Γ ρ) {f g A B : Term}
    (hf : SHasType K Γ f (.pi A (Term.ren Nat.succ B)))
    (hg : SHasType K Γ g (.pi A (Term.ren Nat.succ B)))
    (hA : SHasType K Γ A .type0) (hB : SHasType K Γ B .type0) :
    SHasType K Γ (.ex A (.not (.eq (Term.ren Nat.succ B) (.app f (.bvar 0)) (.app g (.bvar 0)))))
      .boolTy ∧ ∀ β, Tr M ρ β (.ex A (.not (.eq (Term.ren Nat.succ B) (.app f (.bvar 0))
        (.app g (.bvar 0))))) ↔ eval M ρ β f ≠ eval M ρ β g := by
  have kA := hA.not_endsKind _ rfl
  have kB := hB.not_endsKind _ rfl
  have hbv : STyped K Γ (BCtx.cons A BCtx.nil) (.bvar 0) (.ty (Term.ren Nat.succ A)) := .bvar rfl
  have ap : ∀ {f : Term}, SHasType K Γ f (.pi A (Term.ren Nat.succ B)) →
      STyped K Γ (BCtx.cons A BCtx.nil) (.app f (.bvar 0)) (.ty (Term.ren Nat.succ B)) := by
    intro f hf
    have h1 := shas_under (A := A) hf
    have e2 : Term.ren Nat.succ (.pi A (Term.ren Nat.succ B)) =
        Term.pi (Term.ren Nat.succ A) (Term.ren Nat.succ (Term.ren Nat.succ B)) := by
      simp only [Term.ren, ren_ren]; rfl
    rw [e2] at h1
    exact .appVal h1 hbv (by rw [endsKind_ren]; exact kA) (by rw [endsKind_ren]; exact kB)
  have hB' : STyped K Γ (BCtx.cons A BCtx.nil) (Term.ren Nat.succ B) (.ty .type0) := by
    have := shas_under (A := A) hB
    rwa [ren_closed _ B (shas_closed hB)]
  have heq := STyped.eq hB' (ap hf) (ap hg)
  have hbody := STyped.not heq
  refine ⟨.ex (.tyOf hA) hbody, fun β => ?_⟩
  rw [tr_ex L hρ hbody bmodels_nil]
  have key : ∀ d, M.mem d (eval M ρ β A) →
      (Tr M ρ (push d β) (.not (.eq (Term.ren Nat.succ B) (.app f (.bvar 0)) (.app g (.bvar 0)))) ↔
        M.app (eval M ρ β f) d ≠ M.app (eval M ρ β g) d) := by
    intro d hd
    have hβ : BModels M (BCtx.cons A BCtx.nil) ρ (push d β) := BModels.cons bmodels_nil hd
    rw [tr_not L hρ heq hβ, tr_eq L hρ heq hβ]
    simp only [eval, push]
    rw [eval_closed M ρ (push d β) β f (shas_closed hf),
      eval_closed M ρ (push d β) β g (shas_closed hg)]
  constructor
  · rintro ⟨d, hd, h⟩ e
    rw [key d hd] at h
    exact h (by rw [e])
  · intro hne
    refine Classical.byContradiction fun hno => hne ?_
    have mf := hf.val_mem L hρ (bmodels_nil (β := β))
    have mg := hg.val_mem L hρ (bmodels_nil (β := β))
    simp only [eval] at mf mg
    rw [L.mem_pi] at mf mg
    rw [← mf.1, ← mg.1]
    refine L.bind_congr _ _ _ _ fun d hd => ?_
    exact Classical.byContradiction fun hd' => hno ⟨d, hd, (key d hd).2 hd'⟩

/-! ### Opening a quantifier -/

theorem models_push_inv {A : Term} (h : Models M (Γ.pushTy A) ρ) : Models M Γ ρ :=
  fun i T hi => h i T (get_pushTy hi)

/-- Reassign one variable. -/
def setAt (ρ : Nat → M.D) (n : Nat) (d : M.D) : Nat → M.D := fun i => if i = n then d else ρ i

theorem eval_setAt {t : Term} {d : M.D} {β : Nat → M.D}
    (h : ∀ i, t.hasVar i = true → (Γ.get i).isSome = true) :
    eval M (setAt ρ Γ.length d) β t = eval M ρ β t := by
  refine eval_fvars M t _ _ _ fun i hi => ?_
  obtain ⟨T, hT⟩ := Option.isSome_iff_exists.1 (h i hi)
  have := get_lt hT
  simp only [setAt]
  rw [if_neg (by omega)]

theorem models_push {A : Term} (hΓ : CtxOk Γ) (hA : STyped K Γ BCtx.nil A .isTy)
    (hρ : Models M Γ ρ) {d : M.D} {β : Nat → M.D} (hd : M.mem d (eval M ρ β A)) :
    Models M (Γ.pushTy A) (setAt ρ Γ.length d) := by
  intro i T hi γ
  rcases get_pushTy_inv hi with h | ⟨rfl, rfl⟩
  · rw [eval_setAt (hΓ i T h).2]
    have := get_lt h
    simp only [setAt]
    rw [if_neg (by omega)]
    exact hρ i T h γ
  · rw [eval_setAt (fun i hi => hA.declared hi), eval_closed M ρ γ β _ (isTy_closed hA)]
    simpa [setAt] using hd

theorem open_typed {A b : Term} (hA : STyped K Γ BCtx.nil A .isTy)
    (hb : STyped K Γ (BCtx.cons A BCtx.nil) b (.ty .boolTy)) :
    SHasType K (Γ.pushTy A) (Term.inst 0 (.fvar Γ.length) b) .boolTy :=
  hb.open_fresh (isTy_closed hA)

theorem open_tr {b : Term} {β : Nat → M.D} {n : Nat} :
    Tr M ρ β (Term.inst 0 (.fvar n) b) ↔ Tr M ρ (push (ρ n) β) b := by
  simp only [Tr]
  rw [eval_inst_zero]
  rfl

theorem open_setAt {A b : Term} (hb : STyped K Γ (BCtx.cons A BCtx.nil) b (.ty .boolTy))
    {d : M.D} {β : Nat → M.D} :
    Tr M (setAt ρ Γ.length d) β (Term.inst 0 (.fvar Γ.length) b) ↔ Tr M ρ (push d β) b := by
  rw [open_tr]
  have : setAt ρ Γ.length d Γ.length = d := by simp [setAt]
  rw [this]
  simp only [Tr]
  rw [eval_setAt fun i hi => hb.declared hi]

theorem escapes_of_no_bound (t : Term) (h : t.hasBound = false) : ∀ n, escapesAt n t = false := by
  induction t with
  | atom a =>
    cases a with
    | bvar i => simp [hasBound, atoms] at h
    | _ => intro n; rfl
  | app f a ihf iha =>
    simp only [hasBound, atoms, List.any_append, Bool.or_eq_false_iff] at h
    intro n
    simp [escapesAt, ihf h.1 n, iha h.2 n]
  | bind b f a ihf iha =>
    simp only [hasBound, atoms, List.any_append, Bool.or_eq_false_iff] at h
    intro n
    simp [escapesAt, ihf h.1 n, iha h.2 (n + 1)]

theorem obviousWitness_spec (L : Lawful K M) (hρ : Models M Γ ρ) {t r : Term} {J : Jdg}
    (h : STyped K Γ BCtx.nil t J) (e : obviousWitness t = some r) :
    SHasType K Γ r .boolTy ∧ ∀ β, (Tr M ρ β r ∧ Tr M ρ β t) := by
  unfold obviousWitness at e
  split at e
  · rename_i A body
    obtain ⟨rfl, hA, hb⟩ := h.quant_inv (Or.inr rfl)
    split at e
    · rename_i T x y es
      obtain ⟨rfl, _⟩ := splitSymExact_eq es
      obtain ⟨_, hT, hx, hy⟩ := STyped.eq_inv hb
      have fin : ∀ w : Term, w.hasBound = false → STyped K Γ (BCtx.cons A BCtx.nil) w (.ty T) →
          STyped K Γ (BCtx.cons A BCtx.nil) (.bvar 0) (.ty T) →
          (∀ d β, M.mem d (eval M ρ β A) →
            (Tr M ρ (push d β) (.eq T x y) ↔ eval M ρ β w = d)) →
          SHasType K Γ (Term.inst 0 w (.eq T x y)) .boolTy ∧
            ∀ β, (Tr M ρ β (Term.inst 0 w (.eq T x y)) ∧ Tr M ρ β (.ex A (.eq T x y))) := by
        intro w hw hwT hbv key
        have hbv' : STyped K Γ (BCtx.cons A BCtx.nil) (.bvar 0) (.ty (Term.ren Nat.succ A)) := .bvar rfl
        have eT : T = Term.ren Nat.succ A := Typed.unique_of_not_kind hbv.typed hbv'.typed
          (isKind_of_endsKind_false (hT.not_endsKind _ rfl))
        have hc : w.escapes = false := escapes_of_no_bound w hw 0
        have hwA : SHasType K Γ w A := by
          have h1 : STyped K Γ (BCtx.cons A BCtx.nil) (Term.ren Nat.succ w) (.ty T) := by
            rwa [ren_closed _ _ hc]
          obtain ⟨J0, e3, h5⟩ := h1.drop
          cases J0 with
          | isTy => cases e3
          | ty T0 =>
            simp only [Jdg.ren, Jdg.ty.injEq] at e3
            rw [eT] at e3
            have := ren_injective (fun _ _ h => Nat.succ.inj h) e3
            subst this
            exact h5
        refine ⟨?_, fun β => ?_⟩
        · have := hb.inst0 hwA
          simp only [Jdg.sub] at this
          exact this
        · have hm := hwA.val_mem L hρ (bmodels_nil (β := β))
          refine ⟨?_, (tr_ex L hρ hb bmodels_nil).2 ⟨eval M ρ β w, hm, (key _ _ hm).2 rfl⟩⟩
          simp only [Tr]
          rw [eval_inst_zero]
          exact (key _ _ hm).2 rfl
      have key : ∀ d β, M.mem d (eval M ρ β A) →
          (Tr M ρ (push d β) (.eq T x y) ↔ eval M ρ (push d β) x = eval M ρ (push d β) y) :=
        fun d β hd => tr_eq L hρ hb (BModels.cons bmodels_nil hd)
      split at e
      · rename_i ex
        split at e
        · cases e
        · rename_i hw
          simp only [Bool.not_eq_true] at hw
          rw [openBound_eq] at e
          cases e
          subst ex
          refine fin y hw hy hx fun d β hd => ?_
          rw [key d β hd, eval_closed M ρ (push d β) β y (escapes_of_no_bound y hw 0)]
          exact eq_comm
      · split at e
        · rename_i ey
          split at e
          · cases e
          · rename_i hw
            simp only [Bool.not_eq_true] at hw
            rw [openBound_eq] at e
            cases e
            subst ey
            refine fin x hw hx hy fun d β hd => ?_
            rw [key d β hd, eval_closed M ρ (push d β) β x (escapes_of_no_bound x hw 0)]
            rfl
        · cases e
    · cases e
  · cases e

end
end Spec
end Acorn
