/-
Inversion of typing for fully applied built-in symbols, and where built-in symbols can be heads.
-/
import Verif.Lemmas.SimplyTyped
import Verif.Model.Normalize
namespace Acorn
namespace Spec
open Term

universe u

/-- The judgement is about a type or a type constructor. -/
def Typelike (J : Jdg) : Prop := J = .isTy ∨ ∃ T, J = .ty T ∧ endsKind T = true

theorem STyped.isTy_inv {K : KCtx} {Γ : LCtx} {Δ : BCtx} {t : Term} (h : STyped K Γ Δ t .isTy) :
    isKind t = true ∨ STyped K Γ Δ t (.ty .type0) ∨
      ∃ A B, t = .pi A B ∧ STyped K Γ Δ A .isTy ∧ STyped K Γ (BCtx.cons A Δ) B .isTy := by
  cases h with
  | tyType0 => exact Or.inl rfl
  | tyClass => exact Or.inl rfl
  | tyOf h => exact Or.inr (Or.inl h)
  | tyPi h1 h2 => exact Or.inr (Or.inr ⟨_, _, rfl, h1, h2⟩)

theorem STyped.pi_inv {K : KCtx} {Γ : LCtx} {Δ : BCtx} {A B : Term} {J : Jdg}
    (h : STyped K Γ Δ (.pi A B) J) : Typelike J ∧ STyped K Γ Δ A .isTy ∧
      STyped K Γ (BCtx.cons A Δ) B .isTy := by
  generalize ht : Term.pi A B = t at h
  induction h with
  | pi h1 h2 => cases ht; exact ⟨Or.inr ⟨_, rfl, rfl⟩, .tyOf h1, .tyOf h2⟩
  | tyPi h1 h2 => cases ht; exact ⟨Or.inl rfl, h1, h2⟩
  | scheme φ hm hc hcl hφ h0 ih iht => exact ⟨Or.inr ⟨_, rfl, rfl⟩, (iht ht).2⟩
  | extend _ _ ih => exact ⟨Or.inr ⟨_, rfl, rfl⟩, (ih ht).2⟩
  | forget _ ih => exact ⟨Or.inr ⟨_, rfl, rfl⟩, (ih ht).2⟩
  | tyOf _ ih => exact ⟨Or.inl rfl, (ih ht).2⟩
  | _ => cases ht

theorem STyped.bind_dom {K : KCtx} {Γ : LCtx} {Δ : BCtx} {b : Binder} {A B : Term} {J : Jdg}
    (h : STyped K Γ Δ (.bind b A B) J) : STyped K Γ Δ A .isTy := by
  cases b with
  | pi => exact h.pi_inv.2.1
  | lam => obtain ⟨_, _, h1, _⟩ := h.lam_inv; exact h1
  | all => exact (h.quant_inv (Or.inl rfl)).2.1
  | ex => exact (h.quant_inv (Or.inr rfl)).2.1

theorem STyped.lam_not_typelike {K : KCtx} {Γ : LCtx} {Δ : BCtx} {A B : Term} {J : Jdg}
    (h : STyped K Γ Δ (.lam A B) J) (hJ : Typelike J) : False := by
  obtain ⟨C, rfl, _, _, _, h1⟩ := h.lam_inv
  rcases hJ with h | ⟨T, h, h2⟩
  · cases h
  · cases h
    simp only [endsKind, endsKind_ren] at h2
    rw [h1] at h2; cases h2

theorem STyped.quant_not_typelike {K : KCtx} {Γ : LCtx} {Δ : BCtx} {b : Binder} {A B : Term}
    {J : Jdg} (h : STyped K Γ Δ (.bind b A B) J) (hb : b = .all ∨ b = .ex) (hJ : Typelike J) :
    False := by
  have := (h.quant_inv hb).1
  subst this
  rcases hJ with h | ⟨T, h, h2⟩
  · cases h
  · cases h; cases h2

theorem endsKind_inst {a B : Term} (ha : endsKind a = false) :
    endsKind (Term.inst 0 a B) = endsKind B := by
  rw [inst_zero_eq]
  cases e : endsKind B with
  | true => exact endsKind_sub_true _ _ e
  | false =>
    refine endsKind_sub_false _ _ (fun i => rfl) (fun i => ?_) e
    cases i with
    | zero => exact ha
    | succ i => rfl

/-- Type-level applications have type-level parts. -/
theorem STyped.app_typelike {K : KCtx} {Γ : LCtx} {Δ : BCtx} {f a : Term} {J : Jdg}
    (h : STyped K Γ Δ (.app f a) J) (hJ : Typelike J) :
    (∃ J1, STyped K Γ Δ f J1 ∧ Typelike J1) ∧ (∃ J2, STyped K Γ Δ a J2 ∧ Typelike J2) := by
  rcases h.app_inv with ⟨A, B, rfl, h1, h2, h3, h4⟩ | ⟨A, B, h1, h2, h3, h4⟩
  · rcases hJ with h | ⟨T, h, h2⟩
    · cases h
    · cases h; rw [h4] at h2; cases h2
  · refine ⟨⟨_, h1, Or.inr ⟨_, rfl, ?_⟩⟩, ⟨_, h2, Or.inr ⟨_, rfl, h3⟩⟩⟩
    have ha := h2.not_endsKind _ rfl
    have : endsKind (Term.inst 0 a B) = true := by
      rcases h4 with h4 | ⟨h4, _⟩
      · subst h4
        rcases hJ with h | ⟨T, h, h2⟩
        · cases h
        · cases h; exact h2
      · exact endsKind_of_isKind h4
    rw [endsKind_inst ha] at this
    exact this

theorem STyped.sym_unique {K : KCtx} {Γ : LCtx} {Δ : BCtx} {s : Symbol} {T T0 : Term}
    (hk : isKindSym s = false) (hT : K.symbolType s = some T0) (hg : T0.Ground)
    (hn : isKind T0 = false) (h : STyped K Γ Δ (.sym s) (.ty T)) : T = T0 :=
  (Typed.unique_of_not_kind (Typed.sym hk hT hg) h.typed hn).symm

/-- A symbol that is not a type constructor is never the head of a type. -/
theorem STyped.typelike_head {K : KCtx} {Γ : LCtx} {s : Symbol} {T0 : Term}
    (hk : isKindSym s = false) (hT : K.symbolType s = some T0) (hg : T0.Ground)
    (hn : endsKind T0 = false) (t : Term) : ∀ {Δ : BCtx} {J : Jdg}, STyped K Γ Δ t J →
      Typelike J → t.headAtom ≠ .sym s := by
  have hn' := isKind_of_endsKind_false hn
  induction t with
  | atom a =>
    intro Δ J h hJ e
    simp only [headAtom] at e
    subst e
    rcases hJ with rfl | ⟨T, rfl, h2⟩
    · rcases h.isTy_inv with h | h | ⟨A, B, h, _⟩
      · simp only [isKind] at h; rw [hk] at h; cases h
      · have := STyped.sym_unique hk hT hg hn' h
        subst this; cases hn
      · cases h
    · have := STyped.sym_unique hk hT hg hn' h
      subst this; rw [hn] at h2; cases h2
  | app f a ihf _ =>
    intro Δ J h hJ
    obtain ⟨⟨J1, h1, h2⟩, _⟩ := h.app_typelike hJ
    exact ihf h1 h2
  | bind b A B ihA _ =>
    intro Δ J h hJ
    exact ihA h.bind_dom (Or.inl rfl)

/-- If the head atom of a typed term is a symbol that is not a type constructor, the term is that
symbol applied to arguments. -/
theorem STyped.spineHead_of_head {K : KCtx} {Γ : LCtx} {s : Symbol} {T0 : Term}
    (hk : isKindSym s = false) (hT : K.symbolType s = some T0) (hg : T0.Ground)
    (hn : endsKind T0 = false) (t : Term) : ∀ {Δ : BCtx} {J : Jdg}, STyped K Γ Δ t J →
      t.headAtom = .sym s → t.spineHead = .sym s := by
  induction t with
  | atom a => intro Δ J h e; simp only [headAtom] at e; subst e; rfl
  | app f a ihf _ =>
    intro Δ J h e
    rcases h.app_inv with ⟨A, B, rfl, h1, _⟩ | ⟨A, B, h1, _⟩
    · exact ihf h1 e
    · exact ihf h1 e
  | bind b A B ihA _ =>
    intro Δ J h e
    exact absurd e (STyped.typelike_head hk hT hg hn A h.bind_dom (Or.inl rfl))

theorem headAtom_spineHead (t : Term) : t.spineHead.headAtom = t.headAtom := by
  induction t with
  | atom a => rfl
  | app f a ihf _ => exact ihf
  | bind b A B _ _ => rfl

theorem apply_args (t : Term) : t.spineHead.apply t.args = t := by
  induction t with
  | atom a => rfl
  | app f a ihf _ =>
    simp only [spineHead, args, Term.apply, List.foldl_append] at ihf ⊢
    rw [ihf]; rfl
  | bind b A B _ _ => rfl

/-- The built-in value symbols. -/
def valueSym : Symbol → Bool
  | .true_ | .false_ | .not_ | .and_ | .or_ | .eq_ | .ite_ => true
  | _ => false

theorem valueSym_type {K : KCtx} {s : Symbol} (h : valueSym s = true) :
    isKindSym s = false ∧ ∃ T0, K.symbolType s = some T0 ∧ T0.Ground ∧ endsKind T0 = false := by
  have g : ∀ {t : Term}, t.escapes = false → t.hasAnyVar = false → t.Ground := by
    intro t h1 h2
    refine ⟨h1, fun i => ?_⟩
    rw [hasVar, List.any_eq_false]
    intro a ha e
    rw [hasAnyVar, List.any_eq_false] at h2
    have := h2 a ha
    simp only [beq_iff_eq] at e
    subst e
    simp at this
  cases s <;> first
    | exact ⟨rfl, _, rfl, g rfl rfl, rfl⟩
    | cases h

theorem STyped.typelike_head' {K : KCtx} {Γ : LCtx} {s : Symbol} (hs : valueSym s = true) {t : Term}
    {Δ : BCtx} {J : Jdg} (h : STyped K Γ Δ t J) (hJ : Typelike J) : t.headAtom ≠ .sym s := by
  obtain ⟨hk, T0, hT, hg, hn⟩ := valueSym_type (K := K) hs
  exact STyped.typelike_head hk hT hg hn t h hJ

/-- What a successful split says about a typed term. -/
theorem STyped.splitSym {K : KCtx} {Γ : LCtx} {s : Symbol} (hs : valueSym s = true) {t : Term}
    {Δ : BCtx} {J : Jdg} (h : STyped K Γ Δ t J) {n : Nat} {as : List Term}
    (e : Term.splitSym t s n = some as) : t = (Term.sym s).apply as ∧ as.length = n := by
  obtain ⟨hk, T0, hT, hg, hn⟩ := valueSym_type (K := K) hs
  cases t with
  | atom _ => simp [Term.splitSym] at e
  | bind _ _ _ => simp [Term.splitSym] at e
  | app f x =>
    simp only [Term.splitSym] at e
    split at e
    · rename_i hc
      cases e
      rw [headAtom_spineHead] at hc
      have := STyped.spineHead_of_head hk hT hg hn _ h hc.2
      refine ⟨?_, hc.1⟩
      rw [← this, apply_args]
    · cases e

theorem splitSym_none {t : Term} {s : Symbol} (h : t.headAtom ≠ .sym s) (n : Nat) :
    Term.splitSym t s n = none := by
  cases t with
  | atom _ => rfl
  | bind _ _ _ => rfl
  | app f x =>
    simp only [Term.splitSym]
    rw [if_neg]
    rw [headAtom_spineHead]
    exact fun hc => h hc.2

/-! ### Fully applied symbols -/

/-- Typing an application whose function type is known. -/
theorem STyped.app_fun {K : KCtx} {Γ : LCtx} {Δ : BCtx} {f a A B : Term} {J : Jdg}
    (h : STyped K Γ Δ (.app f a) J) (hf : STyped K Γ Δ f (.ty (.pi A B))) :
    STyped K Γ Δ a (.ty A) ∧ (J = .ty (Term.inst 0 a B) ∨ (isKind (Term.inst 0 a B) = true ∧
        (J = .isTy ∨ ∃ T, J = .ty T ∧ isKind T = true))) := by
  rcases h.app_inv with ⟨A', B', rfl, h1, h2, h3, h4⟩ | ⟨A', B', h1, h2, h3, h4⟩
  · have := Typed.unique_of_not_kind hf.typed h1.typed rfl
    cases this
    exact ⟨h2, Or.inl (by rw [inst_up])⟩
  · have := Typed.unique_of_not_kind hf.typed h1.typed rfl
    cases this
    exact ⟨h2, h4⟩

theorem STyped.app_fun_val {K : KCtx} {Γ : LCtx} {Δ : BCtx} {f a A B : Term} {J : Jdg}
    (h : STyped K Γ Δ (.app f a) J) (hf : STyped K Γ Δ f (.ty (.pi A B)))
    (hB : isKind (Term.inst 0 a B) = false) :
    STyped K Γ Δ a (.ty A) ∧ J = .ty (Term.inst 0 a B) := by
  obtain ⟨h1, h2 | ⟨h2, _⟩⟩ := h.app_fun hf
  · exact ⟨h1, h2⟩
  · rw [hB] at h2; cases h2

theorem STyped.app_typed_fun {K : KCtx} {Γ : LCtx} {Δ : BCtx} {f a : Term} {J : Jdg}
    (h : STyped K Γ Δ (.app f a) J) : ∃ A B, STyped K Γ Δ f (.ty (.pi A B)) := by
  rcases h.app_inv with ⟨A', B', rfl, h1, _⟩ | ⟨A', B', h1, _⟩
  · exact ⟨_, _, h1⟩
  · exact ⟨_, _, h1⟩

theorem STyped.valueSym {K : KCtx} {Γ : LCtx} {Δ : BCtx} {s : Symbol} (hs : valueSym s = true)
    {T0 : Term} (hT : K.symbolType s = some T0) : STyped K Γ Δ (.sym s) (.ty T0) := by
  obtain ⟨hk, T1, hT1, hg, hn⟩ := valueSym_type (K := K) hs
  rw [hT] at hT1; cases hT1
  exact .sym hk hT hg

theorem STyped.not_inv {K : KCtx} {Γ : LCtx} {Δ : BCtx} {x : Term} {J : Jdg}
    (h : STyped K Γ Δ (.not x) J) : J = .ty .boolTy ∧ STyped K Γ Δ x (.ty .boolTy) := by
  have h0 : STyped K Γ Δ (.sym .not_) (.ty (.pi .boolTy .boolTy)) := STyped.valueSym rfl rfl
  obtain ⟨h1, h2⟩ := h.app_fun_val h0 rfl
  exact ⟨h2, h1⟩

theorem STyped.bin_inv {K : KCtx} {Γ : LCtx} {Δ : BCtx} {s : Symbol} {x y : Term} {J : Jdg}
    (hs : s = .and_ ∨ s = .or_) (h : STyped K Γ Δ (.app (.app (.sym s) x) y) J) :
    J = .ty .boolTy ∧ STyped K Γ Δ x (.ty .boolTy) ∧ STyped K Γ Δ y (.ty .boolTy) := by
  have h0 : STyped K Γ Δ (.sym s) (.ty (.pi .boolTy (.pi .boolTy .boolTy))) := by
    rcases hs with rfl | rfl
    · exact STyped.valueSym rfl rfl
    · exact STyped.valueSym rfl rfl
  obtain ⟨A, B, hf⟩ := h.app_typed_fun
  obtain ⟨h1, h2⟩ := hf.app_fun_val h0 rfl
  cases h2
  obtain ⟨h3, h4⟩ := h.app_fun_val hf rfl
  exact ⟨h4, h1, h3⟩

theorem STyped.and_inv {K : KCtx} {Γ : LCtx} {Δ : BCtx} {x y : Term} {J : Jdg}
    (h : STyped K Γ Δ (.and x y) J) :
    J = .ty .boolTy ∧ STyped K Γ Δ x (.ty .boolTy) ∧ STyped K Γ Δ y (.ty .boolTy) :=
  h.bin_inv (Or.inl rfl)

theorem STyped.or_inv {K : KCtx} {Γ : LCtx} {Δ : BCtx} {x y : Term} {J : Jdg}
    (h : STyped K Γ Δ (.or x y) J) :
    J = .ty .boolTy ∧ STyped K Γ Δ x (.ty .boolTy) ∧ STyped K Γ Δ y (.ty .boolTy) :=
  h.bin_inv (Or.inr rfl)

theorem STyped.not {K : KCtx} {Γ : LCtx} {Δ : BCtx} {x : Term} (h : STyped K Γ Δ x (.ty .boolTy)) :
    STyped K Γ Δ (.not x) (.ty .boolTy) :=
  .appVal (B := .boolTy) (STyped.valueSym (s := .not_) rfl rfl) h rfl rfl

theorem STyped.bin {K : KCtx} {Γ : LCtx} {Δ : BCtx} {s : Symbol} {x y : Term}
    (hs : s = .and_ ∨ s = .or_) (h : STyped K Γ Δ x (.ty .boolTy)) (h' : STyped K Γ Δ y (.ty .boolTy)) :
    STyped K Γ Δ (.app (.app (.sym s) x) y) (.ty .boolTy) := by
  have h0 : STyped K Γ Δ (.sym s) (.ty (.pi .boolTy (.pi .boolTy .boolTy))) := by
    rcases hs with rfl | rfl
    · exact STyped.valueSym rfl rfl
    · exact STyped.valueSym rfl rfl
  exact .appVal (B := .boolTy) (.appVal (B := .pi .boolTy .boolTy) h0 h rfl rfl) h' rfl rfl

theorem STyped.and {K : KCtx} {Γ : LCtx} {Δ : BCtx} {x y : Term}
    (h : STyped K Γ Δ x (.ty .boolTy)) (h' : STyped K Γ Δ y (.ty .boolTy)) :
    STyped K Γ Δ (.and x y) (.ty .boolTy) := .bin (Or.inl rfl) h h'

theorem STyped.or {K : KCtx} {Γ : LCtx} {Δ : BCtx} {x y : Term}
    (h : STyped K Γ Δ x (.ty .boolTy)) (h' : STyped K Γ Δ y (.ty .boolTy)) :
    STyped K Γ Δ (.or x y) (.ty .boolTy) := .bin (Or.inr rfl) h h'

theorem STyped.eqSym {K : KCtx} {Γ : LCtx} {Δ : BCtx} {T : Term}
    (hT : STyped K Γ Δ T (.ty .type0)) :
    STyped K Γ Δ (.app (.sym .eq_) T) (.ty (.pi T (.pi (Term.ren Nat.succ T) .boolTy))) := by
  have := STyped.appTy (STyped.valueSym (s := .eq_) rfl rfl) hT rfl
  simpa [Term.inst, up_zero, up_zero_one] using this

theorem STyped.eq_inv {K : KCtx} {Γ : LCtx} {Δ : BCtx} {T x y : Term} {J : Jdg}
    (h : STyped K Γ Δ (.eq T x y) J) :
    J = .ty .boolTy ∧ STyped K Γ Δ T (.ty .type0) ∧ STyped K Γ Δ x (.ty T) ∧ STyped K Γ Δ y (.ty T) := by
  have h0 : STyped K Γ Δ (.sym .eq_) (.ty KCtx.eqType) := STyped.valueSym rfl rfl
  obtain ⟨A2, B2, hf2⟩ := h.app_typed_fun
  obtain ⟨A1, B1, hf1⟩ := hf2.app_typed_fun
  obtain ⟨hT, _⟩ := hf1.app_fun h0
  have e1 := STyped.eqSym hT
  obtain ⟨h3, h4⟩ := hf2.app_fun_val e1 rfl
  simp only [Term.inst, inst_up] at h4
  rw [h4] at hf2
  obtain ⟨h5, h6⟩ := h.app_fun_val hf2 rfl
  exact ⟨h6, hT, h3, h5⟩

theorem STyped.eq {K : KCtx} {Γ : LCtx} {Δ : BCtx} {T x y : Term} (hT : STyped K Γ Δ T (.ty .type0))
    (hx : STyped K Γ Δ x (.ty T)) (hy : STyped K Γ Δ y (.ty T)) :
    STyped K Γ Δ (.eq T x y) (.ty .boolTy) := by
  have hk := hT.not_endsKind _ rfl
  have h1 := STyped.appVal (B := .pi T .boolTy) (by simpa [Term.ren] using STyped.eqSym hT) hx hk rfl
  exact .appVal (B := .boolTy) h1 hy hk rfl

theorem STyped.iteSym {K : KCtx} {Γ : LCtx} {Δ : BCtx} {T : Term}
    (hT : STyped K Γ Δ T (.ty .type0)) :
    STyped K Γ Δ (.app (.sym .ite_) T)
      (.ty (.pi .boolTy (Term.ren Nat.succ (.pi T (Term.ren Nat.succ (.pi T (Term.ren Nat.succ T))))))) := by
  have := STyped.appTy (STyped.valueSym (s := .ite_) rfl rfl) hT rfl
  have e : Term.inst 0 T (.pi .boolTy (.pi (.bvar 1) (.pi (.bvar 2) (.bvar 3))))
      = .pi .boolTy (Term.ren Nat.succ (.pi T (Term.ren Nat.succ (.pi T (Term.ren Nat.succ T))))) := by
    simp only [Term.inst, Term.ren, ren_ren, up_eq_ren]
    simp [Function.comp_def, upr]
  rw [← e]
  exact this

theorem STyped.ite_inv {K : KCtx} {Γ : LCtx} {Δ : BCtx} {T c x y : Term} {J : Jdg}
    (h : STyped K Γ Δ (.ite T c x y) J) :
    J = .ty T ∧ STyped K Γ Δ T (.ty .type0) ∧ STyped K Γ Δ c (.ty .boolTy) ∧
      STyped K Γ Δ x (.ty T) ∧ STyped K Γ Δ y (.ty T) := by
  have h0 : STyped K Γ Δ (.sym .ite_) (.ty KCtx.iteType) := STyped.valueSym rfl rfl
  obtain ⟨A3, B3, hf3⟩ := h.app_typed_fun
  obtain ⟨A2, B2, hf2⟩ := hf3.app_typed_fun
  obtain ⟨A1, B1, hf1⟩ := hf2.app_typed_fun
  obtain ⟨hT, _⟩ := hf1.app_fun h0
  have hk := hT.not_endsKind _ rfl
  have e1 := STyped.iteSym hT
  obtain ⟨h3, h4⟩ := hf2.app_fun_val e1 (by rw [inst_up]; rfl)
  rw [inst_up] at h4
  rw [h4] at hf2
  obtain ⟨h5, h6⟩ := hf3.app_fun_val hf2 (by rw [inst_up]; rfl)
  rw [inst_up] at h6
  rw [h6] at hf3
  obtain ⟨h7, h8⟩ := h.app_fun_val hf3 (by rw [inst_up]; exact isKind_of_endsKind_false hk)
  rw [inst_up] at h8
  exact ⟨h8, hT, h3, h5, h7⟩

theorem STyped.ite {K : KCtx} {Γ : LCtx} {Δ : BCtx} {T c x y : Term}
    (hT : STyped K Γ Δ T (.ty .type0)) (hc : STyped K Γ Δ c (.ty .boolTy))
    (hx : STyped K Γ Δ x (.ty T)) (hy : STyped K Γ Δ y (.ty T)) :
    STyped K Γ Δ (.ite T c x y) (.ty T) := by
  have hk := hT.not_endsKind _ rfl
  exact .appVal (.appVal (.appVal (STyped.iteSym hT) hc rfl (by
    simp only [endsKind, endsKind_ren]; exact hk)) hx hk (by
    simp only [endsKind, endsKind_ren]; exact hk)) hy hk hk

/-- A typed term whose head is a truth constant is that constant. -/
theorem STyped.head_const {K : KCtx} {Γ : LCtx} {Δ : BCtx} {s : Symbol} {t : Term} {J : Jdg}
    (hs : s = .true_ ∨ s = .false_) (h : STyped K Γ Δ t J) (e : t.headAtom = .sym s) :
    t = .sym s := by
  have hv : Spec.valueSym s = true := by rcases hs with rfl | rfl <;> rfl
  have hb : ∀ {Δ : BCtx}, STyped K Γ Δ (.sym s) (.ty .boolTy) := by
    intro Δ
    rcases hs with rfl | rfl
    · exact STyped.valueSym rfl rfl
    · exact STyped.valueSym rfl rfl
  induction t generalizing J with
  | atom a => simp only [headAtom] at e; rw [e]
  | app f a ihf _ =>
    obtain ⟨A, B, h1⟩ := h.app_typed_fun
    have := ihf h1 e
    subst this
    have := Typed.unique_of_not_kind hb.typed h1.typed rfl
    cases this
  | bind b A B ihA _ =>
    exact absurd e (h.bind_dom.typelike_head' hv (Or.inl rfl))

end Spec
end Acorn
