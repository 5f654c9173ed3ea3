/-
The types of terms that do not quantify over types, over variables that are values.
-/
import Verif.Spec.Checker
import Verif.Lemmas.Resolution
namespace Acorn
open Spec Term

universe u

variable {K : KCtx} {Γ : LCtx}

/-! ### Terms without kinds -/

theorem Spec.SortFree.app {f a : Term} : SortFree (.app f a) ↔ SortFree f ∧ SortFree a := by
  simp only [SortFree, atoms, List.mem_append]
  exact ⟨fun h => ⟨fun x hx => h x (.inl hx), fun x hx => h x (.inr hx)⟩,
    fun h x hx => hx.elim (h.1 x) (h.2 x)⟩

theorem Spec.SortFree.bind {b : Binder} {f a : Term} : SortFree (.bind b f a) ↔ SortFree f ∧ SortFree a := by
  simp only [SortFree, atoms, List.mem_append]
  exact ⟨fun h => ⟨fun x hx => h x (.inl hx), fun x hx => h x (.inr hx)⟩,
    fun h x hx => hx.elim (h.1 x) (h.2 x)⟩

theorem Spec.SortFree.fvar {i : Nat} : SortFree (.fvar i) := by intro a ha; simp [atoms] at ha; subst ha; simp
theorem Spec.SortFree.bvar {i : Nat} : SortFree (.bvar i) := by intro a ha; simp [atoms] at ha; subst ha; simp

theorem Spec.SortFree.sym {s : Symbol} (h : isKindSym s = false) : SortFree (.sym s) := by
  intro a ha; simp [atoms] at ha; subst ha
  refine ⟨fun e => ?_, fun m n e => ?_⟩
  · cases e; cases h
  · cases e; cases h

theorem Spec.SortFree.not_kind {t : Term} (h : SortFree t) : isKind t = false := by
  cases e : isKind t with
  | false => rfl
  | true =>
    unfold isKind at e
    split at e
    · rename_i s
      have := h (.sym s) (by simp [atoms])
      cases s <;> simp_all [isKindSym]
    · cases e

theorem Spec.SortFree.sub_iff_ren {t : Term} : ∀ {r : Nat → Nat}, SortFree (Term.ren r t) ↔ SortFree t := by
  induction t with
  | atom a =>
    intro r
    cases a with
    | bvar i => exact ⟨fun _ => .bvar, fun _ => .bvar⟩
    | _ => rfl
  | app f a ihf iha => intro r; simp only [Term.ren, SortFree.app, ihf, iha]
  | bind b f a ihf iha => intro r; simp only [Term.ren, SortFree.bind, ihf, iha]

theorem Spec.SortFree.sub {t : Term} : ∀ {φ σ : Nat → Term}, SortFree t → (∀ i, SortFree (φ i)) → (∀ i, SortFree (σ i)) →
    SortFree (Term.sub φ σ t) := by
  induction t with
  | atom a =>
    intro φ σ h h1 h2
    cases a with
    | bvar i => exact h2 i
    | fvar i => exact h1 i
    | sym s => exact h
  | app f a ihf iha =>
    intro φ σ h h1 h2
    have h := SortFree.app.1 h
    exact SortFree.app.2 ⟨ihf h.1 h1 h2, iha h.2 h1 h2⟩
  | bind b f a ihf iha =>
    intro φ σ h h1 h2
    have h := SortFree.bind.1 h
    refine SortFree.bind.2 ⟨ihf h.1 h1 h2, iha h.2 (fun i => SortFree.sub_iff_ren.2 (h1 i)) fun i => ?_⟩
    cases i with
    | zero => exact .bvar
    | succ i => exact SortFree.sub_iff_ren.2 (h2 i)

theorem Spec.SortFree.inst {t a : Term} (h : SortFree t) (ha : SortFree a) : SortFree (Term.inst 0 a t) := by
  rw [inst_zero_eq]
  refine h.sub (fun _ => .fvar) fun i => ?_
  cases i with
  | zero => exact ha
  | succ i => exact .bvar

theorem isKind_ren {t : Term} {r : Nat → Nat} : isKind (Term.ren r t) = isKind t := by
  cases t with
  | atom a => cases a <;> rfl
  | _ => rfl

/-! ### Types of rank one -/

theorem Spec.RankOne.ren {t : Term} (h : RankOne t) : ∀ {r : Nat → Nat}, RankOne (Term.ren r t) := by
  induction h with
  | small h => intro r; exact .small (SortFree.sub_iff_ren.2 h)
  | kind h => intro r; exact .kind (by rw [isKind_ren]; exact h)
  | pi h _ ih =>
    intro r
    exact .pi (h.imp SortFree.sub_iff_ren.2 fun h => by rw [isKind_ren]; exact h) ih

theorem Spec.RankOne.of_ren {t' : Term} (h : RankOne t') : ∀ {t : Term} {r : Nat → Nat}, t' = Term.ren r t →
    RankOne t := by
  induction h with
  | small h => intro t r e; subst e; exact .small (SortFree.sub_iff_ren.1 h)
  | kind h => intro t r e; subst e; exact .kind (by rw [isKind_ren] at h; exact h)
  | pi h _ ih =>
    intro t r e
    cases t with
    | atom a => cases a <;> cases e
    | app _ _ => cases e
    | bind b A B =>
      simp only [Term.ren, Term.bind.injEq] at e
      obtain ⟨rfl, rfl, e⟩ := e
      exact .pi (h.imp SortFree.sub_iff_ren.1 fun h => by rw [isKind_ren] at h; exact h) (ih e)

theorem Spec.RankOne.sub {t : Term} (h : RankOne t) : ∀ {φ σ : Nat → Term}, (∀ i, SortFree (φ i)) →
    (∀ i, SortFree (σ i)) → RankOne (Term.sub φ σ t) := by
  have kd : ∀ {t : Term} {φ σ : Nat → Term}, isKind t = true → isKind (Term.sub φ σ t) = true := by
    intro t φ σ h
    unfold isKind at h
    split at h
    · exact h
    · cases h
  induction h with
  | small h => intro φ σ h1 h2; exact .small (h.sub h1 h2)
  | kind h => intro φ σ _ _; exact .kind (kd h)
  | pi h _ ih =>
    intro φ σ h1 h2
    refine .pi (h.imp (·.sub h1 h2) kd) (ih (fun i => SortFree.sub_iff_ren.2 (h1 i)) fun i => ?_)
    cases i with
    | zero => exact .bvar
    | succ i => exact SortFree.sub_iff_ren.2 (h2 i)

theorem Spec.RankOne.inst {t a : Term} (h : RankOne t) (ha : SortFree a) : RankOne (Term.inst 0 a t) := by
  rw [inst_zero_eq]
  refine h.sub (fun _ => .fvar) fun i => ?_
  cases i with
  | zero => exact ha
  | succ i => exact .bvar

theorem Spec.RankOne.pi_inv {A B : Term} (h : RankOne (.pi A B)) : (SortFree A ∨ isKind A = true) ∧ RankOne B := by
  generalize e : Term.pi A B = t at h
  cases h with
  | small h => subst e; have := SortFree.bind.1 h; exact ⟨.inl this.1, .small this.2⟩
  | kind h => subst e; cases h
  | pi h1 h2 => cases e; exact ⟨h1, h2⟩

/-- Values have types without kinds. -/
theorem Small.sortFree {T : Term} (h : Small K T) : SortFree T := fun a ha =>
  (plain_type h _ rfl rfl a ha).2

theorem Spec.SortFree.cons {Δ : BCtx} {A : Term} (hΔ : ∀ i T, Δ i = some T → SortFree T) (hA : SortFree A) :
    ∀ i T, BCtx.cons A Δ i = some T → SortFree T := by
  intro i T h
  cases i with
  | zero => simp only [BCtx.cons, Option.some.injEq] at h; subst h; exact SortFree.sub_iff_ren.2 hA
  | succ i =>
    simp only [BCtx.cons, Option.map_eq_some_iff] at h
    obtain ⟨U, h1, rfl⟩ := h
    exact SortFree.sub_iff_ren.2 (hΔ i U h1)

/-- A term without kinds has a type of rank one. -/
theorem rankOne_type (hK : PlainSignature K) (hv : ValueVars K Γ) {Δ : BCtx} {t : Term} {J : Jdg}
    (h : STyped K Γ Δ t J) : SortFree t → (∀ i T, Δ i = some T → SortFree T) → ∀ T, J = .ty T → RankOne T := by
  induction h with
  | fvar h1 _ => intro _ _ T e; cases e; exact .small (Small.sortFree (hv _ _ h1))
  | bvar h1 => intro _ hΔ T e; cases e; exact .small (hΔ _ _ h1)
  | sym h1 h2 _ => intro _ _ T e; cases e; exact (hK _ _ h1 h2).1
  | appVal _ _ _ _ ihf _ =>
    intro hs hΔ T e
    cases e
    exact (ihf (SortFree.app.1 hs).1 hΔ _ rfl).pi_inv.2.of_ren rfl
  | appTy _ _ _ ihf _ =>
    intro hs hΔ T e
    cases e
    exact (ihf (SortFree.app.1 hs).1 hΔ _ rfl).pi_inv.2.inst (SortFree.app.1 hs).2
  | lam _ _ _ _ _ ihb =>
    intro hs hΔ T e
    cases e
    have hs := SortFree.bind.1 hs
    exact .pi (.inl hs.1) (ihb hs.2 (.cons hΔ hs.1) _ rfl)
  | all => intro _ _ T e; cases e; exact .small (.sym rfl)
  | ex => intro _ _ T e; cases e; exact .small (.sym rfl)
  | pi => intro _ _ T e; cases e; exact .kind rfl
  | inst => intro _ _ T e; cases e; exact .kind rfl
  | scheme => intro _ _ T e; cases e; exact .kind rfl
  | extend => intro _ _ T e; cases e; exact .kind rfl
  | forget => intro _ _ T e; cases e; exact .kind rfl
  | tyType0 => intro _ _ T e; cases e
  | tyClass => intro _ _ T e; cases e
  | tyOf => intro _ _ T e; cases e
  | tyPi => intro _ _ T e; cases e

/-- The type of a term is a type. -/
theorem isTy_type (hK : PlainSignature K) (hv : ValueVars K Γ) {Δ : BCtx} {t : Term} {J : Jdg}
    (h : STyped K Γ Δ t J) : (∀ i T, Δ i = some T → STyped K Γ Δ T .isTy) → ∀ T, J = .ty T →
      STyped K Γ Δ T .isTy := by
  have nil : ∀ {Δ : BCtx} {T : Term} {J : Jdg}, STyped K [] BCtx.nil T J → (∀ U, J = .ty U → U.escapes = false) →
      STyped K Γ Δ T J := by
    intro Δ T J h hJ
    have h1 := (h.weaken (Γ' := Γ) (by intro i T h; simp [LCtx.get] at h)).ren id Δ (by intro i T h; cases h)
    rw [ren_id] at h1
    cases J with
    | isTy => exact h1
    | ty U => simp only [Jdg.ren, ren_id] at h1; exact h1
  have cons : ∀ {Δ : BCtx} {A : Term}, (∀ i T, Δ i = some T → STyped K Γ Δ T .isTy) → STyped K Γ Δ A .isTy →
      ∀ i T, BCtx.cons A Δ i = some T → STyped K Γ (BCtx.cons A Δ) T .isTy := by
    intro Δ A hΔ hA i T h
    cases i with
    | zero =>
      simp only [BCtx.cons, Option.some.injEq] at h; subst h
      exact hA.ren _ _ (RenOk.succ A Δ)
    | succ i =>
      simp only [BCtx.cons, Option.map_eq_some_iff] at h
      obtain ⟨U, h1, rfl⟩ := h
      exact (hΔ i U h1).ren _ _ (RenOk.succ A Δ)
  have bool : ∀ {Δ : BCtx}, STyped K Γ Δ .boolTy .isTy := .tyOf (.sym rfl rfl ⟨rfl, fun _ => rfl⟩)
  induction h with
  | fvar h1 _ => intro _ T e; cases e; exact .tyOf (nil (hv _ _ h1) fun U e => by cases e; rfl)
  | bvar h1 => intro hΔ T e; cases e; exact hΔ _ _ h1
  | sym h1 h2 _ => intro _ T e; cases e; exact nil (hK _ _ h1 h2).2 fun U e => by cases e
  | appVal _ _ _ _ ihf _ =>
    intro hΔ T e
    cases e
    obtain ⟨J0, e, h⟩ := (ihf hΔ _ rfl).pi_inv.2.2.drop
    cases J0 with
    | isTy => exact h
    | ty U => cases e
  | appTy _ ha _ ihf _ =>
    intro hΔ T e
    cases e
    exact (ihf hΔ _ rfl).pi_inv.2.2.inst0 ha
  | lam hA _ _ _ _ ihb =>
    intro hΔ T e
    cases e
    exact .tyPi hA (ihb (cons hΔ hA) _ rfl)
  | all => intro _ T e; cases e; exact bool
  | ex => intro _ T e; cases e; exact bool
  | pi => intro _ T e; cases e; exact .tyType0
  | inst => intro _ T e; cases e; exact .tyClass
  | scheme => intro _ T e; cases e; exact .tyClass
  | extend => intro _ T e; cases e; exact .tyClass
  | forget => intro _ T e; cases e; exact .tyType0
  | tyType0 => intro _ T e; cases e
  | tyClass => intro _ T e; cases e
  | tyOf => intro _ T e; cases e
  | tyPi => intro _ T e; cases e

/-- A type without kinds is a type of values. -/
theorem small_of_isTy {Δ : BCtx} {T : Term} {J : Jdg} (h : STyped K Γ Δ T J) : J = .isTy → SortFree T →
    STyped K Γ Δ T (.ty .type0) := by
  induction h with
  | tyType0 => intro _ hs; exact absurd rfl (hs (.sym .type0) (by simp [atoms])).1
  | tyClass => intro _ hs; exact absurd rfl ((hs _ (List.mem_singleton.2 rfl)).2 _ _)
  | tyOf h => intro _ _; exact h
  | tyPi _ _ ihA ihB =>
    intro _ hs
    have hs := SortFree.bind.1 hs
    exact .pi (ihA rfl hs.1) (ihB rfl hs.2)
  | _ => intro e; cases e

/-- Types do not depend on the variables. -/
theorem Small.of_ctx (hv : ValueVars K Γ) {T : Term} (h : SHasType K Γ T .type0) : Small K T := by
  have nv := (mono_ground hv h (by intro i T h; cases h)).2 (.inr ⟨_, rfl, rfl⟩)
  have := mono_apply (m := []) (Γ' := []) hv h (by intro i T h; cases h) (fun i U hi => by rw [nv i] at hi; cases hi)
  rwa [nv.apply] at this

theorem Small.weaken {T : Term} (h : Small K T) : SHasType K Γ T .type0 :=
  STyped.weaken h (by intro i T h; simp [LCtx.get] at h)

/-- A type of values, or a kind. -/
def PlainTy (K : KCtx) (T : Term) : Prop := Small K T ∨ isKind T = true

/-- A term without kinds whose type has no kinds. -/
theorem small_type (hK : PlainSignature K) (hv : ValueVars K Γ) {t T : Term} (h : SHasType K Γ t T)
    (hT : SortFree T) : Small K T :=
  .of_ctx hv (small_of_isTy (isTy_type hK hv h (by intro i T h; cases h) _ rfl) rfl hT)

/-- The domain of a function without kinds. -/
theorem dom_plain (hK : PlainSignature K) (hv : ValueVars K Γ) {t A B : Term} (h : SHasType K Γ t (.pi A B))
    (hs : SortFree t) : PlainTy K A := by
  rcases (rankOne_type hK hv h hs (by intro i T h; cases h) _ rfl).pi_inv.1 with h1 | h1
  · have := (isTy_type hK hv h (by intro i T h; cases h) _ rfl).pi_inv.2.1
    exact .inl (.of_ctx hv (small_of_isTy this rfl h1))
  · exact .inr h1

/-- Types of terms are unique, except that a type can have several kinds. -/
theorem plain_unique {t T U : Term} (hT : PlainTy K T) (h : SHasType K Γ t T) (h' : SHasType K Γ t U) :
    PlainTy K U := by
  cases k : isKind U with
  | true => exact .inr k
  | false =>
    have := Typed.unique_of_not_kind h'.typed h.typed k
    subst this; exact hT

theorem litPlain_iff {l : Literal} : LitPlain K Γ l ↔ LitTyped K Γ l ∧ ∃ T, PlainTy K T ∧ SHasType K Γ l.left T := by
  constructor
  · rintro ⟨T, h1, h2, h3⟩; exact ⟨⟨T, h2, h3⟩, T, h1, h2⟩
  · rintro ⟨⟨T, h1, h2⟩, U, h3, h4⟩; exact ⟨T, plain_unique h3 h4 h1, h1, h2⟩

theorem Spec.LitPlain.typed {l : Literal} (h : LitPlain K Γ l) : LitTyped K Γ l := (litPlain_iff.1 h).1

theorem litPlain_new {p : Bool} {l r : Term} : LitPlain K Γ (Literal.new p l r) ↔ LitPlain K Γ ⟨p, l, r⟩ := by
  simp only [Literal.new, Literal.newWithFlip]
  split
  · exact ⟨fun ⟨T, h, h1, h2⟩ => ⟨T, h, h2, h1⟩, fun ⟨T, h, h1, h2⟩ => ⟨T, h, h2, h1⟩⟩
  · rfl

theorem boolTy_small : Small K .boolTy := .sym rfl rfl ⟨rfl, fun _ => rfl⟩

/-- A type does not mention bound values. -/
theorem type_no_values {Δ : BCtx} {t : Term} {J : Jdg} (h : STyped K Γ Δ t J) : Typelike J → ∀ d,
    (∀ U, Δ d = some U → endsKind U = false) → refsBoundAt 0 d t = false := by
  induction h with
  | fvar => intro _ d _; rfl
  | @bvar Δ i T h =>
    intro hJ d hd
    simp only [refsBoundAt, Nat.zero_add, beq_eq_false_iff_ne]
    rintro rfl
    rcases hJ with hJ | ⟨T, hJ, k⟩ <;> cases hJ
    rw [hd _ h] at k; cases k
  | sym => intro _ d _; rfl
  | appVal _ _ _ k =>
    intro hJ
    rcases hJ with hJ | ⟨T, hJ, k'⟩ <;> cases hJ
    rw [k] at k'; cases k'
  | appTy hf ha k ihf iha =>
    intro hJ d hd
    rcases hJ with hJ | ⟨T, hJ, k'⟩ <;> cases hJ
    rw [endsKind_inst (ha.not_endsKind _ rfl)] at k'
    simp only [refsBoundAt, ihf (.inr ⟨_, rfl, k'⟩) d hd, iha (.inr ⟨_, rfl, k⟩) d hd, Bool.or_false]
  | lam hA hb k1 k2 => intro hJ; exact ((STyped.lam hA hb k1 k2).lam_not_typelike hJ).elim
  | all hA hb => intro hJ; exact ((STyped.all hA hb).quant_not_typelike (.inl rfl) hJ).elim
  | ex hA hb => intro hJ; exact ((STyped.ex hA hb).quant_not_typelike (.inr rfl) hJ).elim
  | pi _ _ ihA ihB =>
    intro _ d hd
    simp only [refsBoundAt, ihA (.inr ⟨_, rfl, rfl⟩) d hd, Bool.false_or]
    refine ihB (.inr ⟨_, rfl, rfl⟩) (d + 1) fun U hU => ?_
    simp only [BCtx.cons, Option.map_eq_some_iff] at hU
    obtain ⟨V, h1, rfl⟩ := hU
    rw [endsKind_ren]; exact hd V h1
  | inst => intro _ d _; rfl
  | scheme _ _ _ _ _ _ _ ih => intro _; exact ih (.inr ⟨_, rfl, rfl⟩)
  | extend _ _ ih => intro _; exact ih (.inr ⟨_, rfl, rfl⟩)
  | forget _ ih => intro _; exact ih (.inr ⟨_, rfl, rfl⟩)
  | tyType0 => intro _ d _; rfl
  | tyClass => intro _ d _; rfl
  | tyOf _ ih => intro _; exact ih (.inr ⟨_, rfl, rfl⟩)
  | tyPi _ _ ihA ihB =>
    intro _ d hd
    simp only [refsBoundAt, ihA (.inl rfl) d hd, Bool.false_or]
    refine ihB (.inl rfl) (d + 1) fun U hU => ?_
    simp only [BCtx.cons, Option.map_eq_some_iff] at hU
    obtain ⟨V, h1, rfl⟩ := hU
    rw [endsKind_ren]; exact hd V h1

/-- The type of functions between values is simple. -/
theorem Small.pi_inv {A B : Term} (h : Small K (.pi A B)) : ∃ B', B = Term.ren Nat.succ B' ∧ Small K A ∧ Small K B' := by
  have hs := SortFree.bind.1 (Small.sortFree h)
  obtain ⟨_, hA, hB⟩ := STyped.pi_inv h
  have hA := small_of_isTy hA rfl hs.1
  have hB := small_of_isTy hB rfl hs.2
  obtain ⟨B', -, rfl⟩ := ren_shift B 0 (type_no_values hB (.inr ⟨_, rfl, rfl⟩) 0 fun U hU => by
    simp only [BCtx.cons, Option.some.injEq] at hU
    subst hU
    rw [endsKind_ren]; exact hA.not_endsKind _ rfl)
  rw [up_zero_one] at hB ⊢
  obtain ⟨J, e, hB⟩ := hB.drop
  refine ⟨_, rfl, hA, ?_⟩
  cases J with
  | isTy => cases e
  | ty U =>
    simp only [Jdg.ren, Jdg.ty.injEq] at e
    have : U = .type0 := by
      cases U with
      | atom a => cases a <;> cases e <;> rfl
      | app _ _ => cases e
      | bind _ _ _ => cases e
    subst this; exact hB

/-- Functions between values have simple types. -/
theorem Spec.FnDiseqSimple.of_plain {ls : List Literal} (h : ∀ l ∈ ls, LitPlain K Γ l) :
    FnDiseqSimple K Γ ls := by
  intro l hl _ A B hAB
  obtain ⟨T, hT, h1, h2⟩ := h l hl
  have : T = .pi A B := Typed.unique_of_not_kind hAB.typed h1.typed rfl |>.symm
  subst this
  rcases hT with hT | hT
  · obtain ⟨B', rfl, hA, hB⟩ := Small.pi_inv hT
    exact ⟨A, B', h1, h2, hA.weaken, hB.weaken⟩
  · cases hT

end Acorn
