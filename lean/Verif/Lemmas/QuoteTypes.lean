/-
The shape of types in terms that can be quoted, and quoting types.
-/
import Verif.Spec.Quote
import Verif.Lemmas.SimplyTyped
import Verif.Lemmas.BoolReduce
import Verif.Lemmas.Inference
import Verif.Lemmas.Lowering
namespace Acorn
namespace Spec

open Elab Term

universe u

/-! ### Kinds -/

theorem isKind_noKinds {T : Term} (h : isKind T = true) : noKinds T = false := by
  match T, h with
  | .sym s, h => simp only [noKinds, Bool.not_eq_false']; exact h

theorem endsKind_noKinds : ∀ {T : Term}, endsKind T = true → noKinds T = false
  | .sym s, h => by simp only [noKinds, Bool.not_eq_false']; exact h
  | .bind .pi A B, h => by
    simp only [noKinds, Bool.and_eq_false_iff]; exact Or.inr (endsKind_noKinds (T := B) h)

theorem noKinds_endsKind {T : Term} (h : noKinds T = true) : endsKind T = false := by
  cases e : endsKind T with
  | false => rfl
  | true => rw [endsKind_noKinds e] at h; cases h

theorem noKinds_isKind {T : Term} (h : noKinds T = true) : isKind T = false := by
  cases e : isKind T with
  | false => rfl
  | true => rw [isKind_noKinds e] at h; cases h

theorem noKinds_ren (T : Term) : ∀ r : Nat → Nat, noKinds (Term.ren r T) = noKinds T := by
  induction T with
  | atom a => intro r; cases a <;> rfl
  | app f a ihf iha => intro r; simp only [Term.ren, noKinds, ihf, iha]
  | bind q A B ihA ihB => intro r; simp only [Term.ren, noKinds, ihA, ihB]

theorem noKinds_up (T : Term) : ∀ c n : Nat, noKinds (Term.up c n T) = noKinds T := by
  induction T with
  | atom a =>
    intro c n
    cases a with
    | bvar i => simp only [Term.up]; split <;> rfl
    | _ => rfl
  | app f a ihf iha => intro c n; simp only [Term.up, noKinds, ihf, iha]
  | bind q A B ihA ihB => intro c n; simp only [Term.up, noKinds, ihA, ihB]

theorem noKinds_inst {a : Term} (ha : noKinds a = true) (T : Term) : ∀ d : Nat,
    noKinds (Term.inst d a T) = noKinds T := by
  induction T with
  | atom b =>
    intro d
    cases b with
    | bvar i =>
      simp only [Term.inst]
      split
      · rfl
      · split
        · rw [noKinds_up, ha]; rfl
        · rfl
    | _ => rfl
  | app f b ihf ihb => intro d; simp only [Term.inst, noKinds, ihf, ihb]
  | bind q A B ihA ihB => intro d; simp only [Term.inst, noKinds, ihA, ihB]

theorem isKind_inst {a : Term} (ha : noKinds a = true) (T : Term) (d : Nat) :
    isKind (Term.inst d a T) = isKind T := by
  cases T with
  | atom b =>
    cases b with
    | bvar i =>
      simp only [Term.inst]
      split
      · rfl
      · split
        · rw [noKinds_isKind (by rw [noKinds_up]; exact ha)]; rfl
        · rfl
    | _ => rfl
  | app f b => rfl
  | bind q A B => rfl

theorem endsKind_inst_noKinds {a : Term} (ha : noKinds a = true) (T : Term) : ∀ d : Nat,
    endsKind (Term.inst d a T) = endsKind T := by
  induction T with
  | atom b =>
    intro d
    cases b with
    | bvar i =>
      simp only [Term.inst]
      split
      · rfl
      · split
        · rw [noKinds_endsKind (by rw [noKinds_up]; exact ha)]; rfl
        · rfl
    | _ => rfl
  | app f b _ _ => intro d; rfl
  | bind q A B _ ihB => intro d; cases q <;> simp only [Term.inst, endsKind, ihB]

theorem noKinds_kindArity {T : Term} (h : noKinds T = true) : kindArity T = 0 := by
  match T, h with
  | .bind .pi A B, h =>
    simp only [noKinds, Bool.and_eq_true] at h
    simp only [kindArity, noKinds_isKind h.1, Bool.false_eq_true, if_false]
  | .atom _, _ => rfl
  | .app _ _, _ => rfl
  | .bind .lam _ _, _ => rfl
  | .bind .all _ _, _ => rfl
  | .bind .ex _ _, _ => rfl

theorem noKinds_prenex {T : Term} (h : noKinds T = true) : prenex T = true := by
  match T, h with
  | .bind .pi A B, h =>
    simp only [noKinds, Bool.and_eq_true] at h
    simp only [prenex, h.1, h.2, Bool.and_self, Bool.or_true]
  | .atom _, h => exact h
  | .app _ _, h => exact h
  | .bind .lam _ _, h => exact h
  | .bind .all _ _, h => exact h
  | .bind .ex _ _, h => exact h

theorem prenex_noKinds {T : Term} (h : prenex T = true) (h0 : kindArity T = 0) : noKinds T = true := by
  match T, h, h0 with
  | .bind .pi A B, h, h0 =>
    simp only [kindArity] at h0
    split at h0
    · omega
    · rename_i e
      simp only [prenex, e, Bool.false_and, Bool.false_or] at h
      exact h
  | .atom _, h, _ => exact h
  | .app _ _, h, _ => exact h
  | .bind .lam _ _, h, _ => exact h
  | .bind .all _ _, h, _ => exact h
  | .bind .ex _ _, h, _ => exact h

theorem prenex_inst {a : Term} (ha : noKinds a = true) (T : Term) : ∀ d : Nat, prenex T = true →
    prenex (Term.inst d a T) = true ∧ kindArity (Term.inst d a T) = kindArity T := by
  induction T with
  | bind q A B _ ihB =>
    intro d h
    cases q with
    | pi =>
      simp only [Term.inst, prenex, kindArity, isKind_inst ha, noKinds_inst ha] at h ⊢
      cases e : isKind A with
      | false => rw [e] at h; exact ⟨by simpa using h, by simp⟩
      | true =>
        rw [e] at h
        rw [isKind_noKinds e] at h ⊢
        simp only [Bool.true_and, Bool.false_and, Bool.or_false] at h ⊢
        have := ihB (d + 1) h
        exact ⟨this.1, by simp [this.2]⟩
    | lam => exact ⟨(noKinds_inst ha (.bind .lam A B) d).trans h, rfl⟩
    | all => exact ⟨(noKinds_inst ha (.bind .all A B) d).trans h, rfl⟩
    | ex => exact ⟨(noKinds_inst ha (.bind .ex A B) d).trans h, rfl⟩
  | atom b =>
    intro d h
    have h' : noKinds (.atom b) = true := h
    have h1 : noKinds (Term.inst d a (.atom b)) = true := by rw [noKinds_inst ha]; exact h'
    exact ⟨noKinds_prenex h1, noKinds_kindArity h1⟩
  | app f b _ _ =>
    intro d h
    exact ⟨(noKinds_inst ha (.app f b) d).trans h, rfl⟩

/-! ### What can be quoted -/

theorem Quotable.noKinds {K : KCtx} {N : Names} {t : Term} : ∀ {n : Nat}, Quotable K N n t → Spec.noKinds t = true := by
  induction t with
  | atom a =>
    intro n h
    cases a with
    | sym s => simp only [Spec.noKinds, h.1, Bool.not_false]
    | _ => rfl
  | app f a ihf iha => intro n h; simp only [Spec.noKinds, ihf h.1, iha h.2, Bool.and_self]
  | bind q A b ihA ihb => intro n h; simp only [Spec.noKinds, ihA h.1, ihb h.2, Bool.and_self]

theorem Quotable.mono {K : KCtx} {N : Names} {t : Term} : ∀ {n m : Nat}, n ≤ m → Quotable K N n t → Quotable K N m t := by
  induction t with
  | atom a =>
    intro n m hm h
    cases a with
    | sym s => exact ⟨h.1, h.2.1, fun T hT => Nat.le_trans (h.2.2 T hT) hm⟩
    | _ => trivial
  | app f a ihf iha => intro n m hm h; exact ⟨ihf (Nat.succ_le_succ hm) h.1, h.2⟩
  | bind q A b ihA ihb => intro n m hm h; exact h

theorem Quotable.up {K : KCtx} {N : Names} {t : Term} : ∀ {n : Nat} (c k : Nat), Quotable K N n t →
    Quotable K N n (Term.up c k t) := by
  induction t with
  | atom a =>
    intro n c k h
    cases a with
    | bvar i => simp only [Term.up]; split <;> trivial
    | _ => exact h
  | app f a ihf iha => intro n c k h; exact ⟨ihf c k h.1, iha c k h.2⟩
  | bind q A b ihA ihb => intro n c k h; exact ⟨ihA c k h.1, ihb (c + 1) k h.2⟩

theorem Quotable.inst {K : KCtx} {N : Names} {a t : Term} (ha : Quotable K N 0 a) : ∀ {n : Nat} (d : Nat),
    Quotable K N n t → Quotable K N n (Term.inst d a t) := by
  induction t with
  | atom b =>
    intro n d h
    cases b with
    | bvar i =>
      simp only [Term.inst]
      split
      · trivial
      · split
        · exact (ha.up 0 d).mono (Nat.zero_le _)
        · trivial
    | _ => exact h
  | app f b ihf ihb => intro n d h; exact ⟨ihf d h.1, ihb d h.2⟩
  | bind q A b ihA ihb => intro n d h; exact ⟨ihA d h.1, ihb (d + 1) h.2⟩

/-! ### Types -/

/-- The types of values: truth values, type variables, datatypes with all their arguments, functions. -/
inductive SmallType (K : KCtx) (Γ : LCtx) : Term → Prop
  | bool : SmallType K Γ .boolTy
  | var {i T} : Γ.get i = some T → isKind T = true → SmallType K Γ (.fvar i)
  | data {m l as} : as.length = (K.paramKinds (m, l)).length → (∀ a ∈ as, SmallType K Γ a) →
      SmallType K Γ ((Term.sym (.type m l)).apply as)
  | pi {A B} : SmallType K Γ A → SmallType K Γ B → SmallType K Γ (.pi A B)

/-- A type, or a datatype that still wants arguments. -/
def TypeShape (K : KCtx) (Γ : LCtx) (t T : Term) : Prop :=
  (isKind T = true ∧ SmallType K Γ t) ∨
    ∃ m l as, t = (Term.sym (.type m l)).apply as ∧ (∀ a ∈ as, SmallType K Γ a) ∧
      as.length < (K.paramKinds (m, l)).length ∧
      T = ((K.paramKinds (m, l)).drop as.length).foldr Term.pi .type0

theorem inst_kinds {ks : List Term} (hk : ∀ k ∈ ks, isKind k = true) (a : Term) : ∀ d,
    Term.inst d a (ks.foldr Term.pi .type0) = ks.foldr Term.pi .type0 := by
  induction ks with
  | nil => intro d; rfl
  | cons k ks ih =>
    intro d
    have h1 := hk k (by simp)
    match k, h1 with
    | .sym s, _ =>
      show Term.bind .pi (.sym s) (Term.inst (d + 1) a _) = _
      rw [ih (fun k hk' => hk k (by simp [hk']))]
      rfl

theorem TypeShape.small {K : KCtx} {Γ : LCtx} {t T : Term} (h : TypeShape K Γ t T) (hT : isKind T = true) :
    SmallType K Γ t := by
  rcases h with h | ⟨m, l, as, rfl, _, hl, rfl⟩
  · exact h.2
  · rw [List.drop_eq_getElem_cons hl] at hT
    cases hT

theorem noKinds_cons {Δ : BCtx} {A : Term} (hΔ : ∀ i T, Δ i = some T → noKinds T = true) (hA : noKinds A = true) :
    ∀ i T, BCtx.cons A Δ i = some T → noKinds T = true := by
  intro i T h
  cases i with
  | zero => simp only [BCtx.cons, Option.some.injEq] at h; rw [← h, noKinds_ren]; exact hA
  | succ i =>
    simp only [BCtx.cons, Option.map_eq_some_iff] at h
    obtain ⟨T', h1, rfl⟩ := h
    rw [noKinds_ren]
    exact hΔ _ _ h1

theorem STyped.shape {K : KCtx} (hK : Prenex K) {Γ : LCtx} (hΓ : SimpleVars Γ) {Δ : BCtx} {t : Term} {J : Jdg}
    (h : STyped K Γ Δ t J) : (∀ i T, Δ i = some T → noKinds T = true) → noKinds t = true →
    (∀ T, J = .ty T → endsKind T = true → TypeShape K Γ t T) ∧ (J = .isTy → SmallType K Γ t) := by
  induction h with
  | @fvar Δ i T h1 h2 =>
    intro hΔ ht
    refine ⟨fun T' e hT => ?_, fun e => by cases e⟩
    cases e
    rcases hΓ _ _ h1 with hk | hk
    · exact .inl ⟨hk, .var h1 hk⟩
    · rw [noKinds_endsKind hk] at hT; cases hT
  | bvar h1 =>
    intro hΔ ht
    refine ⟨fun T' e hT => ?_, fun e => by cases e⟩
    cases e
    rw [noKinds_endsKind (hΔ _ _ h1)] at hT; cases hT
  | @sym Δ s T h1 h2 h3 =>
    intro hΔ ht
    refine ⟨fun T' e hT => ?_, fun e => by cases e⟩
    cases e
    rcases hK.types _ _ h2 hT with rfl | ⟨m, l, rfl⟩ | h4
    · cases h2
      exact .inl ⟨rfl, .bool⟩
    · cases h2
      by_cases hl : (K.paramKinds (m, l)).length = 0
      · refine .inl ⟨?_, SmallType.data (as := []) (by rw [hl]; rfl) (by simp)⟩
        simp only [KCtx.typeKind, List.length_eq_zero_iff.1 hl]; rfl
      · exact .inr ⟨m, l, [], rfl, by simp, by simp; omega, rfl⟩
    · rw [h1] at h4; cases h4
  | appVal hf ha kA kB ihf iha =>
    intro hΔ ht
    refine ⟨fun T' e hT => ?_, fun e => by cases e⟩
    cases e
    rw [kB] at hT; cases hT
  | @appTy Δ f a A B hf ha kA ihf iha =>
    intro hΔ ht
    simp only [noKinds, Bool.and_eq_true] at ht
    refine ⟨fun T' e hT => ?_, fun e => by cases e⟩
    cases e
    rw [endsKind_inst_noKinds ht.2] at hT
    rcases (ihf hΔ ht.1).1 _ rfl hT with ⟨h1, _⟩ | ⟨m, l, as, rfl, hs, hl, e⟩
    · cases h1
    · rw [List.drop_eq_getElem_cons hl] at e
      simp only [List.foldr_cons, Term.bind.injEq, true_and] at e
      have hk := hK.kinds (m, l) _ (List.getElem_mem hl)
      rw [← e.1] at hk
      have hsa := ((iha hΔ ht.2).1 _ rfl kA).small hk
      have hB : Term.inst 0 a B = B := by
        rw [e.2]
        exact inst_kinds (fun k hk => hK.kinds _ _ (List.mem_of_mem_drop hk)) a 0
      have hap : Term.app ((Term.sym (.type m l)).apply as) a = (Term.sym (.type m l)).apply (as ++ [a]) := by
        simp [Term.apply]
      have hall : ∀ x ∈ as ++ [a], SmallType K Γ x := by
        intro x hx
        rcases List.mem_append.1 hx with hx | hx
        · exact hs x hx
        · rw [List.mem_singleton.1 hx]; exact hsa
      rw [hB, hap]
      by_cases hl' : as.length + 1 = (K.paramKinds (m, l)).length
      · refine .inl ⟨?_, .data (by simp [hl']) hall⟩
        rw [e.2, hl', List.drop_length]; rfl
      · exact .inr ⟨m, l, as ++ [a], rfl, hall, by simp; omega, by rw [e.2]; simp⟩
  | lam hA hb kA kB ihA ihb =>
    intro hΔ ht
    refine ⟨fun T' e hT => ?_, fun e => by cases e⟩
    cases e
    simp only [endsKind, endsKind_ren, kB] at hT; cases hT
  | all hA hb ihA ihb =>
    intro hΔ ht
    refine ⟨fun T' e hT => ?_, fun e => by cases e⟩
    cases e
    cases hT
  | ex hA hb ihA ihb =>
    intro hΔ ht
    refine ⟨fun T' e hT => ?_, fun e => by cases e⟩
    cases e
    cases hT
  | pi hA hB ihA ihB =>
    intro hΔ ht
    simp only [noKinds, Bool.and_eq_true] at ht
    refine ⟨fun T' e hT => ?_, fun e => by cases e⟩
    cases e
    exact .inl ⟨rfl, .pi (((ihA hΔ ht.1).1 _ rfl rfl).small rfl)
      (((ihB (noKinds_cons hΔ ht.1) ht.2).1 _ rfl rfl).small rfl)⟩
  | @inst Δ m l c h1 h2 =>
    intro hΔ ht
    refine ⟨fun T' e hT => ?_, fun e => by cases e⟩
    cases e
    exact .inl ⟨rfl, SmallType.data (as := []) (by rw [h2]) (by simp)⟩
  | scheme φ hm hc hcl hφ h ihφ ih =>
    intro hΔ ht
    refine ⟨fun T' e hT => ?_, fun e => by cases e⟩
    cases e
    exact .inl ⟨rfl, ((ih hΔ ht).1 _ rfl rfl).small rfl⟩
  | extend h1 h2 ih =>
    intro hΔ ht
    refine ⟨fun T' e hT => ?_, fun e => by cases e⟩
    cases e
    exact .inl ⟨rfl, ((ih hΔ ht).1 _ rfl rfl).small rfl⟩
  | forget h1 ih =>
    intro hΔ ht
    refine ⟨fun T' e hT => ?_, fun e => by cases e⟩
    cases e
    exact .inl ⟨rfl, ((ih hΔ ht).1 _ rfl rfl).small rfl⟩
  | tyType0 => intro hΔ ht; cases ht
  | tyClass => intro hΔ ht; cases ht
  | tyOf h ih =>
    intro hΔ ht
    exact ⟨fun T' e => (nomatch e), fun _ => ((ih hΔ ht).1 _ rfl rfl).small rfl⟩
  | tyPi hA hB ihA ihB =>
    intro hΔ ht
    simp only [noKinds, Bool.and_eq_true] at ht
    exact ⟨fun T' e => (nomatch e), fun _ => .pi ((ihA hΔ ht.1).2 rfl) ((ihB (noKinds_cons hΔ ht.1) ht.2).2 rfl)⟩

/-- The types of values ask for types first, and for no more than there are arguments. -/
theorem STyped.value_type {K : KCtx} (hK : Prenex K) {N : Names} {Γ : LCtx} (hΓ : SimpleVars Γ) {Δ : BCtx} {t : Term}
    {J : Jdg} (h : STyped K Γ Δ t J) : (∀ i T, Δ i = some T → noKinds T = true) → ∀ n T, Quotable K N n t →
    J = .ty T → endsKind T = false → prenex T = true ∧ kindArity T ≤ n := by
  have hno : ∀ {T : Term} {n : Nat}, noKinds T = true → prenex T = true ∧ kindArity T ≤ n :=
    fun h => ⟨noKinds_prenex h, by rw [noKinds_kindArity h]; exact Nat.zero_le _⟩
  induction h with
  | fvar h1 h2 =>
    intro hΔ n T hq e hT
    cases e
    rcases hΓ _ _ h1 with hk | hk
    · rw [endsKind_of_isKind hk] at hT; cases hT
    · exact hno hk
  | bvar h1 =>
    intro hΔ n T hq e hT
    cases e
    exact hno (hΔ _ _ h1)
  | sym h1 h2 h3 =>
    intro hΔ n T hq e hT
    cases e
    exact ⟨hK.value _ _ h2 hT, hq.2.2 _ h2⟩
  | @appVal Δ f a A B hf ha kA kB ihf iha =>
    intro hΔ n T hq e hT
    cases e
    have := ihf hΔ (n + 1) _ hq.1 rfl (by simp only [endsKind, endsKind_ren, kB])
    simp only [prenex, isKind_of_endsKind_false kA, Bool.false_and, Bool.false_or, Bool.and_eq_true,
      noKinds_ren] at this
    exact hno this.1.2
  | @appTy Δ f a A B hf ha kA ihf iha =>
    intro hΔ n T hq e hT
    cases e
    have hna := hq.2.noKinds
    rw [endsKind_inst_noKinds hna] at hT
    have := ihf hΔ (n + 1) _ hq.1 rfl hT
    have hA : noKinds A = false := endsKind_noKinds kA
    simp only [prenex, hA, Bool.false_and, Bool.or_false, Bool.and_eq_true] at this
    have hi := prenex_inst hna B 0 this.1.2
    refine ⟨hi.1, ?_⟩
    have h2 := this.2
    simp only [kindArity, this.1.1, if_true] at h2
    rw [hi.2]; omega
  | @lam Δ A body B hA hb kA kB ihA ihb =>
    intro hΔ n T hq e hT
    cases e
    have hA' := hq.1.noKinds
    have := ihb (noKinds_cons hΔ hA') 0 _ hq.2 rfl (by rw [endsKind_ren]; exact kB)
    have hB := prenex_noKinds this.1 (by omega)
    exact hno (by simp only [noKinds, hA', hB, Bool.and_self])
  | all hA hb ihA ihb => intro hΔ n T hq e hT; cases e; exact hno rfl
  | ex hA hb ihA ihb => intro hΔ n T hq e hT; cases e; exact hno rfl
  | pi hA hB ihA ihB => intro hΔ n T hq e hT; cases e; cases hT
  | inst h1 h2 => intro hΔ n T hq e hT; cases e; cases hT
  | scheme φ hm hc hcl hφ h ihφ ih => intro hΔ n T hq e hT; cases e; cases hT
  | extend h1 h2 ih => intro hΔ n T hq e hT; cases e; cases hT
  | forget h1 ih => intro hΔ n T hq e hT; cases e; cases hT
  | tyType0 => intro hΔ n T hq e; cases e
  | tyClass => intro hΔ n T hq e; cases e
  | tyOf h ih => intro hΔ n T hq e; cases e
  | tyPi hA hB ihA ihB => intro hΔ n T hq e; cases e

theorem inst_apply (d : Nat) (a : Term) : ∀ (as : List Term) (f : Term),
    Term.inst d a (f.apply as) = (Term.inst d a f).apply (as.map (Term.inst d a))
  | [], _ => rfl
  | b :: as, f => inst_apply d a as (.app f b)

theorem SmallType.inst {K : KCtx} {Γ : LCtx} {T : Term} (h : SmallType K Γ T) (a : Term) : ∀ d,
    Term.inst d a T = T := by
  induction h with
  | bool => intro d; rfl
  | var _ _ => intro d; rfl
  | data hl has ih =>
    intro d
    rw [inst_apply]
    congr 1
    exact (List.map_congr_left fun x hx => ih x hx d).trans (List.map_id _)
  | pi _ _ ihA ihB => intro d; simp only [Term.inst, ihA, ihB]

theorem SmallType.eval {K : KCtx} {Γ : LCtx} {T : Term} (h : SmallType K Γ T) (M : Interp.{u}) (ρ : Nat → M.D) :
    ∀ β γ : Nat → M.D, Acorn.eval M ρ β T = Acorn.eval M ρ γ T := by
  induction h with
  | bool => intro β γ; rfl
  | var _ _ => intro β γ; rfl
  | data hl has ih =>
    intro β γ
    rw [Elab.eval_apply, Elab.eval_apply]
    have := List.map_congr_left fun x hx => ih x hx β γ
    rw [this]
    rfl
  | pi _ _ ihA ihB =>
    intro β γ
    simp only [Acorn.eval]
    rw [ihA β γ]
    congr 1
    funext x
    exact ihB _ _

theorem SmallType.push {K : KCtx} {Γ : LCtx} {T A : Term} (h : SmallType K Γ T) : SmallType K (Γ.pushTy A) T := by
  induction h with
  | bool => exact .bool
  | var h1 h2 => exact .var (get_pushTy h1) h2
  | data hl _ ih => exact .data hl ih
  | pi _ _ ihA ihB => exact .pi ihA ihB

theorem SmallType.noKinds {K : KCtx} {Γ : LCtx} {T : Term} (h : SmallType K Γ T) : Spec.noKinds T = true := by
  induction h with
  | bool => rfl
  | var _ _ => rfl
  | @data m l as hl _ ih =>
    have : ∀ (as : List Term) (f : Term), Spec.noKinds f = true → (∀ a ∈ as, Spec.noKinds a = true) →
        Spec.noKinds (f.apply as) = true := by
      intro as
      induction as with
      | nil => intro f hf _; exact hf
      | cons b as ih =>
        intro f hf ha
        refine ih (.app f b) ?_ fun x hx => ha x (by simp [hx])
        simp only [Spec.noKinds, hf, ha b (by simp), Bool.and_self]
    exact this as _ rfl ih
  | pi _ _ ihA ihB => simp only [Spec.noKinds, ihA, ihB, Bool.and_self]

theorem SmallType.isTypeTerm {K : KCtx} {Γ : LCtx} {T : Term} (h : SmallType K Γ T) : Elab.isTypeTerm Γ T = true := by
  induction h with
  | bool => rfl
  | @var i T h1 h2 =>
    simp only [Elab.isTypeTerm, h1, Option.any_some]
    match T, h2 with
    | .sym .type0, _ => rfl
    | .sym (.typeclass _ _), _ => rfl
  | @data m l as hl _ ih =>
    have : ∀ (as : List Term) (f : Term), Elab.isTypeTerm Γ f = true → (∀ a ∈ as, Elab.isTypeTerm Γ a = true) →
        Elab.isTypeTerm Γ (f.apply as) = true := by
      intro as
      induction as with
      | nil => intro f hf _; exact hf
      | cons b as ih =>
        intro f hf ha
        refine ih (.app f b) ?_ fun x hx => ha x (by simp [hx])
        simp only [Elab.isTypeTerm, hf, ha b (by simp), Bool.and_self]
    exact this as _ rfl ih
  | pi _ _ ihA ihB => rfl

theorem noKinds_typeParam {T : Term} (h : noKinds T = true) : T.isTypeParamKind = false := by
  match T, h with
  | .sym s, h => cases s <;> simp_all [noKinds, isKindSym, Term.isTypeParamKind, Term.isType0, Term.asTypeclass]
  | .fvar _, _ => rfl
  | .bvar _, _ => rfl
  | .app _ _, _ => rfl
  | .bind _ _ _, _ => rfl

theorem noKinds_isKindTerm : ∀ {T : Term}, noKinds T = true → isKindTerm T = false
  | .sym s, h => by cases s <;> simp_all [noKinds, isKindSym, isKindTerm]
  | .fvar _, _ => rfl
  | .bvar _, _ => rfl
  | .app _ _, _ => rfl
  | .bind .pi A B, h => by
    simp only [noKinds, Bool.and_eq_true] at h
    simp only [isKindTerm, noKinds_isKindTerm h.1, Bool.false_and]
  | .bind .lam _ _, _ => rfl
  | .bind .all _ _, _ => rfl
  | .bind .ex _ _, _ => rfl

theorem isKind_isKindTerm {T : Term} (h : isKind T = true) : isKindTerm T = true := by
  match T, h with
  | .sym .type0, _ => rfl
  | .sym (.typeclass _ _), _ => rfl

theorem isKind_typeParam {T : Term} : T.isTypeParamKind = isKind T := by
  match T with
  | .sym s => cases s <;> rfl
  | .fvar _ => rfl
  | .bvar _ => rfl
  | .app _ _ => rfl
  | .bind _ _ _ => rfl

theorem spineHead_apply (h : Atom) (as : List Term) : ((Term.atom h).apply as).spineHead = .atom h := by
  have : ∀ (as : List Term) (f : Term), (f.apply as).spineHead = f.spineHead := by
    intro as
    induction as with
    | nil => intro f; rfl
    | cons b as ih => intro f; exact (ih (.app f b)).trans rfl
  exact this as _

theorem SmallType.pi_inv {K : KCtx} {Γ : LCtx} {A B : Term} (h : SmallType K Γ (.pi A B)) :
    SmallType K Γ A ∧ SmallType K Γ B := by
  generalize ht : Term.pi A B = t at h
  cases h with
  | bool => cases ht
  | var _ _ => cases ht
  | data _ _ =>
    have := congrArg Term.spineHead ht
    rw [spineHead_apply] at this
    cases this
  | pi hA hB => cases ht; exact ⟨hA, hB⟩

variable {K : KCtx} {M : Interp.{u}} (h : Lawful K M) (L : Tables) {N : Names} {θ : String → M.D}
  (I : Inverse K M L N θ) {tn : Nat → Option String} {Γ : LCtx} {ρ : Nat → M.D}
  (hθ : ∀ i T, Γ.get i = some T → isKind T = true → θ (varName tn i) = ρ i)

include I hθ in
theorem quoteType_spec : ∀ k : Nat,
    (∀ n T a β, SmallType K Γ T → quoteType K N tn k n T = some a → (kernelFrame h L).ty θ a = eval M ρ β T) ∧
    (∀ n T as r β, SmallType K Γ T → quotePi K N tn k n T = some (as, r) →
      (kernelFrame h L).fnN ((kernelFrame h L).tys θ as) ((kernelFrame h L).ty θ r) = eval M ρ β T) ∧
    (∀ n Ts as β, (∀ T ∈ Ts, SmallType K Γ T) → quoteTypes K N tn k n Ts = some as →
      (kernelFrame h L).tys θ as = Ts.map (eval M ρ β)) := by
  intro k
  induction k with
  | zero =>
    refine ⟨?_, ?_, ?_⟩
    · intro n T a β _ e; cases e
    · intro n T as r β _ e; cases e
    · intro n Ts as β _ e; cases e
  | succ k ih =>
    obtain ⟨ihT, ihP, ihTs⟩ := ih
    refine ⟨?_, ?_, ?_⟩
    · intro n T a β hT e
      cases hT with
      | bool => cases e; rfl
      | var h1 h2 => cases e; exact hθ _ _ h1 h2
      | @data m l as hl has =>
        rcases List.eq_nil_or_concat as with rfl | ⟨bs, b, rfl⟩
        · rcases I.ground _ _ e with ⟨d, rfl, hd⟩ | ⟨nm, rfl, hn⟩
          · simp only [Frame.ty, Frame.tys, hd]; rfl
          · exact hn
        · have hap : (Term.sym (.type m l)).apply (bs ++ [b]) = .app ((Term.sym (.type m l)).apply bs) b := by
            simp [Term.apply]
          rw [List.concat_eq_append] at *
          have h1 := spineHead_apply (.sym (.type m l)) (bs ++ [b])
          have h2 := args_apply_atom (.sym (.type m l)) (bs ++ [b])
          rw [hap] at e
          simp only [quoteType] at e
          rw [← hap] at e
          simp only [h1, h2, hl, if_true, Option.bind_eq_bind, Option.pure_def] at e
          obtain ⟨base, hb, e⟩ := Option.bind_eq_some_iff.1 e
          obtain ⟨ts, hts, e⟩ := Option.bind_eq_some_iff.1 e
          have h3 := ihTs _ _ _ β has hts
          rcases I.ground _ _ hb with ⟨d, rfl, hd⟩ | ⟨nm, rfl, hn⟩
          · cases e
            rw [Elab.eval_apply, ← h3]
            simp only [Frame.ty, hd]
            rfl
          · cases e
      | @pi A B hA hB =>
        simp only [quoteType, Option.bind_eq_bind, Option.pure_def] at e
        obtain ⟨⟨as, r⟩, h1, e⟩ := Option.bind_eq_some_iff.1 e
        have := ihP _ _ _ _ β (.pi hA hB) h1
        cases e
        rw [← this]
        cases as <;> rfl
    · intro n T as r β hT e
      by_cases hp : ∃ A B, T = .pi A B
      · obtain ⟨A, B, rfl⟩ := hp
        obtain ⟨hA, hB⟩ := hT.pi_inv
        simp only [quotePi, noKinds_typeParam hA.noKinds, Bool.false_eq_true, if_false, Option.bind_eq_bind,
          Option.pure_def, openBound_eq, Option.bind_some, hB.inst] at e
        obtain ⟨t, h1', e⟩ := Option.bind_eq_some_iff.1 e
        obtain ⟨⟨bs, r'⟩, h2, e⟩ := Option.bind_eq_some_iff.1 e
        cases e
        have e1 := ihT _ _ _ β hA h1'
        have e2 := ihP _ _ _ _ β hB h2
        simp only [List.cons_append, List.nil_append, Frame.tys, Frame.fnN, e1, e2, eval]
        show M.bind .pi _ _ = M.bind .pi _ _
        congr 1
        funext x
        exact hB.eval M ρ _ _
      · have hq : quotePi K N tn (k + 1) n T = (quoteType K N tn k n T).bind fun r => some ([], r) := by
          simp only [quotePi, Option.bind_eq_bind, Option.pure_def]
          split
          · exact absurd ⟨_, _, rfl⟩ hp
          · rfl
        rw [hq] at e
        obtain ⟨r', h1, e⟩ := Option.bind_eq_some_iff.1 e
        cases e
        exact ihT _ _ _ β hT h1
    · intro n Ts as β hT e
      cases Ts with
      | nil => cases e; rfl
      | cons T Ts =>
        simp only [quoteTypes, Option.bind_eq_bind, Option.pure_def] at e
        obtain ⟨t, h1, e⟩ := Option.bind_eq_some_iff.1 e
        obtain ⟨ts, h2, e⟩ := Option.bind_eq_some_iff.1 e
        cases e
        simp only [Frame.tys, List.map_cons, ihT _ _ _ β (hT T (by simp)) h1,
          ihTs _ _ _ β (fun T' hT' => hT T' (by simp [hT'])) h2]

end Spec
end Acorn
