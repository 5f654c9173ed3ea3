/-
The search for a witness finds elements.
-/
import Verif.Spec.Inhabited
import Verif.Lemmas.PlainTypes
import Verif.Lemmas.EGraphSoundApi
namespace Acorn
open Spec Term

universe u

variable {K : KCtx} {Γ : LCtx}

/-! ### Heads of types -/

theorem head_fun {Δ : BCtx} {t : Term} : ∀ {A B : Term}, STyped K Γ Δ t (.ty (.pi A B)) →
    ∃ A' B', STyped K Γ Δ t.spineHead (.ty (.pi A' B')) := by
  induction t with
  | atom a => intro A B h; exact ⟨A, B, h⟩
  | app f a ihf _ =>
    intro A B h
    obtain ⟨A', B', hf⟩ := h.app_typed_fun
    exact ihf hf
  | bind b X Y _ _ => intro A B h; exact ⟨A, B, h⟩

/-- A term whose head is a type, has no arguments. -/
theorem no_args {Δ : BCtx} {t h k : Term} {J : Jdg} (ht : STyped K Γ Δ t J) (e : t.spineHead = h)
    (hh : STyped K Γ Δ h (.ty k)) (hk : isKind k = true) : t = h := by
  cases t with
  | atom a => exact e
  | bind b X Y => exact e
  | app f a =>
    obtain ⟨A, B, hf⟩ := ht.app_typed_fun
    obtain ⟨A', B', h1⟩ := head_fun hf
    have : f.spineHead = h := e
    rw [this] at h1
    rcases Typed.unique hh.typed h1.typed with e' | ⟨_, e'⟩
    · subst e'; cases hk
    · cases e'

theorem pi_not_fun {Δ : BCtx} {X Y A B : Term} (h : STyped K Γ Δ (.pi X Y) (.ty (.pi A B))) : False := by
  generalize ht : Term.pi X Y = t at h
  generalize hJ : Jdg.ty (.pi A B) = J at h
  cases h <;> first | (cases hJ; done) | (cases ht; done)

/-- The head of a type which is not a function type is an atom. -/
theorem head_atom {Δ : BCtx} {t : Term} : ∀ {J : Jdg}, STyped K Γ Δ t J → Typelike J → t.splitPi = none →
    t.spineHead = .atom t.headAtom := by
  induction t with
  | atom a => intro J h hJ e; rfl
  | app f a ihf _ =>
    intro J h hJ _
    obtain ⟨⟨J1, h1, h2⟩, _⟩ := h.app_typelike hJ
    refine ihf h1 h2 ?_
    match f with
    | .bind .pi X Y =>
      obtain ⟨A, B, hf⟩ := h.app_typed_fun
      exact (pi_not_fun hf).elim
    | .atom _ => rfl
    | .app _ _ => rfl
    | .bind .lam _ _ => rfl
    | .bind .all _ _ => rfl
    | .bind .ex _ _ => rfl
  | bind b A B _ _ =>
    intro J h hJ e
    cases b with
    | pi => cases e
    | lam => exact (h.lam_not_typelike hJ).elim
    | all => exact (h.quant_not_typelike (.inl rfl) hJ).elim
    | ex => exact (h.quant_not_typelike (.inr rfl) hJ).elim

/-! ### Arguments of type constructors -/

/-- A chain of kinds. -/
def kindChain (ks : List Term) : Term := ks.foldr Term.pi .type0

theorem kind_ground {k : Term} (h : isKind k = true) : k.Ground := by
  cases k with
  | atom a =>
    cases a with
    | sym s => exact ⟨rfl, fun _ => rfl⟩
    | fvar i => cases h
    | bvar i => cases h
  | app f a => cases h
  | bind b A B => cases h

theorem kindChain_closed : ∀ {ks : List Term}, (∀ k ∈ ks, isKind k = true) → ∀ d,
    escapesAt d (kindChain ks) = false ∧ ∀ i, (kindChain ks).hasVar i = false := by
  intro ks
  induction ks with
  | nil => intro _ d; exact ⟨rfl, fun _ => rfl⟩
  | cons k ks ih =>
    intro h d
    have hk := kind_ground (h k (by simp))
    obtain ⟨h1, h2⟩ := ih (fun k hk => h k (by simp [hk])) (d + 1)
    refine ⟨?_, fun i => ?_⟩
    · show escapesAt d (.bind .pi k (kindChain ks)) = false
      simp only [escapesAt, Bool.or_eq_false_iff]
      exact ⟨escapesAt_mono _ 0 d (by omega) hk.1, h1⟩
    · show (Term.bind .pi k (kindChain ks)).hasVar i = false
      have := hk.2 i
      have := h2 i
      simp_all [Term.hasVar, atoms]

theorem inst_closed {a t : Term} (h : t.escapes = false) : Term.inst 0 a t = t := by
  rw [inst_zero_eq, sub_closed _ _ bid t h, sub_id]

/-- The arguments of a type constructor have the kinds of its parameters. -/
theorem args_kinds (hP : TypeParams K) {m l : Nat} {t : Term} : ∀ {J : Jdg}, STyped K Γ BCtx.nil t J →
    t.spineHead = .sym (.type m l) →
    STyped K Γ BCtx.nil t (.ty (kindChain ((K.paramKinds (m, l)).drop t.args.length))) ∧
    ∀ (j : Nat) (a : Term), t.args[j]? = some a → ∃ k, (K.paramKinds (m, l))[j]? = some k ∧ STyped K Γ BCtx.nil a (.ty k) := by
  induction t with
  | atom a =>
    intro J h e
    cases e
    refine ⟨?_, fun j a hj => by simp [args] at hj⟩
    have hc := kindChain_closed (hP.kinds (m, l))
    refine STyped.sym rfl rfl ⟨(hc 0).1, (hc 0).2⟩
  | bind b A B _ _ => intro J h e; cases e
  | app f a ihf _ =>
    intro J h e
    obtain ⟨A, B, hf⟩ := h.app_typed_fun
    obtain ⟨h1, h2⟩ := ihf hf e
    cases hd : (K.paramKinds (m, l)).drop f.args.length with
    | nil =>
      rw [hd] at h1
      rcases Typed.unique h1.typed hf.typed with e | ⟨_, e⟩ <;> cases e
    | cons k ks =>
      rw [hd] at h1
      have hk : isKind k = true := hP.kinds _ k (List.mem_of_mem_drop (by rw [hd]; simp))
      have hks : ∀ k ∈ ks, isKind k = true := fun k hk =>
        hP.kinds _ k (List.mem_of_mem_drop (i := f.args.length) (by rw [hd]; simp [hk]))
      have ha := (h.app_fun h1).1
      have hlen : (Term.app f a).args.length = f.args.length + 1 := by simp [args]
      have hget : (K.paramKinds (m, l))[f.args.length]? = some k := by
        have := congrArg (·[0]?) hd
        simpa [List.getElem?_drop] using this
      have hd' : (K.paramKinds (m, l)).drop (f.args.length + 1) = ks := by
        have := congrArg (List.drop 1) hd
        simpa [List.drop_drop] using this
      refine ⟨?_, fun j b hj => ?_⟩
      · rw [hlen, hd']
        have := STyped.appTy h1 ha (endsKind_of_isKind hk)
        have hcl : escapes (kindChain ks) = false := (kindChain_closed hks 0).1
        rwa [show List.foldr Term.pi Term.type0 ks = kindChain ks from rfl, inst_closed hcl] at this
      · simp only [args, List.getElem?_append] at hj
        split at hj
        · exact h2 j b hj
        · rename_i hlt
          have : j = f.args.length := by
            by_cases e : j - f.args.length = 0
            · omega
            · rw [List.getElem?_eq_none (by simp; omega)] at hj; cases hj
          subst this
          simp at hj
          subst hj
          exact ⟨k, hget, ha⟩

/-! ### Substitution in types of providers -/

/-- A term without type parameters. -/
def Plainish (t : Term) : Prop := endsKind t = false ∧ ParamsOk t ∧ leadKinds t = []

theorem paramsOk_ren {t : Term} : ∀ {r : Nat → Nat}, ParamsOk (Term.ren r t) ↔ ParamsOk t := by
  induction t with
  | atom a => intro r; cases a <;> rfl
  | app f a _ _ => intro r; rfl
  | bind b A B _ ih =>
    intro r
    cases b with
    | pi => simp only [Term.ren, ParamsOk, isKind_ren, endsKind_ren, ih]
    | _ => rfl

theorem leadKinds_ren_nil {t : Term} {r : Nat → Nat} (h : leadKinds t = []) : leadKinds (Term.ren r t) = [] := by
  cases t with
  | atom a => cases a <;> rfl
  | app f a => rfl
  | bind b A B =>
    cases b with
    | pi =>
      simp only [leadKinds, Term.ren, isKind_ren] at h ⊢
      split at h
      · cases h
      · rename_i h'; simp [h']
    | _ => rfl

theorem Plainish.ren {t : Term} (h : Plainish t) {r : Nat → Nat} : Plainish (Term.ren r t) :=
  ⟨by rw [endsKind_ren]; exact h.1, paramsOk_ren.2 h.2.1, leadKinds_ren_nil h.2.2⟩

theorem Plainish.ups {σ : Nat → Term} (h : ∀ i, Plainish (σ i)) : ∀ i, Plainish (Term.ups σ i) := by
  intro i
  cases i with
  | zero => exact ⟨rfl, trivial, rfl⟩
  | succ i => exact (h i).ren

theorem kind_sub {A : Term} {φ σ : Nat → Term} (h : isKind A = true) : Term.sub φ σ A = A := by
  cases A with
  | atom a =>
    cases a with
    | sym s => rfl
    | fvar i => cases h
    | bvar i => cases h
  | app f a => cases h
  | bind b A B => cases h

theorem isKind_sub {A : Term} {φ σ : Nat → Term} (hφ : ∀ i, Plainish (φ i)) (hσ : ∀ i, Plainish (σ i)) :
    isKind (Term.sub φ σ A) = isKind A := by
  cases h : isKind A with
  | true => rw [kind_sub h, h]
  | false =>
    cases A with
    | atom a =>
      cases a with
      | sym s => exact h
      | fvar i => exact isKind_of_endsKind_false (hφ i).1
      | bvar i => exact isKind_of_endsKind_false (hσ i).1
    | app f a => rfl
    | bind b A B => rfl

theorem params_sub {T : Term} : ∀ {φ σ : Nat → Term}, (∀ i, Plainish (φ i)) → (∀ i, Plainish (σ i)) →
    (ParamsOk T → ParamsOk (Term.sub φ σ T)) ∧ leadKinds (Term.sub φ σ T) = leadKinds T := by
  induction T with
  | atom a =>
    intro φ σ hφ hσ
    cases a with
    | sym s => exact ⟨id, rfl⟩
    | fvar i => exact ⟨fun _ => (hφ i).2.1, (hφ i).2.2⟩
    | bvar i => exact ⟨fun _ => (hσ i).2.1, (hσ i).2.2⟩
  | app f a _ _ => intro φ σ _ _; exact ⟨id, rfl⟩
  | bind b A B _ ih =>
    intro φ σ hφ hσ
    cases b with
    | pi =>
      have hk := isKind_sub (A := A) hφ hσ
      obtain ⟨h1, h2⟩ := ih (φ := lift φ) (σ := Term.ups σ) (fun i => (hφ i).ren) (Plainish.ups hσ)
      refine ⟨fun h => ⟨?_, h1 h.2⟩, ?_⟩
      · rcases h.1 with h | h
        · exact .inl (by rw [hk]; exact h)
        · exact .inr (endsKind_sub_false _ _ (fun i => (hφ i).1) (fun i => (hσ i).1) h)
      · simp only [leadKinds, Term.sub, hk, h2]
        split
        · rename_i h; rw [kind_sub h]
        · rfl
    | _ => exact ⟨id, rfl⟩

theorem params_inst {a T : Term} (ha : Plainish a) :
    (ParamsOk T → ParamsOk (Term.inst 0 a T)) ∧ leadKinds (Term.inst 0 a T) = leadKinds T := by
  rw [inst_zero_eq]
  refine params_sub (fun i => ⟨rfl, trivial, rfl⟩) fun i => ?_
  cases i with
  | zero => exact ha
  | succ i => exact ⟨rfl, trivial, rfl⟩

theorem typed_pi_parts {Δ : BCtx} {A B T : Term} (h : STyped K Γ Δ (.pi A B) (.ty T)) :
    STyped K Γ Δ A (.ty .type0) ∧ STyped K Γ (BCtx.cons A Δ) B (.ty .type0) := by
  generalize ht : Term.pi A B = t at h
  generalize hJ : Jdg.ty T = J at h
  induction h generalizing T with
  | pi h1 h2 => cases ht; exact ⟨h1, h2⟩
  | tyPi h1 h2 => cases hJ
  | scheme φ hm hc hcl hφ h0 ih iht => exact iht ht rfl
  | extend _ _ ih => exact ih ht rfl
  | forget _ ih => exact ih ht rfl
  | tyOf _ ih => cases hJ
  | _ => cases ht

theorem typed_plainish {t : Term} : ∀ {Δ : BCtx} {T : Term}, STyped K Γ Δ t (.ty T) → Plainish t := by
  induction t with
  | atom a =>
    intro Δ T h
    refine ⟨h.not_endsKind _ rfl, ?_, ?_⟩
    · cases a <;> exact trivial
    · cases a <;> rfl
  | app f a _ _ => intro Δ T h; exact ⟨rfl, trivial, rfl⟩
  | bind b A B _ ih =>
    intro Δ T h
    cases b with
    | pi =>
      obtain ⟨h1, h2⟩ := typed_pi_parts h
      have k := h1.not_endsKind _ rfl
      refine ⟨h.not_endsKind _ rfl, ⟨.inr k, (ih h2).2.1⟩, ?_⟩
      simp [leadKinds, isKind_of_endsKind_false k]
    | _ => exact ⟨rfl, trivial, rfl⟩

/-! ### The search -/

variable {M : Interp.{u}} {ρ : Nat → M.D}

theorem denotes_app (L : Lawful K M) {w a A B : Term} (hw : Denotes M ρ w (.pi A B)) (ha : Denotes M ρ a A) :
    Denotes M ρ (.app w a) (Term.inst 0 a B) := by
  intro β
  rw [eval_inst_zero]
  exact ((L.mem_pi _ _ _).1 (hw β)).2 _ (ha β)

theorem denotes_lam (L : Lawful K M) {A t B : Term}
    (h : ∀ β d, M.mem d (eval M ρ β A) → M.mem (eval M ρ (push d β) t) (eval M ρ (push d β) B)) :
    Denotes M ρ (.lam A t) (.pi A B) := by
  intro β
  simp only [eval]
  rw [L.mem_pi]
  refine ⟨L.bind_congr _ _ _ _ fun a ha => L.beta _ _ _ ha, fun a ha => ?_⟩
  rw [L.beta _ _ _ ha]
  exact h β a ha

theorem Spec.STyped.denotes (L : Lawful K M) (hρ : Models M Γ ρ) {w T : Term} (h : SHasType K Γ w T) :
    Denotes M ρ w T := fun β => h.hasType.mem L hρ β

theorem isTypeParamKind_eq {t : Term} : t.isTypeParamKind = isKind t := by
  cases t with
  | atom a =>
    cases a with
    | sym s => cases s <;> rfl
    | _ => rfl
  | _ => rfl

/-- A provider on the way: its value, and its type is fine. -/
structure Partway (K : KCtx) (Γ : LCtx) (M : Interp.{u}) (ρ : Nat → M.D) (w ty : Term) : Prop where
  val : Denotes M ρ w ty
  isTy : STyped K Γ BCtx.nil ty .isTy
  params : ParamsOk ty

theorem applyTypeArgs_sound (L : Lawful K M) (hρ : Models M Γ ρ) : ∀ {as : List Term} {w ty w' ty' : Term},
    Partway K Γ M ρ w ty →
    (∀ (j : Nat) (a A : Term), as[j]? = some a → (leadKinds ty)[j]? = some A → SHasType K Γ a A) →
    applyTypeArgs as w ty = some (w', ty') → Partway K Γ M ρ w' ty' := by
  intro as
  induction as with
  | nil => intro w ty w' ty' h _ e; cases e; exact h
  | cons a as ih =>
    intro w ty w' ty' h ha e
    simp only [applyTypeArgs] at e
    split at e
    · cases e; exact h
    · rename_i A B hs
      split at e
      · rename_i hk
        rw [isTypeParamKind_eq] at hk
        have : ty = .pi A B := by
          unfold splitPi at hs
          split at hs <;> cases hs; rfl
        subst this
        rw [typeApply_pi] at e
        have hA : SHasType K Γ a A := ha 0 a A rfl (by simp [leadKinds, hk])
        have hp := params_inst (T := B) (typed_plainish hA)
        refine ih ⟨denotes_app L h.val (hA.denotes L hρ), h.isTy.pi_inv.2.2.inst0 hA, hp.1 h.params.2⟩ ?_ e
        intro j b C hb hC
        rw [hp.2] at hC
        exact ha (j + 1) b C hb (by simpa [leadKinds, hk] using hC)
      · cases e; exact h

theorem value_codomain {A B : Term} (h : STyped K Γ BCtx.nil (.pi A B) .isTy) (hA : endsKind A = false) :
    ∃ B', B = Term.ren Nat.succ B' ∧ STyped K Γ BCtx.nil B' .isTy := by
  obtain ⟨_, _, hB⟩ := h.pi_inv
  obtain ⟨B', -, rfl⟩ := ren_shift B 0 (type_no_values hB (.inl rfl) 0 fun U hU => by
    simp only [BCtx.cons, Option.some.injEq] at hU
    subst hU
    rw [endsKind_ren]; exact hA)
  rw [up_zero_one] at hB ⊢
  obtain ⟨J, e, h⟩ := hB.drop
  cases J with
  | ty T => cases e
  | isTy => exact ⟨B', rfl, h⟩

theorem applyValueArgs_sound (L : Lawful K M) {find : Term → Out (Option Term)} {target : Term}
    (hf : ∀ A a, STyped K Γ BCtx.nil A .isTy → endsKind A = false → find A = .done (some a) → Denotes M ρ a A) :
    ∀ {fuel : Nat} {w ty w' : Term}, Partway K Γ M ρ w ty →
    applyValueArgs find target fuel w ty = .done (some w') → Denotes M ρ w' target := by
  intro fuel
  induction fuel with
  | zero => intro w ty w' _ e; cases e
  | succ fuel ih =>
    intro w ty w' h e
    simp only [applyValueArgs] at e
    split at e
    · split at e
      · rename_i e'; cases e; subst e'; exact h.val
      · cases e
    · rename_i A B hs
      have : ty = .pi A B := by
        unfold splitPi at hs
        split at hs <;> cases hs; rfl
      subst this
      split at e
      · cases e
      · rename_i hk
        rw [isTypeParamKind_eq] at hk
        have hA : endsKind A = false := h.params.1.resolve_left hk
        rw [Out.bind_done] at e
        obtain ⟨r, e1, e⟩ := e
        cases r with
        | none => cases e
        | some a =>
          simp only [typeApply_pi] at e
          have ha := hf A a h.isTy.pi_inv.2.1 hA e1
          have hd := denotes_app L h.val ha
          obtain ⟨B', rfl, hB'⟩ := value_codomain h.isTy hA
          rw [inst_up] at e hd
          split at e
          · rename_i e'; cases e; subst e'; exact hd
          · exact ih ⟨hd, hB', paramsOk_ren.1 h.params.2⟩ e

theorem kindsFit_args (hP : TypeParams K) {m l : Nat} {T U : Term} {J : Jdg} (hT : STyped K Γ BCtx.nil T J)
    (e : T.spineHead = .sym (.type m l)) (hU : KindsFit K U (m, l)) (j : Nat) (a A : Term)
    (ha : T.args[j]? = some a) (hA : (leadKinds U)[j]? = some A) : SHasType K Γ a A := by
  obtain ⟨k, hk, h⟩ := (args_kinds hP hT e).2 j a ha
  rcases hU j A k hA hk with rfl | rfl
  · exact h
  · have hk' := hP.kinds _ k (List.mem_of_getElem? hk)
    match k, hk' with
    | .sym .type0, _ => exact h
    | .sym (.typeclass _ _), _ => exact .forget h

theorem Spec.Honest.typed {s : Symbol} {T : Term} (h : Honest K s T) {Γ : LCtx} {Δ : BCtx} :
    STyped K Γ Δ (.sym s) (.ty T) := .sym h.value h.declared h.ground

theorem Spec.Honest.isTy' {s : Symbol} {T : Term} (h : Honest K s T) {Γ : LCtx} : STyped K Γ BCtx.nil T .isTy :=
  h.isTy.weaken fun i T e => by simp [LCtx.get] at e

theorem instantiateWitness_sound (hP : TypeParams K) (L : Lawful K M) (hρ : Models M Γ ρ)
    {find : Term → Out (Option Term)}
    (hf : ∀ A a, STyped K Γ BCtx.nil A .isTy → endsKind A = false → find A = .done (some a) → Denotes M ρ a A)
    {m l : Nat} {T : Term} {J : Jdg} (hT : STyped K Γ BCtx.nil T J) (e : T.spineHead = .sym (.type m l))
    {s : Symbol} {U : Term} (hs : Honest K s U) (hU : KindsFit K U (m, l)) {fuel : Nat} {w : Term}
    (e' : instantiateWitness K find fuel s T = .done (some w)) : Denotes M ρ w T := by
  simp only [instantiateWitness, hs.declared] at e'
  split at e'
  · cases e'
  · rename_i w' ty h
    have := applyTypeArgs_sound L hρ ⟨hs.typed.denotes L hρ, hs.isTy', hs.params⟩
      (fun j a A ha hA => kindsFit_args hP hT e hU j a A ha hA) h
    split at e'
    · rename_i e2; cases e'; subst e2; exact this.val
    · exact applyValueArgs_sound L hf this e'

/-- A provider for a class has an element for each member of the class. -/
theorem classProvider_sound {W : Witnesses} (hW : Truthful K W) (L : Lawful K M) (hρ : Models M Γ ρ) {c : Id2}
    {T : Term} (hT : SHasType K Γ T (.sym (.typeclass c.1 c.2))) {p : Symbol} (e : W.classProvider c = some p) :
    Denotes M ρ (.app (.sym p) T) T := by
  have key : ∀ d : Id2, SHasType K Γ T (.sym (.typeclass d.1 d.2)) → W.cls d = some p →
      Denotes M ρ (.app (.sym p) T) T := fun d h e => by
    have := denotes_app (B := .bvar 0) L ((hW.cls d p e).typed.denotes L hρ) (h.denotes L hρ)
    rwa [show Term.inst 0 T (.bvar 0) = T from up_zero 0 T] at this
  simp only [Witnesses.classProvider, Option.or_eq_some_iff] at e
  rcases e with e | ⟨_, e⟩
  · exact key c hT e
  · obtain ⟨d, hd, e⟩ := List.exists_of_findSome?_eq_some e
    exact key d (.extend hT (hW.bases c d hd)) e

theorem splitPi_some {t A B : Term} (h : t.splitPi = some (A, B)) : t = .pi A B := by
  unfold splitPi at h
  split at h <;> cases h; rfl

theorem findByHead_sound {W : Witnesses} (hP : TypeParams K) (hW : Truthful K W) (L : Lawful K M)
    (hρ : Models M Γ ρ) {find : Term → Out (Option Term)}
    (hf : ∀ A a, STyped K Γ BCtx.nil A .isTy → endsKind A = false → find A = .done (some a) → Denotes M ρ a A)
    {T : Term} (hT : STyped K Γ BCtx.nil T .isTy) (hk : endsKind T = false) (hs : T.splitPi = none) {fuel : Nat}
    {Γ' : Option LCtx} {w : Term} (e : findByHead K W find fuel Γ' T = .done (some w)) : Denotes M ρ w T := by
  have hh := head_atom hT (.inl rfl) hs
  have arb : ∀ m l, T.headAtom = .sym (.type m l) → ∀ w, arbitraryWitness K W (m, l) T = some w → Denotes M ρ w T := by
    intro m l ha w e
    simp only [arbitraryWitness] at e
    split at e
    · cases e
    · rename_i c hc
      simp only [Option.map_eq_some_iff] at e
      obtain ⟨p, ep, rfl⟩ := e
      rw [ha] at hh
      have hp := hP.arbitrary _ _ hc
      have hi : K.isInstanceOf (m, l) c = true := by simp [KCtx.isInstanceOf, hc]
      have : T = .sym (.type m l) := no_args hT hh (.inst (c := c) hi hp) rfl
      subst this
      exact classProvider_sound hW L hρ (.inst hi hp) ep
  have kind : ∀ s, T.headAtom = .sym s → isKindSym s = true → False := by
    intro s ha h
    rw [ha] at hh
    cases T with
    | atom a =>
      cases hh
      rw [show endsKind (.sym s) = isKindSym s from rfl, h] at hk
      cases hk
    | app f a =>
      obtain ⟨A, B, h1⟩ := hT.app_typed_fun
      obtain ⟨A', B', h2⟩ := head_fun h1
      rw [show f.spineHead = .sym s from hh] at h2
      have := h2.not_endsKind _ rfl
      rw [show endsKind (.sym s) = isKindSym s from rfl, h] at this
      cases this
    | bind b A B => cases hh
  unfold findByHead at e
  split at e
  · rename_i ha
    cases e
    rw [ha] at hh
    have : T = .boolTy := no_args (k := .type0) hT hh (.sym rfl rfl ⟨rfl, fun _ => rfl⟩) rfl
    subst this
    exact Spec.STyped.denotes L hρ (.sym rfl rfl ⟨rfl, fun _ => rfl⟩)
  · rename_i ha; exact (kind _ ha rfl).elim
  · rename_i m l ha
    split at e
    · rename_i p hp
      rw [Out.bind_done] at e
      obtain ⟨r, e1, e⟩ := e
      cases r with
      | none => simp only [Out.done.injEq] at e; exact arb m l ha w e
      | some v =>
        cases e
        obtain ⟨U, h1, h2⟩ := hW.ctor _ _ hp
        rw [ha] at hh
        exact instantiateWitness_sound hP L hρ hf hT hh h1 h2 e1
    · cases e2 : arbitraryWitness K W (m, l) T with
      | none => rw [e2] at e; cases e
      | some v => rw [e2] at e; cases e; exact arb m l ha _ e2
  · rename_i m l ha; exact (kind _ ha rfl).elim
  · cases e

theorem hasVar_head {i : Nat} : ∀ (as : List Term) {f : Term}, f.hasVar i = true → (f.apply as).hasVar i = true := by
  intro as
  induction as with
  | nil => intro f h; exact h
  | cons a as ih => intro f h; exact ih (hv_app.2 (.inl h))

/-- A witness found by the search is an element of the type. -/
theorem findInhabitant_sound {W : Witnesses} (hP : TypeParams K) (hW : Truthful K W) (L : Lawful K M)
    (hρ : Models M Γ ρ) {allow : Bool} {Γ' : Option LCtx} (hΓ : SubCtx Γ Γ') : ∀ {fuel : Nat} {seen : List Term}
    {T w : Term}, STyped K Γ BCtx.nil T .isTy → endsKind T = false →
    findInhabitant K W allow Γ' fuel seen T = .done (some w) → Denotes M ρ w T := by
  intro fuel
  induction fuel with
  | zero => intro seen T w _ _ e; cases e
  | succ fuel ih =>
    intro seen T w hT hk e
    unfold findInhabitant at e
    split at e
    · cases e
    split at e
    · rename_i A B hs
      have := splitPi_some hs
      subst this
      split at e
      · cases e
      · rename_i hr
        obtain ⟨B', e1, e2⟩ := ren_shift B 0 (by simpa [refsBound] using hr)
        rw [up_zero_one] at e2
        subst e2
        rw [show shift 1 (-1) (Term.ren Nat.succ B') = some B' from e1] at e
        simp only at e
        have hB : STyped K Γ BCtx.nil B' .isTy := by
          obtain ⟨J, e, h⟩ := hT.pi_inv.2.2.drop
          cases J with
          | ty T => cases e
          | isTy => exact h
        have hkB : endsKind B' = false := by
          have : endsKind (Term.ren Nat.succ B') = false := hk
          rwa [endsKind_ren] at this
        split at e
        · rename_i e3
          cases e
          subst e3
          refine denotes_lam L fun β d hd => ?_
          rw [eval_ren]
          exact hd
        · rw [Out.bind_done] at e
          obtain ⟨r, e1, e⟩ := e
          cases r with
          | none => cases e
          | some v =>
            rw [show (1 : Int) = ((1 : Nat) : Int) from rfl] at e
            simp only [shift_nonneg] at e
            cases e
            refine denotes_lam L fun β d hd => ?_
            rw [up_zero_one, eval_ren, eval_ren]
            exact ih hB hkB e1 β
    · rename_i hs
      have hh := head_atom hT (.inl rfl) hs
      -- a constrained head is the whole type
      have con : ∀ C, headConstraint K Γ' T = some C → isKind C = true → SHasType K Γ T C := by
        intro C hC hkC
        unfold headConstraint at hC
        split at hC
        · rename_i i ha
          rw [ha] at hh
          have hd : ∃ C', Γ.get i = some C' := by
            have : (Γ.get i).isSome = true := hT.declared (by
              rw [← apply_args T, hh]
              exact hasVar_head _ (by simp [Term.hasVar, atoms]))
            exact Option.isSome_iff_exists.1 this
          obtain ⟨C', hC'⟩ := hd
          have := hΓ _ _ hC'
          rw [this] at hC
          cases hC
          have ht : STyped K Γ BCtx.nil (.fvar i) (.ty C) := .fvar hC' (kind_ground hkC).1
          have := no_args hT hh ht hkC
          subst this
          exact ht
        · rename_i i ha
          rw [ha] at hh
          exfalso
          have := (Spec.Typed.closed hT.typed 0 BScoped.nil).1
          rw [← apply_args T, hh] at this
          exact absurd this (by
            suffices ∀ (as : List Term) (f : Term), escapesAt 0 f = true → escapesAt 0 (f.apply as) = true by
              rw [this _ (.bvar i) (by simp [escapesAt])]; decide
            intro as
            induction as with
            | nil => intro f h; exact h
            | cons a as ih => intro f h; exact ih (.app f a) (by simp [escapesAt, h]))
        · rename_i l ha
          rw [ha] at hh
          have ht : STyped K Γ BCtx.nil (.sym (.scoped l)) (.ty C) := .sym rfl hC (kind_ground hkC)
          have := no_args hT hh ht hkC
          subst this
          exact ht
        · cases hC
      have rest : ∀ w, (match elementOf W allow T with
          | some s => Out.done (some (Term.sym s))
          | none => findByHead K W (findInhabitant K W allow Γ' fuel (T :: seen)) fuel Γ' T) = .done (some w) →
          Denotes M ρ w T := by
        intro w e
        split at e
        · rename_i s he
          cases e
          simp only [elementOf, Option.filter_eq_some_iff] at he
          obtain ⟨h1, h2, h3⟩ := hW.elem _ _ he.1
          exact Spec.STyped.denotes L hρ (.sym h2 h1 h3)
        · exact findByHead_sound hP hW L hρ (fun A a hA hkA e => ih hA hkA e) hT hk hs e
      split at e
      · cases e
      · rename_i c hc
        simp only [Option.map_eq_some_iff, Prod.mk.injEq] at hc
        obtain ⟨C, hc, -, hC⟩ := hc
        have : C = .sym (.typeclass c.1 c.2) := by
          unfold asTypeclass at hC
          split at hC <;> cases hC; rfl
        subst this
        simp only [Out.done.injEq, Option.map_eq_some_iff] at e
        obtain ⟨p, e, rfl⟩ := e
        exact classProvider_sound hW L hρ (con _ hc rfl) e
      · exact rest w e

/-! ### The tables -/

theorem codomain_eq (T : Term) : Witnesses.codomain T = result T := by
  induction T with
  | atom a => rfl
  | app f a _ _ => rfl
  | bind b A B _ ih =>
    cases b with
    | pi => exact ih
    | _ => rfl

theorem kind_of_head {A : Term} (h : isKind A = true ∨ ∀ s, A.headAtom = .sym s → isKindSym s = false)
    {s : Symbol} (hs : isKindSym s = true) (e : A.headAtom = .sym s) : A = .sym s := by
  rcases h with h | h
  · cases A with
    | atom a => rw [show (Term.atom a).headAtom = a from rfl] at e; rw [e]
    | app f a => cases h
    | bind b A B => cases h
  · rw [h s e] at hs; cases hs

theorem recordKinds_spec {s : Symbol} {T : Term} : ∀ {depth : Nat} {W : Witnesses} {d : Nat} {cur : Term}
    {W' : Witnesses}, HeadsOk T → W.recordKinds s depth T = (d, cur, W') →
    W'.elem = W.elem ∧ W'.ctor = W.ctor ∧ W'.bases = W.bases ∧ result cur = result T ∧
    ∀ (c : Id2) (p : Symbol), W'.cls c = some p → W.cls c = some p ∨ (p = s ∧ ∃ n, n + 1 = depth + (leadKinds T).length ∧
      Witnesses.outputVar (afterKinds T) = some n ∧ (leadKinds T).getLast? = some (.sym (.typeclass c.1 c.2))) := by
  induction T with
  | atom a =>
    intro depth W d cur W' _ e
    simp only [Witnesses.recordKinds, Prod.mk.injEq] at e
    obtain ⟨rfl, rfl, rfl⟩ := e
    exact ⟨rfl, rfl, rfl, rfl, fun c p h => .inl h⟩
  | app f a _ _ =>
    intro depth W d cur W' _ e
    simp only [Witnesses.recordKinds, Prod.mk.injEq] at e
    obtain ⟨rfl, rfl, rfl⟩ := e
    exact ⟨rfl, rfl, rfl, rfl, fun c p h => .inl h⟩
  | bind b A B _ ih =>
    intro depth W d cur W' hT e
    by_cases hb : b = .pi
    · subst hb
      unfold Witnesses.recordKinds at e
      split at e
      · rename_i hh
        obtain rfl := kind_of_head hT.1 rfl hh
        obtain ⟨h1, h2, h3, h4, h5⟩ := ih hT.2 e
        refine ⟨h1, h2, h3, h4, fun c p h => ?_⟩
        rcases h5 c p h with h | ⟨rfl, n, e1, e2, e3⟩
        · exact .inl h
        · refine .inr ⟨rfl, n, ?_, e2, ?_⟩
          · simp only [leadKinds, isKind, isKindSym, if_true, List.length_cons]; omega
          · simp only [leadKinds, isKind, isKindSym, if_true]
            rw [List.getLast?_cons, e3]; rfl
      · rename_i m l hh
        obtain rfl := kind_of_head hT.1 rfl hh
        obtain ⟨h1, h2, h3, h4, h5⟩ := ih hT.2 e
        have hl : leadKinds (.pi (.sym (.typeclass m l)) B) = .sym (.typeclass m l) :: leadKinds B := by
          simp [leadKinds, isKind, isKindSym]
        have ha : afterKinds (.pi (.sym (.typeclass m l)) B) = afterKinds B := by
          simp [afterKinds, isKind, isKindSym]
        refine ⟨?_, ?_, ?_, h4, fun c p h => ?_⟩
        · rw [h1]; split <;> rfl
        · rw [h2]; split <;> rfl
        · rw [h3]; split <;> rfl
        · rcases h5 c p h with h | ⟨rfl, n, e1, e2, e3⟩
          · split at h
            · rename_i ho
              simp only at h
              split at h
              · rename_i ec
                cases h
                subst ec
                have hB : leadKinds B = [] ∧ afterKinds B = B := by
                  match B, ho.1 with
                  | .fvar _, _ => exact ⟨rfl, rfl⟩
                  | .bvar _, _ => exact ⟨rfl, rfl⟩
                refine .inr ⟨rfl, depth, ?_, ?_, ?_⟩
                · rw [hl, hB.1]; rfl
                · rw [ha, hB.2]; exact ho.1
                · rw [hl, hB.1]; rfl
              · exact .inl h
            · exact .inl h
          · refine .inr ⟨rfl, n, ?_, by rw [ha]; exact e2, ?_⟩
            · rw [hl, List.length_cons]; omega
            · rw [hl, List.getLast?_cons, e3]; rfl
      · simp only [Prod.mk.injEq] at e
        obtain ⟨rfl, rfl, rfl⟩ := e
        exact ⟨rfl, rfl, rfl, rfl, fun c p h => .inl h⟩
    · have : Witnesses.recordKinds s depth (.bind b A B) W = (depth, .bind b A B, W) := by
        cases b <;> first | rfl | exact absurd rfl hb
      rw [this] at e
      simp only [Prod.mk.injEq] at e
      obtain ⟨rfl, rfl, rfl⟩ := e
      exact ⟨rfl, rfl, rfl, rfl, fun c p h => .inl h⟩

theorem one_kind {T A : Term} (h : leadKinds T = [A]) : T = .pi A (afterKinds T) := by
  match T with
  | .bind .pi X Y =>
    simp only [leadKinds] at h
    split at h
    · rename_i hk
      simp only [List.cons.injEq] at h
      obtain ⟨rfl, h⟩ := h
      have : afterKinds Y = Y := by
        match Y with
        | .bind .pi X' Y' =>
          simp only [leadKinds] at h
          split at h
          · cases h
          · rename_i h'; simp [afterKinds, h']
        | .atom _ => rfl
        | .app _ _ => rfl
        | .bind .lam _ _ => rfl
        | .bind .all _ _ => rfl
        | .bind .ex _ _ => rfl
      simp [afterKinds, hk, this]
    · cases h
  | .atom _ => cases h
  | .app _ _ => cases h
  | .bind .lam _ _ => cases h
  | .bind .all _ _ => cases h
  | .bind .ex _ _ => cases h

theorem hasVar_afterKinds {T : Term} {i : Nat} (h : (afterKinds T).hasVar i = true) : T.hasVar i = true := by
  induction T with
  | atom a => exact h
  | app f a _ _ => exact h
  | bind b A B _ ih =>
    cases b with
    | pi =>
      simp only [afterKinds] at h
      split at h
      · exact hv_bind.2 (.inr (ih h))
      · exact h
    | _ => exact h

theorem recordConstructor_truthful {W : Witnesses} (hW : Truthful K W) {s : Symbol} {T : Term} (h : Honest K s T) :
    Truthful K (W.recordConstructor T s) ∧ (W.recordConstructor T s).elem = W.elem := by
  unfold Witnesses.recordConstructor
  rcases e : W.recordKinds s 0 T with ⟨d, cur, W'⟩
  obtain ⟨h1, h2, h3, h4, h5⟩ := recordKinds_spec h.heads e
  have hW' : Truthful K W' := by
    refine ⟨by rw [h1]; exact hW.elem, fun c p hp => ?_, by rw [h2]; exact hW.ctor, by rw [h3]; exact hW.bases⟩
    rcases h5 c p hp with hp | ⟨rfl, n, e1, e2, e3⟩
    · exact hW.cls c p hp
    · have hout : afterKinds T = .bvar n := by
        have hg := h.ground.2
        match ha : afterKinds T, e2 with
        | .fvar i, e2 =>
          have := hg i
          rw [hasVar_afterKinds (by rw [ha]; simp [Term.hasVar, atoms])] at this
          cases this
        | .bvar i, e2 => cases e2; rfl
      cases n with
      | zero =>
        have hl : leadKinds T = [.sym (.typeclass c.1 c.2)] := by
          have : (leadKinds T).length = 1 := by omega
          obtain ⟨A, hA⟩ := List.length_eq_one_iff.1 this
          rw [hA] at e3 ⊢
          simpa using e3
        have := one_kind hl
        rw [hout] at this
        rw [← this]
        exact h
      | succ n => exact absurd hout (h.notFirst (n + 1) (by omega) (by omega))
  simp only
  split
  · split
    · rename_i m l hh
      split
      · refine ⟨⟨hW'.elem, hW'.cls, fun g p hp => ?_, hW'.bases⟩, h1⟩
        simp only at hp
        split at hp
        · rename_i e
          cases hp
          subst e
          rw [codomain_eq, h4] at hh
          exact ⟨T, h, h.fit m l hh⟩
        · exact hW'.ctor g p hp
      · exact ⟨hW', h1⟩
    · exact ⟨hW', h1⟩
  · exact ⟨hW', h1⟩

theorem record_truthful {W : Witnesses} (hW : Truthful K W) {s : Symbol} {T : Term} (h : Honest K s T) :
    Truthful K (W.record T s) := by
  obtain ⟨h1, h2⟩ := recordConstructor_truthful hW h
  unfold Witnesses.record
  simp only
  split
  · refine ⟨fun U p hp => ?_, h1.cls, h1.ctor, h1.bases⟩
    simp only at hp
    split at hp
    · rename_i e; cases hp; subst e; exact ⟨h.declared, h.value, h.ground⟩
    · exact h1.elem U p hp
  · exact h1

theorem recordAll_truthful : ∀ {ds : List (Symbol × Term)} {W : Witnesses}, Truthful K W →
    (∀ d ∈ ds, Honest K d.1 d.2) → Truthful K (W.recordAll ds) := by
  intro ds
  induction ds with
  | nil => intro W h _; exact h
  | cons d ds ih =>
    intro W h hd
    exact ih (record_truthful h (hd d (by simp))) fun d' h' => hd d' (by simp [h'])

theorem empty_truthful {bases : Id2 → List Id2} {inst : Id2 → Option Id2}
    (h : ∀ c d, d ∈ bases c → K.tcExtends c d = true) : Truthful K (.empty bases inst) :=
  ⟨fun T s h => (by cases h), fun c s h => (by cases h), fun g s h => (by cases h), h⟩

end Acorn
