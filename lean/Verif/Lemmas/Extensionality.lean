/-
Extensionality: dropping a common last variable argument.
-/
import Verif.Lemmas.Inference
namespace Acorn
namespace Spec
open Term

universe u

variable {K : KCtx} {Γ : LCtx} {M : Interp.{u}}

/-! ### Types of symbol applications -/

theorem hasVar_inst {a B : Term} {v : Nat} : ∀ {d : Nat}, (Term.inst d a B).hasVar v = true →
    B.hasVar v = true ∨ a.hasVar v = true := by
  induction B with
  | atom x =>
    intro d h
    cases x with
    | bvar i =>
      simp only [Term.inst] at h
      split at h
      · simp [hasVar, atoms] at h
      · split at h
        · rw [up_eq_ren, hasVar_ren] at h; exact Or.inr h
        · simp [hasVar, atoms] at h
    | fvar i => exact Or.inl h
    | sym s => exact Or.inl h
  | app f x ihf ihx =>
    intro d h
    simp only [Term.inst] at h
    rw [hv_app] at h ⊢
    rcases h with h | h
    · rcases ihf h with h | h
      · exact Or.inl (Or.inl h)
      · exact Or.inr h
    · rcases ihx h with h | h
      · exact Or.inl (Or.inr h)
      · exact Or.inr h
  | bind b f x ihf ihx =>
    intro d h
    simp only [Term.inst] at h
    rw [hv_bind] at h ⊢
    rcases h with h | h
    · rcases ihf h with h | h
      · exact Or.inl (Or.inl h)
      · exact Or.inr h
    · rcases ihx h with h | h
      · exact Or.inl (Or.inr h)
      · exact Or.inr h

theorem isKind_noVar {T : Term} {v : Nat} (h : isKind T = true) : T.hasVar v = false := by
  cases T with
  | atom a => cases a <;> simp_all [isKind, hasVar, atoms]
  | app _ _ => simp [isKind] at h
  | bind _ _ _ => simp [isKind] at h

theorem spine_type_vars {s : Symbol} {v : Nat} (as : List Term) : ∀ {T : Term},
    SHasType K Γ ((Term.sym s).apply as) T → T.hasVar v = true →
    ((Term.sym s).apply as).hasVar v = true := by
  induction as using snocRec with
  | nil =>
    intro T h hv
    have key : ∀ {t J}, STyped K Γ BCtx.nil t J → t = .sym s → ∀ T, J = .ty T → T.hasVar v = false := by
      intro t J h
      generalize hΔ : BCtx.nil = Δ at h
      induction h with
      | sym h1 h2 h3 =>
        intro e T eT; cases eT
        exact h3.2 v
      | inst => intro _ T eT; cases eT; rfl
      | scheme => intro _ T eT; cases eT; rfl
      | extend => intro _ T eT; cases eT; rfl
      | forget => intro _ T eT; cases eT; rfl
      | fvar => intro e; cases e
      | bvar => intro e; cases e
      | _ => intro e T eT; first | cases e; done | cases eT
    rw [key h rfl T rfl] at hv; cases hv
  | append_singleton as a ih =>
    intro T h hv
    rw [apply_append] at h ⊢
    show (Term.app ((Term.sym s).apply as) a).hasVar v = true
    change SHasType K Γ (Term.app ((Term.sym s).apply as) a) T at h
    rw [hv_app]
    rcases h.app_inv with ⟨A, B, e, hf, _⟩ | ⟨A, B, hf, _, _, e | ⟨_, e | ⟨T', e, hk⟩⟩⟩
    · cases e
      exact Or.inl (ih hf (by rw [hv_bind, hasVar_ren]; exact Or.inr hv))
    · cases e
      rcases hasVar_inst hv with h | h
      · exact Or.inl (ih hf (by rw [hv_bind]; exact Or.inr h))
      · exact Or.inr h
    · cases e
    · cases e; rw [isKind_noVar hk] at hv; cases hv

theorem getType_of_checked_spine {h : Atom} (as : List Term) : ∀ {T : Term},
    checkedType K Γ ((Term.atom h).apply as) = some T → getType K Γ ((Term.atom h).apply as) = some T := by
  induction as using snocRec with
  | nil =>
    intro T e
    cases h <;> simp only [Term.apply, List.foldl_nil] at e ⊢ <;> rw [checkedType] at e <;>
      rw [getType] <;> exact e
  | append_singleton as a ih =>
    intro T e
    rw [apply_append] at e ⊢
    change checkedType K Γ (Term.app ((Term.atom h).apply as) a) = some T at e
    show getType K Γ (Term.app ((Term.atom h).apply as) a) = some T
    rw [checkedType] at e
    rw [getType]
    simp only [Option.bind_eq_bind, Option.bind_eq_some_iff, Prod.exists] at e ⊢
    obtain ⟨fty, ef, aty, ea, x, y, es, e⟩ := e
    refine ⟨fty, ih ef, ?_⟩
    split at e
    · exact e
    · cases e

/-! ### Peeling -/

/-- The state after peeling the variables `P` from both argument lists. -/
inductive Peel (K : KCtx) (Γ : LCtx) (h1 : Atom) (la : List Term) (h2 : Atom) (sa : List Term) :
    List Nat → List Term → List Term → Prop
  | nil : Peel K Γ h1 la h2 sa [] la sa
  | snoc {P l s v A B1 B2} : Peel K Γ h1 la h2 sa P (l ++ [.fvar v]) (s ++ [.fvar v]) →
      Γ.get v = some A → checkedType K Γ ((Term.atom h1).apply l) = some (.pi A B1) →
      checkedType K Γ ((Term.atom h2).apply s) = some (.pi A B2) →
      (∀ t ∈ l, t.hasVar v = false) → (∀ t ∈ s, t.hasVar v = false) →
      Peel K Γ h1 la h2 sa (P ++ [v]) l s

theorem commonPrefix_spec : ∀ {as bs : List Term} {k : Nat}, k < commonPrefix as bs →
    ∃ t, as[k]? = some t ∧ bs[k]? = some t := by
  intro as
  induction as with
  | nil => intro bs k h; simp [commonPrefix] at h
  | cons a as ih =>
    intro bs k h
    cases bs with
    | nil => simp [commonPrefix] at h
    | cons b bs =>
      simp only [commonPrefix] at h
      split at h
      · omega
      · rename_i hab
        simp only [ne_eq, Decidable.not_not] at hab
        subst hab
        cases k with
        | zero => exact ⟨a, rfl, rfl⟩
        | succ k => simpa using ih (by omega : k < commonPrefix as bs)

theorem take_snoc {l : List Term} {k : Nat} {t : Term} (h : l[k]? = some t) :
    l.take (k + 1) = l.take k ++ [t] := by
  rw [List.take_add_one, h]; rfl

theorem expectedInput_spec {h : Atom} {as : List Term} {k : Nat} {A : Term}
    (e : expectedInput K Γ h as k = some A) :
    ∃ B, checkedType K Γ ((Term.atom h).apply (as.take k)) = some (.pi A B) := by
  simp only [expectedInput, Option.bind_eq_bind, Option.bind_eq_some_iff, Prod.exists] at e
  obtain ⟨T, eT, x, y, es, e⟩ := e
  simp only [splitPi] at es
  split at es
  · cases es; cases e; exact ⟨_, eT⟩
  · cases es

theorem peelLoop_peel {vp : Symbol → Bool} {h1 : Atom} {la : List Term} {h2 : Atom} {sa : List Term} :
    ∀ (m : Nat) {i : Nat} {peeled P : List Nat}, i + m ≤ commonPrefix la.reverse sa.reverse →
    peeled.length = i → Peel K Γ h1 la h2 sa peeled (la.take (la.length - i)) (sa.take (sa.length - i)) →
    peelLoop K Γ vp h1 la h2 sa m i peeled = some P →
    Peel K Γ h1 la h2 sa P (la.take (la.length - P.length)) (sa.take (sa.length - P.length)) := by
  intro m
  induction m with
  | zero =>
    intro i peeled P _ hl hp e
    simp only [peelLoop, Option.some.injEq] at e
    subst e; rw [hl]; exact hp
  | succ m ih =>
    intro i peeled P hm hl hp e
    have stop : some peeled = some P → Peel K Γ h1 la h2 sa P (la.take (la.length - P.length))
        (sa.take (sa.length - P.length)) := by
      intro e; cases e; rw [hl]; exact hp
    rw [peelLoop] at e
    split at e
    · rename_i v hv
      simp only [Option.bind_eq_bind, Option.bind_eq_some_iff] at e
      obtain ⟨T, eT, t1, e1, t2, e2, e⟩ := e
      split at e
      · exact stop e
      · rename_i hT
        simp only [not_or, ne_eq, Decidable.not_not] at hT
        obtain ⟨rfl, hT2⟩ := hT
        subst hT2
        split at e
        · exact stop e
        · split at e
          · exact stop e
          · split at e
            · exact stop e
            · rename_i hla
              split at e
              · exact stop e
              · rename_i hsa
                refine ih (by omega) (by simp [hl]) ?_ e
                obtain ⟨t, ht1, ht2⟩ := commonPrefix_spec (show i < commonPrefix la.reverse sa.reverse by omega)
                have hi1 : i < la.length := by
                  have := (List.getElem?_eq_some_iff.1 ht1).1; simpa using this
                have hi2 : i < sa.length := by
                  have := (List.getElem?_eq_some_iff.1 ht2).1; simpa using this
                rw [List.getElem?_reverse (by simpa using hi1)] at ht1
                rw [List.getElem?_reverse (by simpa using hi2)] at ht2
                rw [hv] at ht2
                cases ht2
                obtain ⟨B1, c1⟩ := expectedInput_spec e1
                obtain ⟨B2, c2⟩ := expectedInput_spec e2
                have n1 : la.length - (i + 1) = la.length - 1 - i := by omega
                have n2 : sa.length - (i + 1) = sa.length - 1 - i := by omega
                have m1 : la.length - i = la.length - 1 - i + 1 := by omega
                have m2 : sa.length - i = sa.length - 1 - i + 1 := by omega
                rw [m1, m2, take_snoc ht1, take_snoc hv] at hp
                rw [n1, n2]
                refine .snoc hp eT c1 c2 ?_ ?_
                · simpa using hla
                · simpa using hsa
    · exact stop e

theorem apply_hasVar {h : Atom} {v : Nat} (hh : h.isVar = false) (as : List Term)
    (ha : ∀ t ∈ as, t.hasVar v = false) : ((Term.atom h).apply as).hasVar v = false := by
  induction as using snocRec with
  | nil => cases h <;> simp_all [Atom.isVar, Term.apply, hasVar, atoms]
  | append_singleton as a ih =>
    rw [apply_append]
    show (Term.app ((Term.atom h).apply as) a).hasVar v = false
    rw [hasVar_app, ih (fun t ht => ha t (by simp [ht])), ha a (by simp)]; rfl

theorem Peel.absent {h1 : Atom} {la : List Term} {h2 : Atom} {sa : List Term} {P : List Nat}
    {l s : List Term} (h : Peel K Γ h1 la h2 sa P l s) :
    ∀ v ∈ P, (∀ t ∈ l, t.hasVar v = false) ∧ (∀ t ∈ s, t.hasVar v = false) := by
  induction h with
  | nil => intro v hv; cases hv
  | snoc _ _ _ _ hl hs ih =>
    intro w hw
    rcases List.mem_append.1 hw with hw | hw
    · obtain ⟨a, b⟩ := ih w hw
      exact ⟨fun t ht => a t (by simp [ht]), fun t ht => b t (by simp [ht])⟩
    · cases List.mem_singleton.1 hw
      exact ⟨hl, hs⟩

theorem setAt_other {ρ : Nat → M.D} {x : Nat} {d : M.D} {β : Nat → M.D} {t : Term}
    (h : t.hasVar x = false) : eval M (setAt ρ x d) β t = eval M ρ β t := by
  refine eval_fvars M t _ _ _ fun i hi => ?_
  simp only [setAt]
  rw [if_neg]
  intro e; subst e; rw [h] at hi; cases hi

theorem isVar_sym {h : Atom} (hh : h.isVar = false) : ∃ s, h = .sym s := by
  cases h with
  | sym s => exact ⟨s, rfl⟩
  | _ => cases hh

/-- Two functions of a common domain that agree on it are equal. -/
theorem fun_ext (L : Lawful K M) {A : M.D} {B1 B2 : M.D → M.D} {f g : M.D}
    (hf : M.mem f (M.bind .pi A B1)) (hg : M.mem g (M.bind .pi A B2))
    (h : ∀ a, M.mem a A → M.app f a = M.app g a) : f = g := by
  rw [← ((L.mem_pi _ _ _).1 hf).1, ← ((L.mem_pi _ _ _).1 hg).1]
  exact L.bind_congr _ _ _ _ h

theorem spine_mem (L : Lawful K M) (hΓ : CtxOk Γ) {h : Atom} {as : List Term} {A B T : Term}
    (hh : h.isVar = false)
    (ht : SHasType K Γ ((Term.atom h).apply as) T)
    (hc : checkedType K Γ ((Term.atom h).apply as) = some (.pi A B)) {P : List Nat}
    (hP : ∀ v ∈ P, ∀ t ∈ as, t.hasVar v = false) {ρ : Nat → M.D} (hρ : ModelsExcept M Γ P ρ)
    (β : Nat → M.D) :
    M.mem (eval M ρ β ((Term.atom h).apply as)) (eval M ρ β (.pi A B)) ∧
      ∀ v ∈ P, A.hasVar v = false := by
  have hT := getType_unique hΓ ht (getType_of_checked_spine as hc) rfl
  subst hT
  have hno : ∀ v ∈ P, ((Term.atom h).apply as).hasVar v = false := fun v hv => apply_hasVar hh as (hP v hv)
  constructor
  · have h' : SHasType K (restrict Γ fun i => !P.contains i) ((Term.atom h).apply as) (.pi A B) := by
      refine ht.ctx_congr fun i hi => ?_
      rw [get_restrict, if_pos]
      cases hc : P.contains i with
      | false => rfl
      | true =>
        have := hno i (by simpa using hc)
        rw [this] at hi; cases hi
    refine HasType.mem L ?_ h'.typed β
    intro i T hi
    rw [get_restrict] at hi
    split at hi
    · rename_i hn
      exact hρ i T (by simpa using hn) hi
    · cases hi
  · intro v hv
    obtain ⟨s, rfl⟩ := isVar_sym hh
    cases hA : A.hasVar v with
    | false => rfl
    | true =>
      have := spine_type_vars as ht (v := v) (by rw [hv_bind]; exact Or.inl hA)
      rw [hno v hv] at this; cases this

/-- The peeled equation holds for every assignment that respects the types of the other variables. -/
theorem Peel.sound (L : Lawful K M) (ho : CtxOrdered Γ) (hcl : CtxClosed Γ) {h1 : Atom} {la : List Term}
    {h2 : Atom} {sa : List Term} (hh1 : h1.isVar = false) (hh2 : h2.isVar = false)
    {T1 T2 : Term} (ht1 : SHasType K Γ ((Term.atom h1).apply la) T1)
    (ht2 : SHasType K Γ ((Term.atom h2).apply sa) T2) {β : Nat → M.D} {Q : (Nat → M.D) → Prop}
    (hQ : ∀ ρ, Models M Γ ρ → Q ρ →
      eval M ρ β ((Term.atom h1).apply la) = eval M ρ β ((Term.atom h2).apply sa))
    {P : List Nat} {l s : List Term} (h : Peel K Γ h1 la h2 sa P l s) :
    (∃ U, SHasType K Γ ((Term.atom h1).apply l) U) ∧ (∃ U, SHasType K Γ ((Term.atom h2).apply s) U) ∧
    ((∀ v ∈ P, ∀ ρ d, Q ρ → Q (setAt ρ v d)) →
      (∀ v ∈ P, ∀ i T, i ∉ P → Γ.get i = some T → T.hasVar v = false) →
      ∀ ρ, ModelsExcept M Γ P ρ → Q ρ →
        eval M ρ β ((Term.atom h1).apply l) = eval M ρ β ((Term.atom h2).apply s)) := by
  induction h with
  | nil =>
    exact ⟨⟨_, ht1⟩, ⟨_, ht2⟩, fun _ _ ρ hρ hq => hQ ρ (fun i T hi β => hρ i T (by simp) hi β) hq⟩
  | @snoc P l s v A B1 B2 hp hv c1 c2 hl hs ih =>
    obtain ⟨⟨U1, u1⟩, ⟨U2, u2⟩, ih⟩ := ih
    rw [apply_append] at u1 u2 ih
    rw [apply_append] at ih
    change SHasType K Γ (.app ((Term.atom h1).apply l) (.fvar v)) U1 at u1
    change SHasType K Γ (.app ((Term.atom h2).apply s) (.fvar v)) U2 at u2
    obtain ⟨A1, A1', f1⟩ := u1.app_typed_fun
    obtain ⟨A2, A2', f2⟩ := u2.app_typed_fun
    refine ⟨⟨_, f1⟩, ⟨_, f2⟩, fun hq hT ρ hρ hqρ => ?_⟩
    have habs := (Peel.snoc hp hv c1 c2 hl hs).absent
    obtain ⟨m1, nA⟩ := spine_mem L (ctxOk_of ho hcl) hh1 f1 c1 (fun w hw => (habs w hw).1) hρ β
    obtain ⟨m2, _⟩ := spine_mem L (ctxOk_of ho hcl) hh2 f2 c2 (fun w hw => (habs w hw).2) hρ β
    refine fun_ext L m1 m2 fun d hd => ?_
    have step := ih (fun w hw => hq w (by simp [hw])) ?_ (setAt ρ v d) ?_ (hq v (by simp) ρ d hqρ)
    · change M.app (eval M (setAt ρ v d) β ((Term.atom h1).apply l)) (setAt ρ v d v) =
        M.app (eval M (setAt ρ v d) β ((Term.atom h2).apply s)) (setAt ρ v d v) at step
      rw [setAt_other (apply_hasVar hh1 l hl), setAt_other (apply_hasVar hh2 s hs)] at step
      simpa [setAt] using step
    · intro w hw i T hi hg
      by_cases hiv : i = v
      · subst hiv
        rw [hv] at hg; cases hg
        exact nA w (by simp [hw])
      · exact hT w (by simp [hw]) i T (by simp [hi, hiv]) hg
    · intro i T hi hg γ
      by_cases hiv : i = v
      · subst hiv
        rw [hv] at hg; cases hg
        have hself : A.hasVar i = false := by
          cases hA : A.hasVar i with
          | false => rfl
          | true => exact absurd (ho i A hv i hA).1 (Nat.lt_irrefl _)
        rw [setAt_other hself, eval_closed M ρ γ β A (hcl i A hv)]
        simpa [setAt] using hd
      · have hno := hT v (by simp) i T (by simp [hi, hiv]) hg
        rw [setAt_other hno]
        simpa [setAt, hiv] using hρ i T (by simp [hi, hiv]) hg γ

/-! ### The clause level -/

theorem extendLiteral_sound (L : Lawful K M) (ho : CtxOrdered Γ) (hcl : CtxClosed Γ)
    {vp : Symbol → Bool} {l l' : Literal} {P : List Nat} (hl : AtomHead l.left) (hr : AtomHead l.right)
    (ht : LitTyped K Γ l) (e : extendLiteral K Γ vp l = some (l', P))
    (hT : ∀ v ∈ P, ∀ i T, i ∉ P → Γ.get i = some T → T.hasVar v = false)
    {β : Nat → M.D} {Q : (Nat → M.D) → Prop} (hq : ∀ v ∈ P, ∀ ρ d, Q ρ → Q (setAt ρ v d))
    (hQ : ∀ ρ, Models M Γ ρ → Q ρ → LitHolds M ρ β l) :
    ∀ ρ, ModelsExcept M Γ P ρ → Q ρ → LitHolds M ρ β l' := by
  simp only [extendLiteral] at e
  split at e
  · cases e
  · rename_i hpos
    simp only [Bool.not_eq_true, Bool.not_eq_false'] at hpos
    split at e
    · cases e
    · -- name the two sides
      generalize hsides : (if l.left.numArgs ≥ l.right.numArgs then (l.left, l.right)
        else (l.right, l.left)) = sides at e
      obtain ⟨longer, shorter⟩ := sides
      have key : AtomHead longer ∧ AtomHead shorter ∧ (∃ T, SHasType K Γ longer T) ∧
          (∃ T, SHasType K Γ shorter T) ∧
          ∀ ρ, LitHolds M ρ β l ↔ eval M ρ β longer = eval M ρ β shorter := by
        obtain ⟨T, t1, t2⟩ := ht
        simp only [LitHolds, hpos, ↓reduceIte]
        split at hsides
        · cases hsides; exact ⟨hl, hr, ⟨_, t1⟩, ⟨_, t2⟩, fun ρ => Iff.rfl⟩
        · cases hsides; exact ⟨hr, hl, ⟨_, t2⟩, ⟨_, t1⟩, fun ρ => eq_comm⟩
      obtain ⟨a1, a2, ⟨T1, t1⟩, ⟨T2, t2⟩, hiff⟩ := key
      simp only at e
      split at e
      · cases e
      · rename_i hne
        split at e
        · cases e
        · rename_i hv
          split at e
          · cases e
          · rename_i hm
            simp only [Bool.or_eq_true, not_or, List.isEmpty_iff, Bool.not_eq_true] at hne hv
            simp only [Option.bind_eq_bind, Option.bind_eq_some_iff] at e
            obtain ⟨peeled, ep, e⟩ := e
            split at e
            · cases e
            · split at e
              · cases e
              · simp only [Option.bind_eq_some_iff] at e
                obtain ⟨ta, eta, tb, etb, e⟩ := e
                split at e
                · cases e
                · cases e
                  have hpeel := peelLoop_peel _ (i := 0) (peeled := []) (by omega) rfl (by simpa using Peel.nil) ep
                  intro ρ hρ hqρ
                  rw [litHolds_new]
                  simp only [LitHolds, if_true]
                  rw [a1.eq hne.1] at t1
                  rw [a2.eq hne.2] at t2
                  refine (Peel.sound L ho hcl hv.1 hv.2 t1 t2 (fun ρ hm hq => ?_) hpeel).2.2 hq hT ρ hρ hqρ
                  have := (hiff ρ).1 (hQ ρ hm hq)
                  rwa [a1.eq hne.1, a2.eq hne.2] at this

theorem findExtensionalityFrom_sound (L : Lawful K M) (ho : CtxOrdered Γ) (hcl : CtxClosed Γ)
    {vp : Symbol → Bool} {ls : List Literal} (ht : LitsTyped K Γ ls)
    (ha : ∀ l ∈ ls, AtomHead l.left ∧ AtomHead l.right)
    (hh : ∀ ρ, Models M Γ ρ → ∀ β, LitsHold M ρ β ls) {ls' : List Literal} {P : List Nat} :
    ∀ (rest : List Literal) (i : Nat), ls.drop i = rest →
    findExtensionalityFrom K Γ vp ls i rest = some (ls', P) →
    (∀ v ∈ P, ∀ i T, i ∉ P → Γ.get i = some T → T.hasVar v = false) →
    ∀ ρ, ModelsExcept M Γ P ρ → ∀ β, LitsHold M ρ β ls' := by
  intro rest
  induction rest with
  | nil => intro i _ e; simp [findExtensionalityFrom] at e
  | cons l rest ih =>
    intro i hd e hT ρ hρ β
    have hli : ls[i]? = some l := by
      have : (ls.drop i)[0]? = some l := by rw [hd]; rfl
      rwa [List.getElem?_drop, Nat.add_zero] at this
    have hd' : ls.drop (i + 1) = rest := by
      rw [← List.drop_drop, hd]; rfl
    have hil := (List.getElem?_eq_some_iff.1 hli).1
    rw [findExtensionalityFrom] at e
    split at e
    · exact ih _ hd' e hT ρ hρ β
    · rename_i l' peeled el
      split at e
      · exact ih _ hd' e hT ρ hρ β
      · rename_i hu
        cases e
        by_cases hother : ∃ o ∈ ls.eraseIdx i, LitHolds M ρ β o
        · obtain ⟨o, ho1, ho2⟩ := hother
          obtain ⟨j, hji, hj⟩ := List.mem_eraseIdx_iff_getElem?.1 ho1
          refine ⟨o, List.mem_of_getElem? (i := j) ?_, ho2⟩
          rw [List.getElem?_set]
          rw [if_neg (Ne.symm hji)]
          exact hj
        · refine ⟨l', List.mem_of_getElem? (i := i) (by rw [List.getElem?_set]; simp [hil]), ?_⟩
          have hmem := List.mem_of_getElem? hli
          refine extendLiteral_sound L ho hcl (ha l hmem).1 (ha l hmem).2 (ht l hmem) el hT
            (Q := fun ρ => ¬ ∃ o ∈ ls.eraseIdx i, LitHolds M ρ β o) ?_ ?_ ρ hρ hother
          · rintro v hv ρ d hn ⟨o, ho1, ho2⟩
            apply hn
            refine ⟨o, ho1, ?_⟩
            have hno : o.left.hasVar v = false ∧ o.right.hasVar v = false := by
              have hu := List.any_eq_false.1 (by simpa only [Bool.not_eq_true] using hu)
              have := hu o ho1
              simp only [List.any_eq_true, Bool.or_eq_true, not_exists, not_and, not_or,
                Bool.not_eq_true] at this
              exact this v hv
            simp only [LitHolds, setAt_other hno.1, setAt_other hno.2] at ho2
            exact ho2
          · intro ρ hm hn
            obtain ⟨o, ho1, ho2⟩ := hh ρ hm β
            obtain ⟨j, hj, rfl⟩ := List.mem_iff_getElem.1 ho1
            by_cases hji : j = i
            · subst hji
              rw [List.getElem?_eq_getElem hj] at hli; cases hli
              exact ho2
            · exact absurd ⟨ls[j], List.mem_eraseIdx_iff_getElem?.2 ⟨j, hji, List.getElem?_eq_getElem hj⟩, ho2⟩ hn

end Spec
end Acorn
