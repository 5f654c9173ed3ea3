/-
Values and types of specialized terms, literals and clauses.
-/
import Verif.Lemmas.VariableMap
import Verif.Lemmas.Normalize
import Verif.Lemmas.GetType
import Verif.Lemmas.BoolReduce
import Verif.Lemmas.Inference
namespace Acorn

open Spec Term

universe u

/-- The substitution that a map stands for. -/
def VMap.toSub (m : VMap) : Nat → Term := fun i => (m.get i).getD (.fvar i)

theorem VMap.apply_eq_sub {m : VMap} (hm : MapClosed m) (t : Term) :
    m.apply t = sub m.toSub bid t := by
  have hl : lift m.toSub = m.toSub := by
    funext i
    simp only [lift, VMap.toSub]
    cases h : m.get i with
    | none => rfl
    | some t => exact ren_closed _ _ (hm i t h)
  induction t with
  | atom a => cases a <;> rfl
  | app f a ihf iha => simp [VMap.apply, sub, ihf, iha]
  | bind b A B ih1 ih2 => simp only [VMap.apply, sub, ih1, ih2, ups_bid, hl]

theorem eval_apply {M : Interp.{u}} {m : VMap} (hm : MapClosed m) (ρ β : Nat → M.D) (t : Term) :
    eval M ρ β (m.apply t) = eval M (Through M m ρ β) β t := by
  rw [VMap.apply_eq_sub hm, eval_sub]
  congr 1
  funext i
  simp only [VMap.toSub, Through]
  cases m.get i <;> rfl

theorem through_closed {M : Interp.{u}} {m : VMap} (hm : MapClosed m) (ρ β γ : Nat → M.D) :
    Through M m ρ β = Through M m ρ γ := by
  funext i
  simp only [Through]
  cases h : m.get i with
  | none => rfl
  | some t => exact eval_closed M ρ β γ t (hm i t h)

theorem eval_apply_args {M : Interp.{u}} (ρ β : Nat → M.D) : ∀ (args : List Term) (t t' : Term),
    eval M ρ β t = eval M ρ β t' → eval M ρ β (t.apply args) = eval M ρ β (t'.apply args) := by
  intro args
  induction args with
  | nil => intro t t' h; exact h
  | cons a as ih =>
    intro t t' h
    exact ih (.app t a) (.app t' a) (by simp only [eval, h])

theorem call_some {A : Aliases} {h : Atom} {args : List Term} {r : Term} (e : A.call h args = some r) :
    ∃ m l n s, h = .sym (.global m l) ∧ A.params m l = some n ∧ n ≤ args.length ∧
      A.lookup m l (args.take n) = some s ∧ r = (Term.sym s).apply (args.drop n) := by
  unfold Aliases.call at e
  split at e
  · rename_i m l
    simp only [Option.bind_eq_bind, Option.bind_eq_some_iff] at e
    obtain ⟨n, hn, e⟩ := e
    split at e
    · cases e
    · split at e
      · cases e
      · obtain ⟨s, hs, e⟩ := Option.bind_eq_some_iff.1 e
        cases e
        exact ⟨m, l, n, s, rfl, hn, by omega, hs, rfl⟩
  · cases e

theorem call_eval {M : Interp.{u}} {A : Aliases} (hA : AliasesHold M A) {h : Atom} {args : List Term}
    {r : Term} (e : A.call h args = some r) (ρ β : Nat → M.D) :
    eval M ρ β r = eval M ρ β ((Term.atom h).apply args) := by
  obtain ⟨m, l, n, s, rfl, hn, hle, hs, rfl⟩ := call_some e
  have hlen : (args.take n).length = n := by rw [List.length_take]; omega
  conv => rhs; rw [← List.take_append_drop n args]
  rw [apply_append]
  exact eval_apply_args ρ β _ _ _ (hA m l n _ s hn hlen hs ρ β).symm

theorem canonSpine_eval {M : Interp.{u}} {A : Aliases} (hA : AliasesHold M A) (t : Term) :
    ∀ (args : List Term) (ρ β : Nat → M.D),
      eval M ρ β (A.canonSpine t args) = eval M ρ β (t.apply args) := by
  induction t with
  | atom h =>
    intro args ρ β
    simp only [Aliases.canonSpine]
    split
    · rename_i he
      simp only [List.isEmpty_iff] at he
      subst he; rfl
    · cases hc : A.call h args with
      | none => rfl
      | some r => exact call_eval hA hc ρ β
  | app f a ihf iha =>
    intro args ρ β
    simp only [Aliases.canonSpine]
    rw [ihf]
    show eval M ρ β ((Term.app f (A.canonSpine a [])).apply args) = eval M ρ β ((Term.app f a).apply args)
    apply eval_apply_args
    simp only [eval]
    rw [iha]; rfl
  | bind b T B ih1 ih2 =>
    intro args ρ β
    simp only [Aliases.canonSpine]
    apply eval_apply_args
    simp only [eval, ih1, ih2]
    rfl

theorem canon_eval {M : Interp.{u}} {A : Aliases} (hA : AliasesHold M A) (t : Term) (ρ β : Nat → M.D) :
    eval M ρ β (A.canon t) = eval M ρ β t := canonSpine_eval hA t [] ρ β

theorem specLiteral_holds {M : Interp.{u}} {A : Aliases} (hA : AliasesHold M A) {m : VMap}
    (hm : MapClosed m) (l : Literal) (ρ β : Nat → M.D) :
    LitHolds M ρ β (m.specLiteral A l) ↔ LitHolds M (Through M m ρ β) β l := by
  unfold VMap.specLiteral
  rw [litHolds_new]
  simp only [LitHolds, canon_eval hA, eval_apply hm]

theorem specLits_hold {M : Interp.{u}} {A : Aliases} (hA : AliasesHold M A) {m : VMap}
    (hm : MapClosed m) (ls : List Literal) (ρ β : Nat → M.D) :
    LitsHold M ρ β (ls.map (m.specLiteral A)) ↔ LitsHold M (Through M m ρ β) β ls := by
  simp only [LitsHold, List.mem_map]
  constructor
  · rintro ⟨_, ⟨l, hl, rfl⟩, h⟩; exact ⟨l, hl, (specLiteral_holds hA hm l ρ β).1 h⟩
  · rintro ⟨l, hl, h⟩; exact ⟨_, ⟨l, hl, rfl⟩, (specLiteral_holds hA hm l ρ β).2 h⟩

theorem through_models {K : KCtx} {M : Interp.{u}} (L : Lawful K M) {m : VMap} (hm : MapClosed m)
    {Γ Δ : LCtx} (ht : MapTyped K m Γ Δ) {ρ : Nat → M.D} (hρ : Models M Δ ρ) (β : Nat → M.D) :
    Models M Γ (Through M m ρ β) := by
  intro i T hi γ
  have h := ht i T hi
  rw [through_closed hm ρ β γ, ← eval_apply hm]
  simp only [Through]
  cases e : m.get i with
  | none => rw [e] at h; exact hρ i _ h γ
  | some t =>
    rw [e] at h
    exact h.val_mem L hρ bmodels_nil

/-! ### Types -/

theorem apply_escapes {m : VMap} (hm : MapClosed m) (t : Term) :
    ∀ d, escapesAt d t = false → escapesAt d (m.apply t) = false := by
  induction t with
  | atom a =>
    intro d h
    cases a with
    | fvar i =>
      simp only [VMap.apply]
      cases e : m.get i with
      | none => rfl
      | some t => exact escapesAt_mono _ 0 d (by omega) (hm i t e)
    | _ => exact h
  | app f a ihf iha =>
    intro d h
    simp only [escapesAt, Bool.or_eq_false_iff] at h
    simp only [VMap.apply, escapesAt, Bool.or_eq_false_iff]
    exact ⟨ihf d h.1, iha d h.2⟩
  | bind b A B ih1 ih2 =>
    intro d h
    simp only [escapesAt, Bool.or_eq_false_iff] at h
    simp only [VMap.apply, escapesAt, Bool.or_eq_false_iff]
    exact ⟨ih1 d h.1, ih2 (d + 1) h.2⟩

theorem toSub_ok {K : KCtx} {m : VMap} {Γ Γ' : LCtx} (hm : MapClosed m) (ht : MapTyped K m Γ Γ')
    (hd : ∀ i, (m.get i).isSome = true → (Γ.get i).isSome = true) :
    SSubOk K m.toSub bid Γ BCtx.nil Γ' BCtx.nil := by
  refine ⟨?_, ?_, ?_, fun _ => rfl⟩
  · intro i T hi hT
    have h := ht i T hi
    rw [← VMap.apply_eq_sub hm]
    simp only [VMap.toSub]
    cases e : m.get i with
    | none => rw [e] at h; exact .fvar h (apply_escapes hm T 0 hT)
    | some t => rw [e] at h; exact h
  · intro i T hi; cases hi
  · intro i
    simp only [VMap.toSub]
    cases e : m.get i with
    | none => rfl
    | some t =>
      obtain ⟨T, hT⟩ := Option.isSome_iff_exists.1 (hd i (by rw [e]; rfl))
      have h := ht i T hT
      rw [e] at h
      exact h.not_endsKind _ rfl

theorem apply_typed {K : KCtx} {m : VMap} {Γ Γ' : LCtx} (hm : MapClosed m) (ht : MapTyped K m Γ Γ')
    (hd : ∀ i, (m.get i).isSome = true → (Γ.get i).isSome = true) {t T : Term}
    (h : SHasType K Γ t T) : SHasType K Γ' (m.apply t) (m.apply T) := by
  rw [VMap.apply_eq_sub hm, VMap.apply_eq_sub hm]
  exact h.sub _ _ _ (toSub_ok hm ht hd)

section
variable {K : KCtx} {Γ : LCtx} {M : Interp.{u}} {ρ : Nat → M.D} {Δ : BCtx}

/-- A rewriting step that keeps types and values, and leaves types alone. -/
def Keeps (K : KCtx) (Γ : LCtx) (M : Interp.{u}) (ρ : Nat → M.D) (Δ : BCtx) (t t' : Term) : Prop :=
  ∀ J, STyped K Γ Δ t J → Same K Γ M ρ Δ t t' J ∧ (Typelike J → t' = t)

theorem Keeps.refl (t : Term) : Keeps K Γ M ρ Δ t t := fun _ h => ⟨.refl h, fun _ => rfl⟩

theorem Keeps.trans {t t' t'' : Term} (h : Keeps K Γ M ρ Δ t t') (h' : Keeps K Γ M ρ Δ t' t'') :
    Keeps K Γ M ρ Δ t t'' := by
  intro J hJ
  obtain ⟨s, e⟩ := h J hJ
  obtain ⟨s', e'⟩ := h' J s.typed
  exact ⟨s.trans s', fun k => (e' k).trans (e k)⟩

theorem Keeps.app {f f' a a' : Term} (hf : Keeps K Γ M ρ Δ f f') (ha : Keeps K Γ M ρ Δ a a') :
    Keeps K Γ M ρ Δ (.app f a) (.app f' a') := by
  intro J h
  refine ⟨.app_children h (fun J1 h1 => (hf J1 h1).1) (fun J1 h1 => (ha J1 h1).1)
    (fun J1 h1 => (ha J1 h1).2) (fun J1 h1 => (hf J1 h1).2), fun k => ?_⟩
  obtain ⟨⟨J1, h1, k1⟩, ⟨J2, h2, k2⟩⟩ := h.app_typelike k
  rw [(hf J1 h1).2 k1, (ha J2 h2).2 k2]

theorem Keeps.bind (L : Lawful K M) {q : Binder} {A A' B B' : Term} (hA : Keeps K Γ M ρ Δ A A')
    (hB : Keeps K Γ M ρ (BCtx.cons A Δ) B B') : Keeps K Γ M ρ Δ (.bind q A B) (.bind q A' B') := by
  intro J h
  refine ⟨.bind_children L h (fun J1 h1 => (hA J1 h1).2) (fun J1 h1 => (hB J1 h1).1)
    (fun J1 h1 => (hB J1 h1).2), fun k => ?_⟩
  cases q with
  | lam => exact (h.lam_not_typelike k).elim
  | all => exact (h.quant_not_typelike (.inl rfl) k).elim
  | ex => exact (h.quant_not_typelike (.inr rfl) k).elim
  | pi =>
    have := h.pi_inv
    rw [(hA _ h.bind_dom).2 (Or.inl rfl), (hB _ this.2.2).2 (Or.inl rfl)]

theorem Keeps.apply : ∀ (args : List Term) {t t' : Term}, Keeps K Γ M ρ Δ t t' →
    Keeps K Γ M ρ Δ (t.apply args) (t'.apply args) := by
  intro args
  induction args with
  | nil => intro t t' h; exact h
  | cons a as ih => intro t t' h; exact ih (h.app (.refl a))

/-- Swapping the sides of equality terms keeps types and values. -/
theorem EqSwap.keeps (L : Lawful K M) (hρ : Models M Γ ρ) {s t : Term} (h : EqSwap s t) :
    ∀ Δ, Keeps K Γ M ρ Δ s t := by
  induction h with
  | atom a => exact fun Δ => .refl _
  | app _ _ ih1 ih2 => exact fun Δ => .app (ih1 Δ) (ih2 Δ)
  | bind c _ _ ih1 ih2 => exact fun Δ => .bind L (ih1 Δ) (ih2 _)
  | @swap T T' a a' b b' h1 h2 h3 ih1 ih2 ih3 =>
    intro Δ J h
    obtain ⟨s, -⟩ := Keeps.app (.app (.app (.refl (.sym .eq_)) (ih1 Δ)) (ih2 Δ)) (ih3 Δ) J h
    refine ⟨s.trans (Same.eqSwap L hρ s.typed), fun k => ?_⟩
    obtain ⟨rfl, -⟩ := h.eq_inv
    rcases k with k | ⟨T, hT, k⟩
    · cases k
    · cases hT; cases k

theorem call_keeps {A : Aliases} (hA : AliasesHold M A) (hT : AliasesTyped K A) {h : Atom}
    {args : List Term} {r : Term} (e : A.call h args = some r) :
    Keeps K Γ M ρ Δ ((Term.atom h).apply args) r := by
  obtain ⟨m, l, n, s, rfl, hn, hle, hs, rfl⟩ := call_some e
  have hlen : (args.take n).length = n := by rw [List.length_take]; omega
  conv => arg 6; rw [← List.take_append_drop n args]
  rw [apply_append]
  refine Keeps.apply _ fun J hJ => ?_
  obtain ⟨h1, T, rfl, h2⟩ := hT m l n _ s hn hlen hs Γ Δ J hJ
  refine ⟨⟨h1, fun β _ => (hA m l n _ s hn hlen hs ρ β).symm⟩, ?_⟩
  rintro (k | ⟨T', hT', k⟩)
  · cases k
  · cases hT'; rw [h2] at k; cases k

theorem canonSpine_keeps (L : Lawful K M) {A : Aliases} (hA : AliasesHold M A) (hT : AliasesTyped K A)
    (t : Term) : ∀ (Δ : BCtx) (args : List Term), Keeps K Γ M ρ Δ (t.apply args) (A.canonSpine t args) := by
  induction t with
  | atom h =>
    intro Δ args
    simp only [Aliases.canonSpine]
    split
    · rename_i he
      simp only [List.isEmpty_iff] at he
      subst he; exact .refl _
    · cases hc : A.call h args with
      | none => exact .refl _
      | some r => exact call_keeps hA hT hc
  | app f a ihf iha =>
    intro Δ args
    simp only [Aliases.canonSpine]
    refine Keeps.trans ?_ (ihf Δ _)
    exact Keeps.apply args (.app (.refl f) (iha Δ []))
  | bind b T B ih1 ih2 =>
    intro Δ args
    simp only [Aliases.canonSpine]
    exact Keeps.apply args (.bind L (ih1 Δ []) (ih2 _ []))

theorem canon_typed (L : Lawful K M) {A : Aliases} (hA : AliasesHold M A) (hT : AliasesTyped K A)
    {t T : Term} (h : SHasType K Γ t T) : SHasType K Γ (A.canon t) T := by
  exact (canonSpine_keeps (Γ := Γ) (ρ := fun _ => vtt M) L hA hT t BCtx.nil [] _ h).1.typed

end

theorem specLiteral_typed {K : KCtx} {M : Interp.{u}} (L : Lawful K M) {A : Aliases}
    (hA : AliasesHold M A) (hT : AliasesTyped K A) {m : VMap} (hm : MapClosed m) {Γ Γ' : LCtx}
    (ht : MapTyped K m Γ Γ') (hd : ∀ i, (m.get i).isSome = true → (Γ.get i).isSome = true)
    {l : Literal} (h : LitTyped K Γ l) : LitTyped K Γ' (m.specLiteral A l) := by
  obtain ⟨T, h1, h2⟩ := h
  unfold VMap.specLiteral
  rw [litTyped_new]
  exact ⟨m.apply T, canon_typed L hA hT (apply_typed hm ht hd h1),
    canon_typed L hA hT (apply_typed hm ht hd h2)⟩

/-! ### The output context -/

theorem foldlM_set {Γ : LCtx} {g : Term → Term} : ∀ (vs : List Nat) (o out : LCtx),
    vs.foldlM (fun o v => (Γ.get v).map fun T => setSlot o v (g T)) o = some out →
    ∀ i, out.get i = if i ∈ vs then (Γ.get i).map g else o.get i := by
  intro vs
  induction vs with
  | nil => intro o out e i; cases e; simp
  | cons v vs ih =>
    intro o out e i
    simp only [List.foldlM_cons, Option.bind_eq_bind, Option.bind_eq_some_iff, Option.map_eq_some_iff]
      at e
    obtain ⟨_, ⟨T, hT, rfl⟩, e⟩ := e
    rw [ih _ _ e i]
    by_cases h1 : i ∈ vs
    · simp [h1]
    · rw [if_neg h1, LCtx.get_set]
      by_cases h2 : i = v
      · subst h2; simp [hT]
      · simp [h1, h2]

theorem keepUnmapped_get (m : VMap) (Γ out : LCtx) (i : Nat) :
    (m.keepUnmapped Γ out).get i =
      if m.get i = none ∧ (Γ.get i).isSome = true then Γ.get i else out.get i := by
  unfold VMap.keepUnmapped
  have step : ∀ (out : LCtx) (v : Nat), (m.keepOne Γ out v).get i =
      if i = v ∧ m.get i = none ∧ (Γ.get i).isSome = true then Γ.get i else out.get i := by
    intro out v
    unfold VMap.keepOne
    split
    · rename_i T h1 h2
      rw [LCtx.get_set]
      by_cases hiv : i = v
      · subst hiv; simp [h1, h2]
      · simp [hiv]
    · rename_i h
      rw [if_neg]
      rintro ⟨rfl, h1, h2⟩
      obtain ⟨T, hT⟩ := Option.isSome_iff_exists.1 h2
      exact h T h1 hT
  have key : ∀ (vs : List Nat) (out : LCtx), (vs.foldl (m.keepOne Γ) out).get i =
      if i ∈ vs ∧ m.get i = none ∧ (Γ.get i).isSome = true then Γ.get i else out.get i := by
    intro vs
    induction vs with
    | nil => intro out; simp
    | cons v vs ih =>
      intro out
      rw [List.foldl_cons, ih, step]
      by_cases h : m.get i = none ∧ (Γ.get i).isSome = true
      · by_cases h1 : i ∈ vs
        · simp [h1, h]
        · by_cases h2 : i = v
          · simp only [h1, h2, List.mem_cons]; simp [h2 ▸ h]
          · simp [h1, h2]
      · rw [if_neg fun k => h k.2, if_neg fun k => h k.2, if_neg fun k => h k.2]
  rw [key]
  by_cases h : m.get i = none ∧ (Γ.get i).isSome = true
  · have : i ∈ List.range Γ.length := by
      rw [List.mem_range]
      obtain ⟨T, hT⟩ := Option.isSome_iff_exists.1 h.2
      exact get_lt hT
    simp [h, this]
  · rw [if_neg h, if_neg fun k => h k.2]

theorem mem_outVars {m : VMap} {i v : Nat} {t : Term} (h : m.get i = some t)
    (hv : t.hasVar v = true) : v ∈ m.outVars := by
  unfold VMap.outVars
  rw [List.mem_flatMap]
  unfold VMap.get at h
  have : some t ∈ m := by
    cases e : m[i]? with
    | none => rw [e] at h; cases h
    | some o => rw [e] at h; cases h; exact List.mem_of_getElem? e
  exact ⟨_, this, mem_fvars.2 hv⟩

end Acorn
