/-
C10: successful matching exhibits an instance.
C11: specialization is semantic instantiation.
-/
import Verif.Lemmas.MatchTyped
import Verif.Spec.DemoSimple
namespace Acorn

open Spec Term

universe u

/-! ### C10: matching -/

/-- A successful match gives a map that keeps what the given map says, that maps every variable of the
general term, and that turns the general term into the special one, except that the sides of some
equality terms may be swapped. -/
theorem C10_match {K : KCtx} {Γ Δ : LCtx} {m m' : VMap} {g s : Term}
    (e : VMap.matchTerms K Γ Δ m g s = some (some m')) :
    Extends m m' ∧ EqSwap (m'.apply g) s ∧ (∀ i, g.hasVar i = true → (m'.get i).isSome = true) ∧
      (MapClosed m → MapClosed m') := by
  obtain ⟨h, h'⟩ := matchTerms_matched K g.size Γ Δ m m' g s (Nat.le_refl _) e
  refine ⟨h.ext, h', h.cover, fun hm i t hi => ?_⟩
  exact (h.new i t hi).elim (hm i t) id

/-- `x = add(y, y)` matches `add(zero, zero) = zero`, with the sides swapped. -/
example : VMap.matchTerms Demo.K [some Demo.nat, some Demo.nat] [] []
    (.eq Demo.nat (.app Demo.suc (.fvar 0)) (.app (.app Demo.add (.fvar 1)) (.fvar 1)))
    (.eq Demo.nat (.app (.app Demo.add Demo.zero) Demo.zero) (.app Demo.suc Demo.zero))
    = some (some [some Demo.zero, some Demo.zero]) := by
  simp [VMap.matchTerms, VMap.matchVarTyped, VMap.matchVar, VMap.andThen, VMap.orElse, escapes, escapesAt,
    LCtx.get, VMap.apply, VMap.get, getType, KCtx.symbolType, Demo.K, Demo.constType, setSlot,
    VMap.constraint, resolveConstraint, List.replicate]

/-- Swapping the sides of equality terms changes neither the type nor the value of a term: the special
term and the instance of the general term mean the same. -/
theorem C10_same_value {K : KCtx} {M : Interp.{u}} (L : Lawful K M) {Γ Δ : LCtx} {m m' : VMap}
    {g s T : Term} (e : VMap.matchTerms K Γ Δ m g s = some (some m')) (hm : MapClosed m)
    (h : SHasType K Δ (m'.apply g) T) :
    ∀ ρ, Models M Δ ρ → SHasType K Δ s T ∧ ∀ β,
      eval M ρ β s = eval M ρ β (m'.apply g) ∧ eval M ρ β s = eval M (Through M m' ρ β) β g := by
  obtain ⟨_, h1, _, h2⟩ := C10_match e
  intro ρ hρ
  have hs := (EqSwap.keeps L hρ h1 BCtx.nil _ h).1
  refine ⟨hs.typed, fun β => ?_⟩
  have e1 := hs.eval β bmodels_nil
  exact ⟨e1, e1.trans (eval_apply (h2 hm) ρ β g)⟩

/-- The match above meets the hypotheses. -/
example : Lawful Demo.K Demo.M ∧ MapClosed [] ∧ SHasType Demo.K [] (VMap.apply [some Demo.zero, some Demo.zero]
    (.eq Demo.nat (.app Demo.suc (.fvar 0)) (.app (.app Demo.add (.fvar 1)) (.fvar 1)))) .boolTy :=
  ⟨Demo.lawful, fun i t h => by simp [VMap.get] at h,
    STyped.eq Demo.s_nat (Demo.s_suc Demo.s_zero) (Demo.s_add Demo.s_zero Demo.s_zero)⟩

/-- Matching well-typed terms does not panic, and when it succeeds every variable of the general term is
mapped to a term of its type.  The general context is monomorphic here: its types have no variables and
are not kinds. -/
theorem C10_typed_partial {K : KCtx} {Γ Δ : LCtx} (hΔ : CtxOk Δ) {g s S : Term}
    (hΓ : ∀ i T, Γ.get i = some T → T.Ground ∧ isKind T = false)
    (hg : ∀ i, g.hasVar i = true → (Γ.get i).isSome = true) (hs : SHasType K Δ s S) :
    ∃ r, VMap.matchTerms K Γ Δ [] g s = some r ∧ ∀ m', r = some m' →
      ∀ i T, Γ.get i = some T → g.hasVar i = true → ∃ t, m'.get i = some t ∧ SHasType K Δ t T := by
  have ap : ∀ (m : VMap) i T, Γ.get i = some T → m.apply T = T := by
    intro m i T hi
    have := apply_extends (m := ([] : VMap)) (m' := m) (fun i t h => by simp [VMap.get] at h) T
      fun j hj => by rw [(hΓ i T hi).1.2 j] at hj; cases hj
    rw [this, VMap.apply_eq_sub (fun i t h => by simp [VMap.get] at h), sub_ground _ _ _ (hΓ i T hi).1]
  have h0 : Sound K Γ Δ [] := by
    refine ⟨fun i T t _ h => by simp [VMap.get] at h, ?_, ?_⟩
    · intro i T hi j hj
      rw [(hΓ i T hi).1.2 j] at hj; cases hj
    · intro i T hi _; rw [ap [] i T hi]; exact (hΓ i T hi).2
  obtain ⟨r, e, hr⟩ := matchTerms_sound hΔ g.size Γ Δ [] g s BCtx.nil (.ty S) 0 (Nat.le_refl _)
    (.refl _) (.refl _) hg (HasType.fscoped hΔ hs.typed).1 (fun _ => rfl) hs h0
  refine ⟨r, e, fun m' er i T hi hv => ?_⟩
  subst er
  obtain ⟨t, ht⟩ := Option.isSome_iff_exists.1 ((C10_match e).2.2.1 i hv)
  have := (hr m' rfl).mapped i T t hi ht
  rw [ap m' i T hi] at this
  exact ⟨t, ht, this⟩

/-- The general form, for any context and starting map: the variables that occur in the types of the
context must be mapped already, and the variables that are not mapped yet must not stand for types. -/
theorem C10_typed_polymorphic_partial {K : KCtx} {Γ Δ : LCtx} (hΔ : CtxOk Δ) {m : VMap} {g s S : Term}
    (h1 : ∀ i T t, Γ.get i = some T → m.get i = some t → SHasType K Δ t (m.apply T))
    (h2 : ∀ i T, Γ.get i = some T → ∀ j, T.hasVar j = true → (m.get j).isSome = true)
    (h3 : ∀ i T, Γ.get i = some T → m.get i = none → isKind (m.apply T) = false)
    (hg : ∀ i, g.hasVar i = true → (Γ.get i).isSome = true) (hs : SHasType K Δ s S) :
    ∃ r, VMap.matchTerms K Γ Δ m g s = some r ∧ ∀ m', r = some m' →
      ∀ i T t, Γ.get i = some T → m'.get i = some t → SHasType K Δ t (m'.apply T) := by
  obtain ⟨r, e, hr⟩ := matchTerms_sound hΔ g.size Γ Δ m g s BCtx.nil (.ty S) 0 (Nat.le_refl _)
    (.refl _) (.refl _) hg (HasType.fscoped hΔ hs.typed).1 (fun _ => rfl) hs ⟨h1, h2, h3⟩
  exact ⟨r, e, fun m' er => (hr m' er).mapped⟩

/-- Both hypotheses hold for numbers in a context with a number, and for `y : x` once `x` is mapped to
the type of numbers. -/
example : (∀ i T, LCtx.get [some Demo.nat] i = some T → T.Ground ∧ isKind T = false) ∧
    CtxOk [some Demo.nat] ∧ SHasType Demo.K [some Demo.nat] (.app Demo.suc (.fvar 0)) Demo.nat ∧
    (let Γ : LCtx := [some .type0, some (.fvar 0)]
     let m : VMap := [some Demo.nat]
     (∀ i T t, Γ.get i = some T → m.get i = some t → SHasType Demo.K [] t (m.apply T)) ∧
     (∀ i T, Γ.get i = some T → ∀ j, T.hasVar j = true → (m.get j).isSome = true) ∧
     (∀ i T, Γ.get i = some T → m.get i = none → isKind (m.apply T) = false)) := by
  have hn : ∀ i T, LCtx.get [some Demo.nat] i = some T → T = Demo.nat := by
    intro i T h
    match i, h with
    | 0, h => cases h; rfl
  refine ⟨fun i T h => ?_, fun i T h => ?_, Demo.s_suc (.fvar rfl rfl), ?_, ?_, ?_⟩
  · rw [hn i T h]; exact ⟨Demo.ground_of rfl rfl, rfl⟩
  · rw [hn i T h]; exact ⟨rfl, by intro i hi; simp [hasVar, atoms] at hi⟩
  · intro i T t h h'
    match i, h, h' with
    | 0, h, h' => cases h; cases h'; exact Demo.s_nat
    | 1, h, h' => cases h'
  · intro i T h j hj
    match i, h with
    | 0, h => cases h; simp [hasVar, atoms] at hj
    | 1, h =>
      cases h
      rw [hv_fvar] at hj
      subst hj; rfl
  · intro i T h h'
    match i, h, h' with
    | 0, h, h' => cases h'
    | 1, h, h' => cases h; rfl

/-- The property fails for variables that range over the types of a typeclass: the code tests whether the
*type* of the special term is an instance, not the special term itself.  So such a variable matches the
number zero, and it does not match the type of numbers, although that is an instance. -/
theorem C10_class_variable_mismatched :
    VMap.matchTerms Demo.K [some Demo.mon] [] [] (.fvar 0) Demo.zero = some (some [some Demo.zero]) ∧
    VMap.matchTerms Demo.K [some Demo.mon] [] [] (.fvar 0) Demo.nat = some none ∧
    SHasType Demo.K [] Demo.nat Demo.mon ∧ ¬ SHasType Demo.K [] Demo.zero Demo.mon := by
  refine ⟨?_, ?_, ?_, ?_⟩
  · have h : VMap.satisfies Demo.K [] Demo.nat (0, 0) = true := rfl
    simp [VMap.matchTerms, VMap.matchVarTyped, VMap.matchVar, escapes, escapesAt, LCtx.get, VMap.apply,
      VMap.get, getType, KCtx.symbolType, setSlot, VMap.constraint, resolveConstraint, List.replicate,
      asTypeclass]
    rw [show Demo.K.globalType 0 0 = some Demo.nat from rfl]
    simp [h]
  · have h : VMap.satisfies Demo.K [] .type0 (0, 0) = false := rfl
    simp [VMap.matchTerms, VMap.matchVarTyped, escapes, escapesAt, LCtx.get, VMap.apply,
      getType, KCtx.symbolType, VMap.constraint, resolveConstraint, asTypeclass, KCtx.typeKind]
    rw [show Demo.K.paramKinds (0, 0) = [] from rfl]
    intro h'
    exact absurd (h'.symm.trans h) (by decide)
  · exact STyped.inst (c := (0, 0)) rfl rfl
  · intro h
    have := STyped.sym_unique (K := Demo.K) (T0 := Demo.nat) rfl rfl (Demo.ground_of rfl rfl) rfl h
    cases this

/-- Matching does not always find an instance when there is one: the orientation of an equality is
chosen once, before the rest of the term is seen. -/
theorem C10_greedy :
    let g : Term := .and (.eq Demo.nat (.fvar 0) (.fvar 1)) (.app Demo.even (.fvar 0))
    let s : Term := .and (.eq Demo.nat Demo.zero (.app Demo.suc Demo.zero)) (.app Demo.even (.app Demo.suc Demo.zero))
    VMap.matchTerms Demo.K [some Demo.nat, some Demo.nat] [] [] g s = some none ∧
    EqSwap (VMap.apply [some (.app Demo.suc Demo.zero), some Demo.zero] g) s := by
  refine ⟨?_, ?_⟩
  · simp [VMap.matchTerms, VMap.matchVarTyped, VMap.matchVar, VMap.andThen, VMap.orElse, escapes, escapesAt,
      LCtx.get, VMap.apply, VMap.get, getType, KCtx.symbolType, Demo.K, Demo.constType, setSlot,
      VMap.constraint, resolveConstraint, List.replicate]
    rw [show (Demo.nat.pi Demo.nat).typeApply Demo.zero = some Demo.nat from rfl]
    simp
  · exact .app (.app (.atom _) (.swap (EqSwap.refl _) (EqSwap.refl _) (EqSwap.refl _))) (EqSwap.refl _)

/-- Matching without types succeeds exactly when the special term is an instance of the general one by
closed terms, and the map it finds is part of every such instance. -/
theorem C10_untyped (m : VMap) (hm : MapClosed m) (g s : Term) :
    (∀ m', VMap.matchRaw m g s = some m' →
      Extends m m' ∧ MapClosed m' ∧ (∀ i, g.hasVar i = true → (m'.get i).isSome = true) ∧ m'.apply g = s) ∧
    (∀ n, Extends m n → MapClosed n → (∀ i, g.hasVar i = true → (n.get i).isSome = true) → n.apply g = s →
      ∃ m', VMap.matchRaw m g s = some m' ∧ Extends m' n) := by
  refine ⟨fun m' e => ?_, fun n h1 h2 h3 h4 => matchRaw_complete g m n s h2 h3 h1 h4⟩
  obtain ⟨h, h'⟩ := matchRaw_matched g m m' s e
  exact ⟨h.ext, fun i t hi => (h.new i t hi).elim (hm i t) id, h.cover, h'⟩

/-- `add(x, x)` matches `add(zero, zero)` but not `add(zero, suc(zero))`. -/
example : VMap.matchRaw [] (.app (.app Demo.add (.fvar 0)) (.fvar 0)) (.app (.app Demo.add Demo.zero) Demo.zero)
      = some [some Demo.zero] ∧
    VMap.matchRaw [] (.app (.app Demo.add (.fvar 0)) (.fvar 0))
      (.app (.app Demo.add Demo.zero) (.app Demo.suc Demo.zero)) = none := by decide +kernel

/-- A literal that matches another one of the same sign, in either orientation, has it as an instance. -/
theorem C10_literal {K : KCtx} {M : Interp.{u}} {Γ Δ : LCtx} {m m' : VMap} (hm : MapClosed m)
    {g s : Literal} {flipped : Bool} (hg : LitTyped K Γ g) (hs : LitTyped K Δ s)
    (hp : g.positive = s.positive) (e : VMap.matchLiteral m g s flipped = some m') (ρ β : Nat → M.D) :
    LitHolds M ρ β s ↔ LitHolds M (Through M m' ρ β) β g := by
  have two : ∀ a b, (VMap.matchRaw m g.left a).bind (fun m1 => VMap.matchRaw m1 g.right b) = some m' →
      MapClosed m' ∧ m'.apply g.left = a ∧ m'.apply g.right = b := by
    intro a b e
    obtain ⟨m1, e1, e2⟩ := Option.bind_eq_some_iff.1 e
    obtain ⟨h1, s1⟩ := matchRaw_matched _ _ _ _ e1
    obtain ⟨h2, s2⟩ := matchRaw_matched _ _ _ _ e2
    exact ⟨fun i t hi => ((h1.trans h2).1.new i t hi).elim (hm i t) id,
      by rw [apply_extends h2.ext _ h1.cover, s1], s2⟩
  unfold VMap.matchLiteral at e
  split at e
  · rename_i hsg
    simp only [Bool.and_eq_true, Literal.isSigned] at hsg
    obtain ⟨h1, s1⟩ := matchRaw_matched _ _ _ _ e
    have hc : MapClosed m' := fun i t hi => (h1.new i t hi).elim (hm i t) id
    obtain ⟨_, eg⟩ := signed_parts hg hsg.1
    obtain ⟨_, es⟩ := signed_parts hs hsg.2
    simp only [LitHolds, hp]
    rw [es, eg]
    simp only [← s1, eval_apply hc]
    rfl
  · split at e
    · obtain ⟨hc, h1, h2⟩ := two _ _ e
      simp only [LitHolds, hp, ← h1, ← h2, eval_apply hc]
      cases s.positive
      · simp only [Bool.false_eq_true, ↓reduceIte]; exact ne_comm
      · simp only [↓reduceIte]; exact eq_comm
    · obtain ⟨hc, h1, h2⟩ := two _ _ e
      simp only [LitHolds, hp, ← h1, ← h2, eval_apply hc]

/-- `suc(x) = y` matches `zero = suc(zero)` flipped. -/
example : VMap.matchLiteral [] ⟨true, .app Demo.suc (.fvar 0), .fvar 1⟩
    ⟨true, Demo.zero, .app Demo.suc Demo.zero⟩ true = some [some Demo.zero, some Demo.zero] := by
  decide +kernel

/-! ### C11: specialization -/

/-- The value of a specialized term is the value of the original under the assignment that gives each
mapped variable the value of its replacement. -/
theorem C11_value {M : Interp.{u}} {m : VMap} (hm : MapClosed m) (t : Term) (ρ β : Nat → M.D) :
    eval M ρ β (m.apply t) = eval M (Through M m ρ β) β t := eval_apply hm ρ β t

/-- The same for literals, whose terms are rewritten with the instance aliases, and whose sides may be
swapped. -/
theorem C11_literal {M : Interp.{u}} {A : Aliases} (hA : AliasesHold M A) {m : VMap} (hm : MapClosed m)
    (l : Literal) (ρ β : Nat → M.D) :
    LitHolds M ρ β (m.specLiteral A l) ↔ LitHolds M (Through M m ρ β) β l :=
  specLiteral_holds hA hm l ρ β

/-- Every specialization of a true clause is true, when the replacements have the types of the variables
in the context of the result. -/
theorem C11_clause {K : KCtx} {M : Interp.{u}} (L : Lawful K M) {A : Aliases} (hA : AliasesHold M A)
    {m : VMap} (hm : MapClosed m) {c c' : Clause} (hc : ClauseTrue M c)
    (e : m.specClause A c = some c' ∨ ∃ Δ, m.specClauseFrom A Δ c = some c')
    (ht : MapTyped K m c.ctx c'.ctx) : ClauseTrue M c' := by
  have hl : c'.lits = c.lits.map (m.specLiteral A) := by
    rcases e with e | ⟨Δ, e⟩
    · obtain ⟨out, _, e⟩ := Option.bind_eq_some_iff.1 e; cases e; rfl
    · obtain ⟨out, _, e⟩ := Option.bind_eq_some_iff.1 e; cases e; rfl
  intro ρ hρ β
  rw [hl, specLits_hold hA hm]
  exact hc _ (through_models L hm ht hρ β) β

/-- A well-typed clause has well-typed specializations. -/
theorem C11_typed {K : KCtx} {M : Interp.{u}} (L : Lawful K M) {A : Aliases} (hA : AliasesHold M A)
    (hT : AliasesTyped K A) {m : VMap} (hm : MapClosed m) {c c' : Clause} (hc : LitsTyped K c.ctx c.lits)
    (hd : ∀ i, (m.get i).isSome = true → (c.ctx.get i).isSome = true)
    (e : m.specClause A c = some c' ∨ ∃ Δ, m.specClauseFrom A Δ c = some c')
    (ht : MapTyped K m c.ctx c'.ctx) : LitsTyped K c'.ctx c'.lits := by
  have hl : c'.lits = c.lits.map (m.specLiteral A) := by
    rcases e with e | ⟨Δ, e⟩
    · obtain ⟨out, _, e⟩ := Option.bind_eq_some_iff.1 e; cases e; rfl
    · obtain ⟨out, _, e⟩ := Option.bind_eq_some_iff.1 e; cases e; rfl
  intro l hl'
  rw [hl, List.mem_map] at hl'
  obtain ⟨l0, h0, rfl⟩ := hl'
  exact specLiteral_typed L hA hT hm ht hd (hc l0 h0)

/-- The context that the code builds is right when the replacements are well typed in their own context,
when the types of the variables that stay do not mention variables that go, and when a variable that
stays has the same type in both contexts if a replacement mentions it. -/
theorem C11_context {K : KCtx} {A : Aliases} {m : VMap} {Δ : LCtx} {c c' : Clause}
    (hr : ∀ i T t, c.ctx.get i = some T → m.get i = some t → SHasType K Δ t (m.apply T))
    (hk : ∀ i T, c.ctx.get i = some T → m.get i = none → m.apply T = T)
    (hs : ∀ i T, c.ctx.get i = some T → m.get i = none →
      ∀ j t, m.get j = some t → t.hasVar i = true → Δ.get i = some T)
    (e : m.specClauseFrom A Δ c = some c') : MapTyped K m c.ctx c'.ctx := by
  obtain ⟨out, eo, e⟩ := Option.bind_eq_some_iff.1 e
  cases e
  have hout := foldlM_set (g := id) m.outVars [] out eo
  intro i T hi
  cases hm : m.get i with
  | none =>
    show (m.keepUnmapped c.ctx out).get i = some (m.apply T)
    rw [keepUnmapped_get, if_pos ⟨hm, by rw [hi]; rfl⟩, hi, hk i T hi hm]
  | some t =>
    refine (hr i T t hi hm).ctx_congr fun j hj => ?_
    show (m.keepUnmapped c.ctx out).get j = _
    rw [keepUnmapped_get]
    split
    · rename_i h
      obtain ⟨U, hU⟩ := Option.isSome_iff_exists.1 h.2
      rw [hU, hs j U hU h.1 i t hm hj]
    · rw [hout, if_pos (mem_outVars hm hj)]
      cases Δ.get j <;> rfl

/-- In particular this is so when the replacements have no variables and neither have the types. -/
theorem C11_context_ground {K : KCtx} {A : Aliases} {m : VMap} {c : Clause}
    (hg : ∀ i T, c.ctx.get i = some T → T.Ground) (hv : ∀ i t, m.get i = some t → t.hasAnyVar = false)
    (hr : ∀ i T t, c.ctx.get i = some T → m.get i = some t → SHasType K [] t T) :
    ∃ c', m.specClause A c = some c' ∧ MapTyped K m c.ctx c'.ctx := by
  have hov : m.outVars = [] := by
    unfold VMap.outVars
    rw [List.flatMap_eq_nil_iff]
    intro o ho
    cases o with
    | none => rfl
    | some t =>
      obtain ⟨i, hi⟩ := List.mem_iff_getElem?.1 ho
      have := hv i t (by unfold VMap.get; rw [hi]; rfl)
      apply List.eq_nil_iff_forall_not_mem.2
      intro v hv'
      rw [Option.elim_some, mem_fvars] at hv'
      rw [hasAnyVar, List.any_eq_false] at this
      rw [hasVar, List.any_eq_true] at hv'
      obtain ⟨a, ha, e⟩ := hv'
      simp only [beq_iff_eq] at e
      subst e
      exact this _ ha rfl
  have hout : m.outCtx c.ctx = some [] := by unfold VMap.outCtx; rw [hov]; rfl
  have ap : ∀ i T, c.ctx.get i = some T → m.apply T = T := by
    intro i T hi
    have := apply_extends (m := ([] : VMap)) (m' := m) (fun i t h => by simp [VMap.get] at h) T
      fun j hj => by rw [(hg i T hi).2 j] at hj; cases hj
    rw [this, VMap.apply_eq_sub (fun i t h => by simp [VMap.get] at h), sub_ground _ _ _ (hg i T hi)]
  refine ⟨⟨_, m.keepUnmapped c.ctx []⟩, by unfold VMap.specClause; rw [hout]; rfl, ?_⟩
  intro i T hi
  rw [ap i T hi]
  cases hm : m.get i with
  | none =>
    show (m.keepUnmapped c.ctx []).get i = _
    rw [keepUnmapped_get, if_pos ⟨hm, by rw [hi]; rfl⟩, hi]
  | some t => exact (hr i T t hi hm).weaken fun j U hj => by simp [LCtx.get] at hj

/-- The alias `add` for `mul` at the type of numbers. -/
def demoAliases : Aliases where
  params m l := if m = 0 ∧ l = 4 then some 1 else none
  lookup m l ts := if m = 0 ∧ l = 4 ∧ ts = [Demo.nat] then some (.global 0 3) else none

/-- The aliases, a clause and a map that meet the hypotheses of the theorems above: specializing
`add(x0, x1) = mul(nat, x1, x0)` with `x0 ↦ zero`. -/
example : AliasesHold Demo.M demoAliases ∧ AliasesTyped Demo.K demoAliases ∧
    (let m : VMap := [some Demo.zero]
     let c : Clause := ⟨[⟨true, .app (.app Demo.add (.fvar 0)) (.fvar 1),
       .app (.app (.app Demo.mul Demo.nat) (.fvar 1)) (.fvar 0)⟩], [some Demo.nat, some Demo.nat]⟩
     MapClosed m ∧ LitsTyped Demo.K c.ctx c.lits ∧ (∀ i T, c.ctx.get i = some T → T.Ground) ∧
     (∀ i t, m.get i = some t → t.hasAnyVar = false) ∧
     (∀ i T t, c.ctx.get i = some T → m.get i = some t → SHasType Demo.K [] t T) ∧
     m.specClause demoAliases c = some ⟨[Literal.new true (.app (.app Demo.add Demo.zero) (.fvar 1))
       (.app (.app Demo.add (.fvar 1)) Demo.zero)], [none, some Demo.nat]⟩) := by
  have hsplit : ∀ m l n ts s, demoAliases.params m l = some n → demoAliases.lookup m l ts = some s →
      m = 0 ∧ l = 4 ∧ ts = [Demo.nat] ∧ s = .global 0 3 := by
    intro m l n ts s h1 h2
    simp only [demoAliases] at h1 h2
    split at h2
    · rename_i h; cases h2; exact ⟨h.1, h.2.1, h.2.2, rfl⟩
    · cases h2
  have hmul : ∀ {Γ Δ}, STyped Demo.K Γ Δ (.app Demo.mul Demo.nat) (.ty (.pi Demo.nat (.pi Demo.nat Demo.nat))) :=
    fun {Γ Δ} => STyped.appTy (A := Demo.mon) (B := .pi (.bvar 0) (.pi (.bvar 1) (.bvar 2)))
      (Demo.s_sym rfl rfl) (STyped.inst (c := (0, 0)) rfl rfl) rfl
  refine ⟨?_, ?_, ?_⟩
  · intro m l n ts s h1 h2 h3 ρ β
    obtain ⟨rfl, rfl, rfl, rfl⟩ := hsplit _ _ _ _ _ h1 h3
    show SetModel.app (Demo.vals (.global 0 4)) (Demo.vals (.type 0 0)) = Demo.vals (.global 0 3)
    simp only [Demo.vals]
    rw [SetModel.app_lam]
    exact ZFSet.mem_singleton.2 rfl
  · intro m l n ts s h1 h2 h3 Γ Δ J h
    obtain ⟨rfl, rfl, rfl, rfl⟩ := hsplit _ _ _ _ _ h1 h3
    have hJ : J = .ty (.pi Demo.nat (.pi Demo.nat Demo.nat)) := by
      cases J with
      | ty T => rw [Typed.unique_of_not_kind (hmul (Γ := Γ) (Δ := Δ)).typed h.typed rfl]
      | isTy =>
        have h' : STyped Demo.K Γ Δ (.app Demo.mul Demo.nat) (.ty .type0) := by
          generalize hx : (Term.sym (.global 0 4)).apply [Demo.nat] = x at h
          cases h with
          | tyOf h => rw [← hx] at h; exact h
          | _ => cases hx
        cases Typed.unique_of_not_kind (hmul (Γ := Γ) (Δ := Δ)).typed h'.typed rfl
    subst hJ
    exact ⟨Demo.s_sym rfl rfl, _, rfl, rfl⟩
  · refine ⟨?_, ?_, ?_, ?_, ?_, ?_⟩
    · intro i t h
      match i, h with
      | 0, h => cases h; rfl
    · intro l hl
      rw [List.mem_singleton] at hl
      subst hl
      refine ⟨Demo.nat, Demo.s_add (.fvar rfl rfl) (.fvar rfl rfl), ?_⟩
      exact .appVal (B := Demo.nat) (.appVal (B := .pi Demo.nat Demo.nat) hmul (.fvar rfl rfl) rfl rfl)
        (.fvar rfl rfl) rfl rfl
    · intro i T h
      match i, h with
      | 0, h => cases h; exact Demo.ground_of rfl rfl
      | 1, h => cases h; exact Demo.ground_of rfl rfl
    · intro i t h
      match i, h with
      | 0, h => cases h; rfl
    · intro i T t h h'
      match i, h, h' with
      | 0, h, h' => cases h; cases h'; exact Demo.s_zero
    · rfl

/-- The second hypothesis of `C11_context` is needed, and the code does not ensure it: a variable that is
not replaced keeps its old type even when the type mentions a replaced variable.  Here `x1 = x1` with
`x0 : Type0` and `x1 : x0` is specialized with `x0 ↦ nat`, and the result is a clause about
`x1 : x0` where `x0` is not declared. -/
theorem C11_stale_type : let m : VMap := [some Demo.nat]
    let c : Clause := ⟨[⟨true, .fvar 1, .fvar 1⟩], [some .type0, some (.fvar 0)]⟩
    MapClosed m ∧ SHasType Demo.K [] Demo.nat .type0 ∧ LitsTyped Demo.K c.ctx c.lits ∧
    ∃ c', m.specClause demoAliases c = some c' ∧ c'.ctx.get 1 = some (.fvar 0) ∧ c'.ctx.get 0 = none ∧
      ¬ MapTyped Demo.K m c.ctx c'.ctx := by
  refine ⟨?_, Demo.s_nat, ?_, ⟨[Literal.new true (.fvar 1) (.fvar 1)], [none, some (.fvar 0)]⟩, rfl, rfl,
    rfl, ?_⟩
  · intro i t h
    match i, h with
    | 0, h => cases h; rfl
  · intro l hl
    rw [List.mem_singleton] at hl
    subst hl
    exact ⟨.fvar 0, .fvar rfl rfl, .fvar rfl rfl⟩
  · intro h
    have := h 1 _ rfl
    cases this

/-- The third hypothesis is needed too: variables of the replacements and variables that stay share their
numbers.  Here `x0 = zero or x1` with `x0 : nat` and `x1 : Bool` is specialized with `x1 ↦ x0` where, in the
context of the replacement, `x0 : Bool`; the result `x0 = zero or x0` is not well typed. -/
theorem C11_captured_variable : let m : VMap := [none, some (.fvar 0)]
    let c : Clause := ⟨[⟨true, .fvar 0, Demo.zero⟩, ⟨true, .fvar 1, .tt⟩], [some Demo.nat, some .boolTy]⟩
    let Δ : LCtx := [some .boolTy]
    MapClosed m ∧ SHasType Demo.K Δ (.fvar 0) .boolTy ∧ LitsTyped Demo.K c.ctx c.lits ∧
    ∃ c', m.specClauseFrom demoAliases Δ c = some c' ∧ ¬ LitsTyped Demo.K c'.ctx c'.lits := by
  refine ⟨?_, .fvar rfl rfl, ?_, ⟨[Literal.new true (.fvar 0) Demo.zero, Literal.new true (.fvar 0) .tt],
    [some Demo.nat]⟩, rfl, ?_⟩
  · intro i t h
    match i, h with
    | 1, h => cases h; rfl
  · intro l hl
    simp only [List.mem_cons, List.not_mem_nil, or_false] at hl
    rcases hl with rfl | rfl
    · exact ⟨Demo.nat, .fvar rfl rfl, Demo.s_zero⟩
    · exact ⟨.boolTy, .fvar rfl rfl, Demo.s_tt⟩
  · intro h
    obtain ⟨T, h1, h2⟩ := litTyped_new.1 (h (Literal.new true (.fvar 0) .tt) (by simp))
    have e1 := STyped.sym_unique (K := Demo.K) (T0 := .boolTy) rfl rfl (Demo.ground_of rfl rfl) rfl h2
    have h3 : SHasType Demo.K [some Demo.nat] (.fvar 0) Demo.nat := .fvar rfl rfl
    have e2 := Typed.unique_of_not_kind h3.typed h1.typed rfl
    rw [e1] at e2
    cases e2

end Acorn
