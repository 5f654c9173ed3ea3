/-
Activating a step.
-/
import Verif.Lemmas.ActiveSimplify
namespace Acorn
namespace Active
open Spec Term
open Passive (Step)

universe u

variable {R : Type} {E : Env R} {M : Interp.{u}} {K : KCtx} {n : Nat} {ss : List (Step (Info R))}

/-- The graph knows only equations and inequations that hold, if all steps do. -/
def GraphOk (E : Env R) (M : Interp.{u}) (n : Nat) (g : EGraph) : Prop :=
  2 ≤ n → ∀ ρ β, ∃ T, EGraph.Sound (eval M ρ β) M.app (fun t => ∃ T, SHasType E.K [] t T) T g

theorem eval_concrete {Γ : LCtx} {t T : Term} (h : SHasType K Γ t T) (hv : NoVars t) (ρ σ β γ : Nat → M.D) :
    eval M σ γ t = eval M ρ β t := by
  rw [eval_fvars M t σ ρ γ fun i hi => by rw [hv i] at hi; cases hi]
  exact eval_closed M ρ γ β t (HasType.closed h.typed).1

theorem concrete_empty {Γ : LCtx} {t T : Term} (h : SHasType K Γ t T) (hv : NoVars t) : SHasType K [] t T :=
  h.ctx_congr fun i hi => by rw [hv i] at hi; cases hi

theorem exists_models (hN : NoEmpty K M) {Γ : LCtx} (hv : ValueVars K Γ) (ρ : Nat → M.D) : ∃ σ, Models M Γ σ := by
  have key : ∀ i, ∃ d : M.D, ∀ T, Γ.get i = some T → ∀ ρ β, M.mem d (eval M ρ β T) := by
    intro i
    cases hT : Γ.get i with
    | none => exact ⟨ρ 0, fun T h => by cases h⟩
    | some T =>
      obtain ⟨d, hd⟩ := hN T (hv i T hT)
      exact ⟨d, fun T' h => by cases h; exact hd⟩
  exact ⟨fun i => Classical.choose (key i), fun i T hT β => Classical.choose_spec (key i) T hT _ β⟩

/-- A rewrite of concrete terms in the graph. -/
theorem graphEqual_sound (L : Lawful E.K M) (hN : NoEmpty E.K M) {Γ : LCtx} {u v : Term} {holds : Prop}
    (hs : Swap E.K M Γ holds u v) (nu : NoVars u) (nv : NoVars v) (hh : 2 ≤ n → holds) {g g' : EGraph} {i j : Nat}
    {forwards : Bool} (hg : GraphOk E M n g) (e : graphEqual E g u v i j forwards = some g') : GraphOk E M n g' := by
  intro hn ρ β
  obtain ⟨T, hT⟩ := hg hn ρ β
  obtain ⟨U, hU, h1, h2⟩ := hs.type
  unfold graphEqual at e
  split at e
  · rename_i x g1 e1
    split at e
    · rename_i y g2 e2
      split at e
      · rename_i g3 e3
        cases e
        obtain ⟨T1, p1, k1, qa, qb⟩ := EGraph.Sound.pair (egraph_laws L (models_empty ρ) β) E.ω E.fuel hT
          ⟨U, h1⟩ ⟨U, concrete_empty h2 nv⟩ e1 e2
        have ha := EGraph.vals_of_term (V := eval M ρ β) qa
        have hb := EGraph.vals_of_term (V := eval M ρ β) qb
        obtain ⟨σ, hσ⟩ := exists_models hN hs.vars ρ
        have hv : eval M ρ β u = eval M ρ β v := by
          rw [eval_concrete h1 nu σ ρ β β, eval_concrete h2 nv σ ρ β β]
          exact hs.value (hh hn) σ β hσ
        refine ⟨T1, EGraph.Sound.setTermsEqual E.ω E.fuel k1 ?_ e3⟩
        cases forwards
        · exact ⟨_, hb, by rw [← hv]; exact ha⟩
        · exact ⟨_, ha, by rw [hv]; exact hb⟩
      · cases e
    · cases e
  · cases e

/-- A true concrete literal in the graph. -/
theorem graphLiteral_sound (L : Lawful E.K M) {Γ : LCtx} {l : Literal} (hl : Neat E.K Γ l) (hv : l.hasAnyVar = false)
    (ht : 2 ≤ n → ∃ ρ β, LitHolds M ρ β l) {g g' : EGraph} {i : Nat} (hg : GraphOk E M n g)
    (e : graphLiteral E g l i = some g') : GraphOk E M n g' := by
  intro hn ρ β
  obtain ⟨T, hT⟩ := hg hn ρ β
  obtain ⟨U, _, h1, h2⟩ := hl.plain
  have lt : LitTyped E.K Γ l := ⟨U, h1, h2⟩
  obtain ⟨g1, g2⟩ := good_lit lt hv
  unfold graphLiteral at e
  split at e
  · rename_i x ga e1
    split at e
    · rename_i y gb e2
      split at e
      · rename_i gc e3
        cases e
        obtain ⟨T1, p1, k1, qa, qb⟩ := EGraph.Sound.pair (egraph_laws L (models_empty ρ) β) E.ω E.fuel hT g1 g2 e1 e2
        have ha := EGraph.vals_of_term (V := eval M ρ β) qa
        have hb := EGraph.vals_of_term (V := eval M ρ β) qb
        obtain ⟨σ, γ, hh⟩ := ht hn
        have hh := (lit_value lt hv ρ σ β γ).1 hh
        refine ⟨T1, ?_⟩
        split at e3
        · rename_i hp
          simp only [EGraph.LitT, hp, if_true] at hh
          exact EGraph.Sound.setTermsEqual E.ω E.fuel k1 ⟨_, ha, by rw [hh]; exact hb⟩ e3
        · rename_i hp
          simp only [EGraph.LitT, hp, if_false, Bool.false_eq_true] at hh
          exact EGraph.Sound.setTermsNotEqual E.ω E.fuel k1 ⟨_, _, ha, hb, hh⟩ e3
      · cases e
    · cases e
  · cases e

/-! ### A new rewrite target -/

theorem applyRewrite_sound (hE : SoundEnv E M) {a : ActiveSet R} (hg : Good E M n ss a) {id : Nat} {s : Step (Info R)}
    (hs : TrueUpTo E.K M n s) {left : Bool} {p : List PathStep} {u : Term} (hu : Concrete E.K u)
    (hp : PlaceIn s.clause left p u) {x : Nat × Bool}
    (hx : ∃ t : Step (Info R), ss[x.1]? = some t ∧ IsPattern E.K t.clause) {g g' : EGraph} (hG : GraphOk E M n g)
    {o : Option (Step (Info R))} (e : applyRewrite E a id s left p u x g = some (o, g')) :
    (∀ y, o = some y → TrueUpTo E.K M n y) ∧ GraphOk E M n g' := by
  unfold applyRewrite at e
  split at e
  · cases e; exact ⟨fun y h => (by cases h), hG⟩
  · split at e
    · cases e
    · rename_i pattern hpat
      obtain ⟨t, ht, l, hl, pos, hv⟩ := hx
      rw [hg.steps _ _ hpat] at ht
      cases ht
      have hP := hg.all pattern (List.mem_of_getElem? (hg.steps _ _ hpat))
      split at e
      · cases e; exact ⟨fun y h => (by cases h), hG⟩
      · rw [hl] at e
        dsimp only at e
        simp only [Option.bind_eq_bind, Option.bind_eq_some_iff, Option.pure_def] at e
        obtain ⟨r, e1, e⟩ := e
        split at e
        · cases e; exact ⟨fun y h => (by cases h), hG⟩
        · rename_i v Δ
          rw [Option.bind_eq_some_iff] at e
          obtain ⟨y, e2, e⟩ := e
          obtain ⟨U, hU⟩ := hu.type
          have sw := rewriteTerm_sound hE.lawful hE.inhabited hP.plain hl pos hv hU hu.noVars hu.sortFree e1
          have hy : TrueUpTo E.K M n y := trueUpTo_two hP hs
            (rewriteStep_sound hE.lawful hE.inhabited hE.aliasesHold hE.aliases hs.plain hp sw e2)
          split at e
          · split at e
            · cases e
              exact ⟨fun z h => (by cases h; exact hy), hG⟩
            · rename_i hnv
              rw [Option.bind_eq_some_iff] at e
              obtain ⟨g1, e3, e⟩ := e
              cases e
              refine ⟨fun z h => (by cases h; exact hy), graphEqual_sound hE.lawful hE.inhabited sw hu.noVars
                (noVars_of_any (by simpa using hnv)) (fun hn => hP.holds (Nat.le_trans (level_le_two _) hn)) hG e3⟩
          · cases e; exact ⟨fun y h => (by cases h), hG⟩

theorem applyRewrites_sound (hE : SoundEnv E M) {a : ActiveSet R} (hg : Good E M n ss a) {id : Nat} {s : Step (Info R)}
    (hs : TrueUpTo E.K M n s) {left : Bool} {p : List PathStep} {u : Term} (hu : Concrete E.K u)
    (hp : PlaceIn s.clause left p u) : ∀ {xs : List (Nat × Bool)} {g g' : EGraph} {out : List (Step (Info R))},
    (∀ x ∈ xs, ∃ t : Step (Info R), ss[x.1]? = some t ∧ IsPattern E.K t.clause) → GraphOk E M n g →
    applyRewrites E a id s left p u xs g = some (out, g') → (∀ y ∈ out, TrueUpTo E.K M n y) ∧ GraphOk E M n g' := by
  intro xs
  induction xs with
  | nil =>
    intro g g' out _ hG e
    cases e
    exact ⟨fun y h => (by cases h), hG⟩
  | cons x xs ih =>
    intro g g' out hx hG e
    simp only [applyRewrites, Option.bind_eq_bind, Option.bind_eq_some_iff, Option.pure_def, Option.some.injEq,
      Prod.exists, Prod.mk.injEq] at e
    obtain ⟨o, g1, e1, ns, g2, e2, rfl, rfl⟩ := e
    obtain ⟨h1, h2⟩ := applyRewrite_sound hE hg hs hu hp (hx x (by simp)) hG e1
    obtain ⟨h3, h4⟩ := ih (fun y hy => hx y (by simp [hy])) h2 e2
    refine ⟨fun y hy => ?_, h4⟩
    rcases List.mem_append.1 hy with hy | hy
    · exact h1 y (Option.mem_toList.1 hy)
    · exact h3 y hy

/-- What is known about a subterm. -/
def SubOk (E : Env R) (ss : List (Step (Info R))) (x : Subterm) : Prop := Concrete E.K x.term ∧
  (∀ p ∈ x.places, ∃ s : Step (Info R), ss[p.1]? = some s ∧ PlaceIn s.clause p.2.1 p.2.2 x.term) ∧
  ∀ r ∈ x.rewrites, ∃ s : Step (Info R), ss[r.1]? = some s ∧ IsPattern E.K s.clause

theorem Good.change {a : ActiveSet R} (hg : Good E M n ss a) {subs : List Subterm} {g : EGraph}
    {ix : Fingerprint.Trees (List Fingerprint.Component) Nat} (h1 : ∀ x ∈ subs, SubOk E ss x) (h2 : GraphOk E M n g) :
    Good E M n ss { a with
      graph := g
      subterms := subs
      subtermIndex := ix } :=
  ⟨hg.all, hg.steps, hg.literals, hg.patterns, h1, h2, hg.long⟩

theorem mem_set_of {α : Type} {l : List α} {k : Nat} {x y : α} (h : y ∈ l.set k x) : y ∈ l ∨ y = x :=
  List.mem_or_eq_of_mem_set h

theorem enterSubterm_sound {a a' : ActiveSet R} (hg : Good E M n ss a) {id k : Nat} {u : Term} (hu : Concrete E.K u)
    (e : enterSubterm E a id u = some (k, a')) : Good E M n ss a' ∧ a'.steps = a.steps ∧
      ∀ x, a'.subterms[k]? = some x → x.term = u := by
  unfold enterSubterm at e
  split at e
  · rename_i k' hk
    cases e
    refine ⟨hg, rfl, fun x hx => ?_⟩
    obtain ⟨hlt, h1, -⟩ := List.findIdx?_eq_some_iff_getElem.1 hk
    rw [List.getElem?_eq_getElem hlt] at hx
    cases hx
    simpa using h1
  · simp only [Option.bind_eq_bind, Option.bind_eq_some_iff, Option.pure_def, Option.some.injEq, Prod.mk.injEq] at e
    obtain ⟨ix, e1, rfl, rfl⟩ := e
    refine ⟨hg.change (fun x hx => ?_) hg.graph, rfl, fun x hx => ?_⟩
    · rcases List.mem_append.1 hx with hx | hx
      · exact hg.subterms x hx
      · rw [List.mem_singleton] at hx
        subst hx
        refine ⟨hu, fun p hp => (by cases hp), fun r hr => ?_⟩
        obtain ⟨h1, -⟩ := List.mem_filter.1 hr
        obtain ⟨i, hi, h1⟩ := List.mem_flatMap.1 h1
        simp only [List.mem_cons, List.not_mem_nil, or_false] at h1
        rcases h1 with rfl | rfl <;> exact hg.patterns i hi
    · simp only [List.getElem?_append_right (Nat.le_refl _), Nat.sub_self, List.getElem?_cons_zero,
        Option.some.injEq] at hx
      subst hx
      rfl

theorem targetSubterms_sound (hE : SoundEnv E M) {id : Nat} {s : Step (Info R)} (hid : ss[id]? = some s)
    {left : Bool} : ∀ {us : List (List PathStep × Term)} {a a' : ActiveSet R} {out : List (Step (Info R))},
    Good E M n ss a → (∀ x ∈ us, Concrete E.K x.2 ∧ PlaceIn s.clause left x.1 x.2) →
    targetSubterms E id s left us a = some (out, a') →
    (∀ y ∈ out, TrueUpTo E.K M n y) ∧ Good E M n ss a' ∧ a'.steps = a.steps := by
  intro us
  induction us with
  | nil =>
    intro a a' out hg _ e
    cases e
    exact ⟨fun y h => (by cases h), hg, rfl⟩
  | cons x us ih =>
    intro a a' out hg hu e
    obtain ⟨p, u⟩ := x
    have hu' : ∀ x ∈ us, Concrete E.K x.2 ∧ PlaceIn s.clause left x.1 x.2 := fun x hx => hu x (by simp [hx])
    obtain ⟨hc, hp⟩ := hu (p, u) (by simp)
    simp only [targetSubterms, Option.bind_eq_bind, Option.bind_eq_some_iff, Option.pure_def] at e
    obtain ⟨T, eT, e⟩ := e
    split at e
    · exact ih hg hu' e
    · simp only [Option.bind_eq_some_iff, Prod.exists, Option.some.injEq, Prod.mk.injEq] at e
      obtain ⟨k, a1, e1, sub, e2, ns, g, e3, ms, a2, e4, rfl, rfl⟩ := e
      obtain ⟨g1, s1, t1⟩ := enterSubterm_sound hg hc e1
      have hsub := g1.subterms sub (List.mem_of_getElem? e2)
      have ht := t1 sub e2
      obtain ⟨h1, h2⟩ := applyRewrites_sound hE g1 (hg.all s (List.mem_of_getElem? hid)) hc hp hsub.2.2 g1.graph e3
      have g2 : Good E M n ss { a1 with
          graph := g
          subterms := a1.subterms.set k { sub with places := sub.places ++ [(id, left, p)] } } := by
        refine g1.change (fun y hy => ?_) h2
        rcases mem_set_of hy with hy | rfl
        · exact g1.subterms y hy
        · refine ⟨hsub.1, fun q hq => ?_, hsub.2.2⟩
          rcases List.mem_append.1 hq with hq | hq
          · exact hsub.2.1 q hq
          · rw [List.mem_singleton] at hq
            subst hq
            refine ⟨s, hid, ?_⟩
            dsimp only
            rw [ht]
            exact hp
      obtain ⟨h3, h4, h5⟩ := ih g2 hu' e4
      refine ⟨fun y hy => ?_, h4, h5.trans s1⟩
      rcases List.mem_append.1 hy with hy | hy
      · exact h1 y hy
      · exact h3 y hy

theorem vis_getAt {t u : Term} {p : List PathStep} (h : Vis t p u) : t.getAt p = some u := by
  induction h with
  | here t _ => exact getAt_nil t
  | left _ _ ih => exact ih
  | right _ _ ih => exact ih

theorem subterms_concrete {Γ : LCtx} {c : Clause} {l : Literal} (hl : c.lits = [l]) (hn : Neat K Γ l)
    (hv : l.hasAnyVar = false) (left : Bool) {us : List (List PathStep × Term)}
    (e : (if left then l.left else l.right).rewritableSubterms = some us) :
    ∀ x ∈ us, Concrete K x.2 ∧ PlaceIn c left x.1 x.2 := by
  intro x hx
  obtain ⟨q, hq, hvis⟩ := (rewritable_mem _ _ _ e x.1 x.2).1 hx
  have hg := vis_getAt hvis
  rw [List.nil_append] at hq
  rw [← hq] at hg
  obtain ⟨⟨T, _, h1, h2⟩, s1, s2⟩ := hn
  have hv' := hv
  simp only [Literal.hasAnyVar, Bool.or_eq_false_iff] at hv
  have key : ∀ {t : Term}, SHasType K Γ t T → SortFree t → t.hasAnyVar = false → t.getAt x.1 = some x.2 →
      Concrete K x.2 := by
    intro t h1 h2 h3 h4
    have nv : NoVars x.2 := fun i => by
      have := noVars_of_any h3 i
      simp only [hasVar, List.any_eq_false] at this ⊢
      exact fun a ha => this a (getAt_atoms h4 a ha)
    obtain ⟨U, hU⟩ := getAt_typed h4 h1
    exact ⟨⟨U, concrete_empty hU nv⟩, nv, fun a ha => h2 a (getAt_atoms h4 a ha)⟩
  refine ⟨?_, ⟨l, hl, hv', hg⟩⟩
  cases left
  · exact key h2 s2 hv.2 hg
  · exact key h1 s1 hv.1 hg

theorem rewriteTarget_sound (hE : SoundEnv E M) {id : Nat} {s : Step (Info R)} (hid : ss[id]? = some s) {l : Literal}
    (hl : s.clause.lits = [l]) (hv : l.hasAnyVar = false) {a a' : ActiveSet R} {out : List (Step (Info R))}
    (hg : Good E M n ss a) (e : rewriteTarget E a id s l = some (out, a')) :
    (∀ y ∈ out, TrueUpTo E.K M n y) ∧ Good E M n ss a' ∧ a'.steps = a.steps := by
  have hs := hg.all s (List.mem_of_getElem? hid)
  have hn := hs.plain.neat (l := l) (by rw [hl]; simp)
  simp only [rewriteTarget, Option.bind_eq_bind, Option.bind_eq_some_iff, Option.pure_def, Option.some.injEq,
    Prod.exists, Prod.mk.injEq] at e
  obtain ⟨us, e1, ns, a1, e2, vs, e3, ms, a2, e4, rfl, rfl⟩ := e
  obtain ⟨h1, h2, h3⟩ := targetSubterms_sound hE hid hg (subterms_concrete hl hn hv true e1) e2
  obtain ⟨h4, h5, h6⟩ := targetSubterms_sound hE hid h2 (subterms_concrete hl hn hv false e3) e4
  refine ⟨fun y hy => ?_, h5, h6.trans h3⟩
  rcases List.mem_append.1 hy with hy | hy
  · exact h1 y hy
  · exact h4 y hy

/-! ### A new rewrite pattern -/

theorem rewriteKnown_sound (hE : SoundEnv E M) {id : Nat} {s : Step (Info R)} (hid : ss[id]? = some s) {l : Literal}
    (hl : s.clause.lits = [l]) (pos : l.positive = true) (hv : Valued E.K s.clause.ctx l) {forwards : Bool}
    {a a' : ActiveSet R} {k : Nat} {out : List (Step (Info R))} (hg : Good E M n ss a)
    (e : rewriteKnown E id s forwards (patternSides l forwards).1 (patternSides l forwards).2 a k = some (out, a')) :
    (∀ y ∈ out, TrueUpTo E.K M n y) ∧ Good E M n ss a' ∧ a'.steps = a.steps := by
  have hs := hg.all s (List.mem_of_getElem? hid)
  simp only [rewriteKnown, Option.bind_eq_bind, Option.bind_eq_some_iff, Option.pure_def] at e
  obtain ⟨sub, e1, r, e2, e⟩ := e
  have hsub := hg.subterms sub (List.mem_of_getElem? e1)
  split at e
  · cases e
    exact ⟨fun y h => (by cases h), hg, rfl⟩
  · rename_i v Δ
    obtain ⟨U, hU⟩ := hsub.1.type
    have sw := rewriteTerm_sound hE.lawful hE.inhabited hs.plain hl pos hv hU hsub.1.noVars hsub.1.sortFree e2
    simp only [Option.bind_eq_some_iff, Option.some.injEq, Prod.mk.injEq] at e
    obtain ⟨ns, e3, e⟩ := e
    have hG : ∀ g, (if v.hasAnyVar = true then some a.graph else graphEqual E a.graph sub.term v id sub.inspiration
        forwards) = some g → GraphOk E M n g := by
      intro g eg
      split at eg
      · cases eg; exact hg.graph
      · rename_i hnv
        exact graphEqual_sound hE.lawful hE.inhabited sw hsub.1.noVars (noVars_of_any (by simpa using hnv))
          (fun hn => hs.holds (Nat.le_trans (level_le_two _) hn)) hg.graph eg
    have hout : ∀ y ∈ ns.filterMap _root_.id, TrueUpTo E.K M n y := by
      intro y hy
      obtain ⟨o, ho, hy⟩ := List.mem_filterMap.1 hy
      change o = some y at hy
      subst hy
      obtain ⟨x, hx, e4⟩ := mapM_mem e3 _ ho
      unfold rewritePlace at e4
      split at e4
      · cases e4
      · split at e4
        · cases e4
        · rename_i target htg
          split at e4
          · cases e4
          · rw [Option.map_eq_some_iff] at e4
            obtain ⟨z, e5, e6⟩ := e4
            split at e6
            · cases e6
              obtain ⟨t', ht', hp⟩ := hsub.2.1 x hx
              rw [hg.steps _ _ htg] at ht'
              cases ht'
              have ht := hg.all target (List.mem_of_getElem? (hg.steps _ _ htg))
              exact trueUpTo_two hs ht
                (rewriteStep_sound hE.lawful hE.inhabited hE.aliasesHold hE.aliases ht.plain hp sw e5)
            · cases e6
    have fin : ∀ g, GraphOk E M n g → Good E M n ss { a with
        graph := g
        subterms := a.subterms.set k { sub with rewrites := sub.rewrites ++ [(id, forwards)] } } := by
      intro g hg'
      refine hg.change (fun y hy => ?_) hg'
      rcases mem_set_of hy with hy | rfl
      · exact hg.subterms y hy
      · refine ⟨hsub.1, hsub.2.1, fun q hq => ?_⟩
        rcases List.mem_append.1 hq with hq | hq
        · exact hsub.2.2 q hq
        · rw [List.mem_singleton] at hq
          subst hq
          exact ⟨s, hid, l, hl, pos, hv⟩
    split at e
    · rename_i hc
      simp only [Option.bind_some, Option.some.injEq, Prod.mk.injEq] at e
      obtain ⟨rfl, rfl⟩ := e
      exact ⟨hout, fin _ hg.graph, rfl⟩
    · rename_i hc
      rw [Option.bind_eq_some_iff] at e
      obtain ⟨g, e4, e⟩ := e
      cases e
      exact ⟨hout, fin _ (hG g (by rw [if_neg hc]; exact e4)), rfl⟩

theorem rewriteKnowns_sound (hE : SoundEnv E M) {id : Nat} {s : Step (Info R)} (hid : ss[id]? = some s) {l : Literal}
    (hl : s.clause.lits = [l]) (pos : l.positive = true) (hv : Valued E.K s.clause.ctx l) {forwards : Bool} :
    ∀ {ks : List Nat} {a a' : ActiveSet R} {out : List (Step (Info R))}, Good E M n ss a →
    rewriteKnowns E id s forwards (patternSides l forwards).1 (patternSides l forwards).2 ks a = some (out, a') →
    (∀ y ∈ out, TrueUpTo E.K M n y) ∧ Good E M n ss a' ∧ a'.steps = a.steps := by
  intro ks
  induction ks with
  | nil =>
    intro a a' out hg e
    cases e
    exact ⟨fun y h => (by cases h), hg, rfl⟩
  | cons k ks ih =>
    intro a a' out hg e
    simp only [rewriteKnowns, Option.bind_eq_bind, Option.bind_eq_some_iff, Option.pure_def, Option.some.injEq,
      Prod.exists, Prod.mk.injEq] at e
    obtain ⟨ns, a1, e1, ms, a2, e2, rfl, rfl⟩ := e
    obtain ⟨h1, h2, h3⟩ := rewriteKnown_sound hE hid hl pos hv hg e1
    obtain ⟨h4, h5, h6⟩ := ih h2 e2
    refine ⟨fun y hy => ?_, h5, h6.trans h3⟩
    rcases List.mem_append.1 hy with hy | hy
    · exact h1 y hy
    · exact h4 y hy

theorem rewritePattern_sound (hE : SoundEnv E M) {id : Nat} {s : Step (Info R)} (hid : ss[id]? = some s) {l : Literal}
    (hl : s.clause.lits = [l]) (pos : l.positive = true) (hv : Valued E.K s.clause.ctx l)
    {a a' : ActiveSet R} {out : List (Step (Info R))} (hg : Good E M n ss a)
    (e : rewritePattern E a id s l = some (out, a')) :
    (∀ y ∈ out, TrueUpTo E.K M n y) ∧ Good E M n ss a' ∧ a'.steps = a.steps := by
  have one : ∀ {forwards : Bool} {a a' : ActiveSet R} {out : List (Step (Info R))}, Good E M n ss a →
      patternOneWay E a id s (forwards, (patternSides l forwards).1, (patternSides l forwards).2) = some (out, a') →
      (∀ y ∈ out, TrueUpTo E.K M n y) ∧ Good E M n ss a' ∧ a'.steps = a.steps := by
    intro forwards a a' out hg e
    unfold patternOneWay at e
    split at e
    · cases e
      exact ⟨fun y h => (by cases h), hg, rfl⟩
    · simp only [Option.bind_eq_bind, Option.bind_eq_some_iff] at e
      obtain ⟨ks, -, e⟩ := e
      exact rewriteKnowns_sound hE hid hl pos hv hg e
  simp only [rewritePattern, Option.bind_eq_bind, Option.bind_eq_some_iff, Option.pure_def, Option.some.injEq,
    Prod.exists, Prod.mk.injEq] at e
  obtain ⟨ns, a1, e1, ms, a2, e2, rfl, rfl⟩ := e
  obtain ⟨h1, h2, h3⟩ := one (forwards := true) hg e1
  obtain ⟨h4, h5, h6⟩ := one (forwards := false) h2 e2
  refine ⟨fun y hy => ?_, h5, h6.trans h3⟩
  rcases List.mem_append.1 hy with hy | hy
  · exact h1 y hy
  · exact h4 y hy

/-! ### A new literal -/

theorem asTarget_sound (hE : SoundEnv E M) (d : M.D) {a a' : ActiveSet R} {s : Step (Info R)}
    (hid : ss[a.steps.length]? = some s) {l : Literal}
    (hl : s.clause.lits = [l]) {out : List (Step (Info R))} (hg : Good E M n ss a) (e : asTarget E a s l = some (out, a')) :
    (∀ y ∈ out, TrueUpTo E.K M n y) ∧ Good E M n ss a' ∧ a'.steps = a.steps := by
  have hs := hg.all s (List.mem_of_getElem? hid)
  unfold asTarget at e
  split at e
  · cases e
    exact ⟨fun y h => (by cases h), hg, rfl⟩
  · rename_i hv
    have hv : l.hasAnyVar = false := by simpa using hv
    simp only [Option.bind_eq_bind, Option.bind_eq_some_iff] at e
    obtain ⟨g, e1, e⟩ := e
    have hG : GraphOk E M n g := graphLiteral_sound hE.lawful (hs.plain.neat (l := l) (by rw [hl]; simp)) hv
      (fun hn => by
        obtain ⟨σ, hσ⟩ := exists_models hE.inhabited hs.plain.vars (fun _ => d)
        obtain ⟨x, hx, hh⟩ := hs.holds (Nat.le_trans (level_le_two _) hn) σ hσ σ
        rw [hl, List.mem_singleton] at hx
        subst hx
        exact ⟨σ, σ, hh⟩) hg.graph e1
    exact rewriteTarget_sound hE hid hl hv (a := { a with graph := g }) (hg.change hg.subterms hG) e

theorem asPattern_sound (hE : SoundEnv E M) {a a' : ActiveSet R} {s : Step (Info R)}
    (hid : ss[a.steps.length]? = some s) {l : Literal} (hl : s.clause.lits = [l]) (hv : Valued E.K s.clause.ctx l)
    {out : List (Step (Info R))} (hg : Good E M n ss a) (e : asPattern E a s l = some (out, a')) :
    (∀ y ∈ out, TrueUpTo E.K M n y) ∧ Good E M n ss a' ∧ a'.steps = a.steps := by
  unfold asPattern at e
  split at e
  · rename_i hp
    rw [Bool.and_eq_true] at hp
    simp only [Option.bind_eq_bind, Option.bind_eq_some_iff, Option.pure_def, Option.some.injEq,
      Prod.exists, Prod.mk.injEq] at e
    obtain ⟨ns, a1, e1, rfl, rfl⟩ := e
    obtain ⟨h1, h2, h3⟩ := rewritePattern_sound hE hid hl hp.1 hv hg e1
    refine ⟨h1, ⟨h2.all, h2.steps, h2.literals, fun i hi => ?_, h2.subterms, h2.graph, h2.long⟩, h3⟩
    rcases List.mem_append.1 hi with hi | hi
    · exact h2.patterns i hi
    · rw [List.mem_singleton] at hi
      subst hi
      rw [h3]
      exact ⟨s, hid, l, hl, hp.1, hv⟩
  · cases e
    exact ⟨fun y h => (by cases h), hg, rfl⟩

theorem activateLiteral_sound (hE : SoundEnv E M) (d : M.D) {a a' : ActiveSet R} {s : Step (Info R)}
    (hid : ss[a.steps.length]? = some s) {l : Literal} (hl : s.clause.lits = [l]) (hv : Valued E.K s.clause.ctx l)
    {out : List (Step (Info R))} (hg : Good E M n ss a) (e : activateLiteral E a s l = some (out, a')) :
    (∀ y ∈ out, TrueUpTo E.K M n y) ∧ Good E M n ss a' ∧ a'.steps = a.steps := by
  simp only [activateLiteral, Option.bind_eq_bind, Option.bind_eq_some_iff, Option.pure_def,
    Prod.exists] at e
  obtain ⟨ns, a1, e1, ms, a2, e2, e⟩ := e
  obtain ⟨h1, h2, h3⟩ := asTarget_sound hE d hid hl hg e1
  obtain ⟨h4, h5, h6⟩ := asPattern_sound hE (by rw [h3]; exact hid) hl hv h2 e2
  split at e
  · rename_i hf
    rw [Bool.and_eq_true] at hf
    simp only [Option.bind_eq_some_iff, Option.some.injEq, Prod.mk.injEq] at e
    obtain ⟨ls, e3, rfl, rfl⟩ := e
    refine ⟨fun y hy => ?_, ⟨h5.all, h5.steps, ?_, h5.patterns, h5.subterms, h5.graph, h5.long⟩, h6.trans h3⟩
    · rcases List.mem_append.1 hy with hy | hy
      · exact h1 y hy
      · exact h4 y hy
    · obtain ⟨h, ht, hh⟩ := h5.literals
      refine ⟨_, .insert ht e3, fun x hx => ?_⟩
      rcases List.mem_append.1 hx with hx | hx
      · exact hh x hx
      · rw [List.mem_singleton] at hx
        subst hx
        refine ⟨hf, s, ?_, ?_⟩
        · show ss[a2.steps.length]? = some s
          rw [h6, h3]
          exact hid
        · rw [← hl]
  · cases e

/-! ### Activation -/

theorem addTargets_same {K : KCtx} {Γ : LCtx} {id : Nat} : ∀ {ls : List Literal} {i : Nat} {a a' : ActiveSet R},
    addTargets K Γ id i ls a = some a' → a'.steps = a.steps ∧ a'.literals = a.literals ∧ a'.patterns = a.patterns ∧
      a'.subterms = a.subterms ∧ a'.graph = a.graph ∧ a'.long = a.long := by
  intro ls
  induction ls with
  | nil => intro i a a' e; cases e; exact ⟨rfl, rfl, rfl, rfl, rfl, rfl⟩
  | cons l ls ih =>
    intro i a a' e
    simp only [addTargets, Option.bind_eq_bind, Option.bind_eq_some_iff] at e
    obtain ⟨t1, -, t2, -, e⟩ := e
    have := ih e
    split at this <;> exact this

theorem insert_sound {a a' : ActiveSet R} {s : Step (Info R)} (hg : Good E M n (a.steps ++ [s]) a)
    (e : a.insert E s = some a') : Good E M n a'.steps a' ∧ a'.steps = a.steps ++ [s] := by
  simp only [ActiveSet.insert, Option.bind_eq_bind, Option.bind_eq_some_iff, Option.pure_def] at e
  obtain ⟨key, -, e⟩ := e
  have key' : ∀ (inh : AMap (Term × LCtx) Nat) (a1 : ActiveSet R),
      addTargets E.K s.clause.ctx a.steps.length 0 s.clause.lits { a with inhabited := inh } = some a1 →
      a' = { a1 with
        long := if s.clause.lits.length > 1 then s.clause :: a1.long else a1.long
        steps := a1.steps ++ [s] } → Good E M n a'.steps a' ∧ a'.steps = a.steps ++ [s] := by
    intro inh a1 e1 e2
    obtain ⟨h1, h2, h3, h4, h5, h6⟩ := addTargets_same e1
    dsimp only at h1 h2 h3 h4 h5 h6
    have hst : a'.steps = a.steps ++ [s] := by rw [e2]; show a1.steps ++ [s] = _; rw [h1]
    refine ⟨?_, hst⟩
    rw [hst]
    refine ⟨hg.all, fun i x hx => (by rw [← hst]; exact hx), ?_, ?_, ?_, ?_, ?_⟩
    · rw [e2]; show ∃ h, LiteralTree a1.literals h ∧ _; rw [h2]; exact hg.literals
    · rw [e2]; show ∀ i ∈ a1.patterns, _; rw [h3]; exact hg.patterns
    · rw [e2]; show ∀ x ∈ a1.subterms, _; rw [h4]; exact hg.subterms
    · rw [e2]; show GraphOk E M n a1.graph; rw [h5]; exact hg.graph
    · intro c hc
      rw [e2] at hc
      dsimp only at hc
      rw [h6] at hc
      split at hc
      · rcases List.mem_cons.1 hc with rfl | hc
        · exact ⟨s, by simp, rfl⟩
        · exact hg.long c hc
      · exact hg.long c hc
  cases key with
  | none =>
    obtain ⟨a1, e1, e2⟩ := e
    exact key' _ a1 e1 (Option.some.inj e2).symm
  | some k =>
    obtain ⟨a1, e1, e2⟩ := e
    exact key' _ a1 e1 (Option.some.inj e2).symm

theorem Good.extend {a : ActiveSet R} (hg : Good E M n a.steps a) {s : Step (Info R)} (hs : TrueUpTo E.K M n s) :
    Good E M n (a.steps ++ [s]) a := by
  have up : ∀ {i : Nat} {x : Step (Info R)}, a.steps[i]? = some x → (a.steps ++ [s])[i]? = some x := by
    intro i x h
    rw [List.getElem?_append_left (List.getElem?_eq_some_iff.1 h).1]
    exact h
  refine ⟨fun x hx => ?_, fun i x h => up h, ?_, fun i hi => ?_, fun x hx => ?_, hg.graph, fun c hc => ?_⟩
  · rcases List.mem_append.1 hx with hx | hx
    · exact hg.all x hx
    · rw [List.mem_singleton] at hx
      subst hx
      exact hs
  · obtain ⟨h, ht, hh⟩ := hg.literals
    exact ⟨h, ht, fun e he => (hh e he).imp_right fun ⟨x, h1, h2⟩ => ⟨x, up h1, h2⟩⟩
  · obtain ⟨x, h1, h2⟩ := hg.patterns i hi
    exact ⟨x, up h1, h2⟩
  · obtain ⟨h1, h2, h3⟩ := hg.subterms x hx
    refine ⟨h1, fun p hp => ?_, fun r hr => ?_⟩
    · obtain ⟨y, k1, k2⟩ := h2 p hp
      exact ⟨y, up k1, k2⟩
    · obtain ⟨y, k1, k2⟩ := h3 r hr
      exact ⟨y, up k1, k2⟩
  · obtain ⟨x, h1, h2⟩ := hg.long c hc
    exact ⟨x, List.mem_append_left _ h1, h2⟩

/-- Activating a step. -/
theorem activate_sound (hE : SoundEnv E M) (d : M.D) {a a' : ActiveSet R} (hg : Good E M n a.steps a) {s : Step (Info R)}
    (hs : TrueUpTo E.K M n s) (hsh : Sharp E.K s.clause) {out : List (Step (Info R))}
    (e : a.activate E s = some (out, a')) :
    (∀ y ∈ out, TrueUpTo E.K M n y) ∧ Good E M n a'.steps a' ∧ a'.steps = a.steps ++ [s] := by
  have hx := hg.extend hs
  have hid : (a.steps ++ [s])[a.steps.length]? = some s := by simp
  simp only [ActiveSet.activate, Option.bind_eq_bind, Option.bind_eq_some_iff, Option.pure_def] at e
  obtain ⟨o1, e1, o2, e2, o3, e3, o4, e4, o5, e5, o6, e6, e⟩ := e
  have b1 := equalityResolution_sound hE.lawful hE.inhabited hs e1
  have b2 := equalityFactoring_sound hE.lawful hE.inhabited hs e2
  have b3 := injectivity_sound hE.lawful hE.inhabited hE.signature hs hsh e3
  have b4 := booleanReduction_sound hE.lawful hE.inhabited hE.opens hg.all hs e4
  have b5 := extensionality_sound hE.lawful hE.inhabited hE.signature hs hsh e5
  have b6 := findAllResolutions_sound hE.lawful hE.inhabited hg.all hs e6
  have fin : ∀ (o7 : List (Step (Info R))) (a1 : ActiveSet R), (∀ y ∈ o7, TrueUpTo E.K M n y) →
      Good E M n (a.steps ++ [s]) a1 → a1.steps = a.steps → a1.insert E s = some a' →
      out = o1 ++ o2 ++ o3 ++ o4 ++ o5 ++ o6 ++ o7 →
      (∀ y ∈ out, TrueUpTo E.K M n y) ∧ Good E M n a'.steps a' ∧ a'.steps = a.steps ++ [s] := by
    intro o7 a1 b7 g1 s1 e7 e8
    rw [← s1] at g1
    obtain ⟨k1, k2⟩ := insert_sound g1 e7
    refine ⟨fun y hy => ?_, k1, by rw [k2, s1]⟩
    rw [e8] at hy
    simp only [List.mem_append] at hy
    rcases hy with (((((hy | hy) | hy) | hy) | hy) | hy) | hy
    · exact b1 y hy
    · exact b2 y hy
    · exact b3 y hy
    · exact b4 y hy
    · exact b5 y hy
    · exact b6 y hy
    · exact b7 y hy
  split at e
  · rename_i l hl
    simp only [Option.bind_eq_some_iff, Option.some.injEq, Prod.exists, Prod.mk.injEq] at e
    obtain ⟨o7, a1, e7, a2, e8, rfl, rfl⟩ := e
    obtain ⟨T, hT, hlt⟩ := (hsh l (by rw [hl]; simp)).2.2
    obtain ⟨h1, h2, h3⟩ := activateLiteral_sound hE d hid hl ⟨T, hT, hlt⟩ hx e7
    exact fin o7 a1 h1 h2 h3 e8 rfl
  · simp only [Option.bind_some, Option.bind_eq_some_iff, Option.some.injEq, Prod.mk.injEq] at e
    obtain ⟨a2, e8, rfl, rfl⟩ := e
    exact fin [] a (fun y h => (by cases h)) hx rfl e8 rfl

theorem good_new : Good E M n [] (ActiveSet.new : ActiveSet R) where
  all := fun s h => by cases h
  steps := fun i s h => by cases h
  literals := ⟨[], .empty, fun e h => by cases h⟩
  patterns := fun i h => by cases h
  subterms := fun x h => by cases h
  graph := fun _ _ _ => ⟨[], EGraph.sound_empty _ _ _⟩
  long := fun c h => by cases h

theorem grows_good (hE : SoundEnv E M) (d : M.D) {a : ActiveSet R} {ss : List (Step (Info R))} (h : Grows E a ss) :
    (∀ s ∈ ss, TrueUpTo E.K M n s ∧ Sharp E.K s.clause) → Good E M n a.steps a ∧ a.steps = ss := by
  induction h with
  | new => intro _; exact ⟨good_new, rfl⟩
  | @activate a a' ss new s _ e ih =>
    intro hs
    obtain ⟨g, rfl⟩ := ih fun x hx => hs x (by simp [hx])
    obtain ⟨h1, h2⟩ := hs s (by simp)
    exact (activate_sound hE d g h1 h2 e).2

end Active
end Acorn
