/-
The checker only derives true clauses: the invariant.
-/
import Verif.Model.Checker
import Verif.Lemmas.CheckerRules
import Verif.Props.EqualityGraph
import Verif.Lemmas.LiteralOrder
namespace Acorn
open Spec Term

universe u

variable {K : KCtx} {Γ : LCtx} {M : Interp.{u}}

/-- A clause the checker may keep. -/
structure Known (K : KCtx) (M : Interp.{u}) (c : Clause) : Prop where
  plain : PlainClause K c
  truth : ClauseTrue M c
  crisp : ∀ l ∈ c.lits, Crisp l

/-! ### Literals without variables -/

theorem noVars_of_any {t : Term} (h : t.hasAnyVar = false) : NoVars t := by
  intro i
  cases e : t.hasVar i with
  | false => rfl
  | true =>
    rw [Term.hasVar, List.any_eq_true] at e
    obtain ⟨a, ha, hb⟩ := e
    rw [Term.hasAnyVar, List.any_eq_false] at h
    have := h a ha
    rw [eq_of_beq hb] at this
    simp at this

/-- A literal without variables, for the equality graph. -/
theorem good_lit {l : Literal} (h : LitTyped K Γ l) (hv : l.hasAnyVar = false) :
    EGraph.GoodLit (fun t => ∃ T, SHasType K [] t T) l := by
  obtain ⟨T, h1, h2⟩ := h
  simp only [Literal.hasAnyVar, Bool.or_eq_false_iff] at hv
  have n1 := noVars_of_any hv.1
  have n2 := noVars_of_any hv.2
  exact ⟨⟨T, h1.ctx_congr fun i hi => by rw [n1 i] at hi; cases hi⟩,
    T, h2.ctx_congr fun i hi => by rw [n2 i] at hi; cases hi⟩

/-- Its truth does not depend on the assignment. -/
theorem lit_value {l : Literal} (h : LitTyped K Γ l) (hv : l.hasAnyVar = false) (ρ σ β γ : Nat → M.D) :
    LitHolds M σ γ l ↔ EGraph.LitT (eval M ρ β) l := by
  obtain ⟨T, h1, h2⟩ := h
  simp only [Literal.hasAnyVar, Bool.or_eq_false_iff] at hv
  have ev : ∀ {t : Term}, SHasType K Γ t T → t.hasAnyVar = false → eval M σ γ t = eval M ρ β t := by
    intro t ht hn
    have n := noVars_of_any hn
    rw [eval_fvars M t σ ρ γ fun i hi => by rw [n i] at hi; cases hi]
    exact eval_closed M ρ γ β t (HasType.closed ht.typed).1
  simp only [LitHolds, EGraph.LitT, ev h1 hv.1, ev h2 hv.2]

/-! ### The invariant -/

/-- The state of a checker that was only given true clauses. -/
structure Inv (K : KCtx) (M : Interp.{u}) (ρ β : Nat → M.D) (s : Checker) : Prop where
  graph : ∃ T, EGraph.Sound (eval M ρ β) M.app (fun t => ∃ T, SHasType K [] t T) T s.graph
  exact : ∀ c ∈ s.exact.keys, Known K M c
  contra : s.contra = false

variable {ρ β : Nat → M.D} {s s' : Checker}

theorem inv_new (K : KCtx) (M : Interp.{u}) (ρ β : Nat → M.D) : Inv K M ρ β Checker.new :=
  ⟨⟨[], EGraph.sound_empty _ _ _⟩, fun c h => by simp [Checker.new, AMap.keys, AMap.empty] at h, rfl⟩

theorem Inv.hasContradiction (h : Inv K M ρ β s) : s.hasContradiction = false := by
  obtain ⟨_, hs⟩ := h.graph
  simp [Checker.hasContradiction, h.contra, hs.contra]

/-- What matters of a state. -/
theorem Inv.of_eq (h : Inv K M ρ β s) (h1 : s'.graph = s.graph) (h2 : s'.exact = s.exact) (h3 : s'.contra = s.contra) :
    Inv K M ρ β s' := ⟨h1 ▸ h.graph, h2 ▸ h.exact, h3 ▸ h.contra⟩

theorem models_empty (ρ : Nat → M.D) : Models M [] ρ := by intro i T h; simp [LCtx.get] at h

/-! ### Questions to the equality graph -/

theorem Inv.evaluate (L : Lawful K M) (h : Inv K M ρ β s) {env : CheckEnv} {l : Literal} (ht : LitTyped K Γ l)
    {r : Option Bool} (e : Checker.evaluate env s l = .done (r, s')) :
    Inv K M ρ β s' ∧ ∀ b, r = some b → ∀ σ γ, (LitHolds M σ γ l ↔ b = true) := by
  simp only [Checker.evaluate, Out.bind_done, Prod.exists] at e
  obtain ⟨r0, g, e1, e⟩ := e
  rw [Out.pure_done, Prod.mk.injEq] at e
  obtain ⟨rfl, rfl⟩ := e
  obtain ⟨T, hs⟩ := h.graph
  cases hv : l.hasAnyVar with
  | true =>
    simp only [Literal.hasAnyVar] at hv
    simp only [EGraph.evaluateLiteral, hv, ↓reduceIte, Out.done.injEq, Prod.mk.injEq] at e1
    obtain ⟨rfl, rfl⟩ := e1
    refine ⟨⟨⟨T, hs⟩, h.exact, h.contra⟩, fun b hb => ?_⟩
    split at hb <;> cases hb
  | false =>
    obtain ⟨⟨T', _, hs'⟩, hb⟩ := hs.evaluateLiteral (egraph_laws L (models_empty ρ) β) env.ω env.fuel
      (good_lit ht hv) e1
    refine ⟨⟨⟨T', hs'⟩, h.exact, h.contra⟩, fun b hb' σ γ => ?_⟩
    rw [lit_value ht hv ρ σ β γ]
    split at hb'
    · exact hb b hb'
    · cases hb'

/-- Simplification by facts: the literals kept are some of the clause, the others are false. -/
theorem Inv.simplifyLits (L : Lawful K M) {env : CheckEnv} : ∀ {ls : List Literal} {s s' : Checker}
    {r : Option (List Literal × Bool)}, Inv K M ρ β s → LitsTyped K Γ ls →
    Checker.simplifyLits env s ls = .done (r, s') → Inv K M ρ β s' ∧
      (r = none → ∀ σ γ, LitsHold M σ γ ls) ∧
      (∀ p, r = some p → (∀ l ∈ p.1, l ∈ ls) ∧ ∀ σ γ, LitsHold M σ γ ls → LitsHold M σ γ p.1) := by
  intro ls
  induction ls with
  | nil =>
    intro s s' r h _ e
    simp only [Checker.simplifyLits, Out.done.injEq, Prod.mk.injEq] at e
    obtain ⟨rfl, rfl⟩ := e
    refine ⟨h, fun h => (by cases h), fun p hp => ?_⟩
    cases hp
    exact ⟨fun l hl => hl, fun _ _ h => h⟩
  | cons l ls ih =>
    intro s s' r h ht e
    simp only [Checker.simplifyLits, Out.bind_done, Prod.exists] at e
    obtain ⟨r0, s0, e1, e⟩ := e
    obtain ⟨h0, hb⟩ := h.evaluate L (ht l (by simp)) e1
    have ht' : LitsTyped K Γ ls := fun k hk => ht k (by simp [hk])
    split at e
    · rw [Out.pure_done, Prod.mk.injEq] at e
      obtain ⟨rfl, rfl⟩ := e
      exact ⟨h0, fun _ σ γ => ⟨l, by simp, (hb true rfl σ γ).2 rfl⟩, fun p hp => by cases hp⟩
    · simp only [Out.bind_done, Prod.exists] at e
      obtain ⟨r1, s1, e2, e⟩ := e
      rw [Out.pure_done, Prod.mk.injEq] at e
      obtain ⟨rfl, rfl⟩ := e
      obtain ⟨h1, hn, hp⟩ := ih h0 ht' e2
      refine ⟨h1, fun hr σ γ => ?_, fun p hr => ?_⟩
      · obtain ⟨k, hk, hh⟩ := hn (by simpa using hr) σ γ
        exact ⟨k, by simp [hk], hh⟩
      · obtain ⟨q, rfl, rfl⟩ := Option.map_eq_some_iff.1 hr
        obtain ⟨p1, p2⟩ := hp q rfl
        refine ⟨fun k hk => by simp [p1 k hk], fun σ γ => ?_⟩
        rintro ⟨k, hk, hh⟩
        rcases List.mem_cons.1 hk with rfl | hk
        · exact absurd ((hb false rfl σ γ).1 hh) (by simp)
        · exact p2 σ γ ⟨k, hk, hh⟩
    · simp only [Out.bind_done, Prod.exists] at e
      obtain ⟨r1, s1, e2, e⟩ := e
      rw [Out.pure_done, Prod.mk.injEq] at e
      obtain ⟨rfl, rfl⟩ := e
      obtain ⟨h1, hn, hp⟩ := ih h0 ht' e2
      refine ⟨h1, fun hr σ γ => ?_, fun p hr => ?_⟩
      · obtain ⟨k, hk, hh⟩ := hn (by simpa using hr) σ γ
        exact ⟨k, by simp [hk], hh⟩
      · obtain ⟨q, rfl, rfl⟩ := Option.map_eq_some_iff.1 hr
        obtain ⟨p1, p2⟩ := hp q rfl
        refine ⟨fun k hk => ?_, fun σ γ => ?_⟩
        · rcases List.mem_cons.1 hk with rfl | hk
          · simp
          · simp [p1 k hk]
        · rintro ⟨k, hk, hh⟩
          rcases List.mem_cons.1 hk with rfl | hk
          · exact ⟨k, by simp, hh⟩
          · obtain ⟨k', hk', hh'⟩ := p2 σ γ ⟨k, hk, hh⟩
            exact ⟨k', by simp [hk'], hh'⟩

/-- Part of a plain clause. -/
theorem plain_sub {c : Clause} (h : PlainClause K c) {ls : List Literal} (hs : ∀ l ∈ ls, l ∈ c.lits) :
    PlainClause K ⟨ls, c.ctx⟩ := plainClause_iff.2 ⟨h.vars, fun l hl => h.neat (hs l hl)⟩

theorem Inv.simplifyVariable (L : Lawful K M) (hN : NoEmpty K M) (h : Inv K M ρ β s) {env : CheckEnv} {c : Clause}
    (hc : Known K M c) {r : Option Clause} (e : Checker.simplifyVariable env s c = .done (r, s')) :
    Inv K M ρ β s' ∧ ∀ d, r = some d → Known K M d := by
  simp only [Checker.simplifyVariable, Out.bind_done, Prod.exists] at e
  obtain ⟨r0, s0, e1, e⟩ := e
  obtain ⟨h0, _, hp⟩ := h.simplifyLits L hc.plain.typed e1
  split at e
  · simp only [Out.bind_done, Out.ofOption_done] at e
    obtain ⟨d, e2, e⟩ := e
    rw [Out.pure_done, Prod.mk.injEq] at e
    obtain ⟨rfl, rfl⟩ := e
    obtain ⟨p1, p2⟩ := hp _ rfl
    refine ⟨h0, fun d' hd => ?_⟩
    cases hd
    have rn := renewed_new L hN (plain_sub hc.plain p1) e2
    exact ⟨rn.plain, rn.truth.2 fun σ hσ γ => p2 σ γ (hc.truth σ hσ γ), rn.crisp fun l hl => hc.crisp l (p1 l hl)⟩
  · rw [Out.pure_done, Prod.mk.injEq] at e
    obtain ⟨rfl, rfl⟩ := e
    exact ⟨h0, fun d hd => by cases hd⟩

theorem anyTrue_sound (L : Lawful K M) {ω : HashOrder} {fuel : Nat} : ∀ {ls : List Literal} {T : List Term}
    {g : EGraph} {r : Bool × EGraph}, EGraph.Sound (eval M ρ β) M.app (fun t => ∃ T, SHasType K [] t T) T g →
    LitsTyped K Γ ls → EGraph.anyTrue ω fuel ls g = .done r →
    (∃ T', EGraph.Sound (eval M ρ β) M.app (fun t => ∃ T, SHasType K [] t T) T' r.2) ∧
      (r.1 = true → ∀ σ γ, LitsHold M σ γ ls) := by
  intro ls
  induction ls with
  | nil =>
    intro T g r h _ e
    simp only [EGraph.anyTrue, Out.done.injEq] at e
    subst e
    exact ⟨⟨T, h⟩, fun h => by cases h⟩
  | cons l ls ih =>
    intro T g r h ht e
    simp only [EGraph.anyTrue, Out.bind_done, Prod.exists] at e
    obtain ⟨r0, g0, e1, e⟩ := e
    have step : (∃ T', EGraph.Sound (eval M ρ β) M.app (fun t => ∃ T, SHasType K [] t T) T' g0) ∧
        (r0 = some true → ∀ σ γ, LitHolds M σ γ l) := by
      cases hv : l.hasAnyVar with
      | true =>
        simp only [Literal.hasAnyVar] at hv
        simp only [EGraph.evaluateLiteral, hv, ↓reduceIte, Out.done.injEq, Prod.mk.injEq] at e1
        obtain ⟨rfl, rfl⟩ := e1
        exact ⟨⟨T, h⟩, fun h => by cases h⟩
      | false =>
        obtain ⟨⟨T', _, hs'⟩, hb⟩ := h.evaluateLiteral (egraph_laws L (models_empty ρ) β) ω fuel
          (good_lit (ht l (by simp)) hv) e1
        exact ⟨⟨T', hs'⟩, fun hr σ γ => (lit_value (ht l (by simp)) hv ρ σ β γ).2 ((hb true hr).2 rfl)⟩
    obtain ⟨⟨T', h0⟩, hb⟩ := step
    split at e
    · rename_i hr
      rw [Out.pure_done] at e
      subst e
      exact ⟨⟨T', h0⟩, fun _ σ γ => ⟨l, by simp, hb hr σ γ⟩⟩
    · obtain ⟨h1, h2⟩ := ih h0 (fun k hk => ht k (by simp [hk])) e
      exact ⟨h1, fun hr σ γ => by
        obtain ⟨k, hk, hh⟩ := h2 hr σ γ
        exact ⟨k, by simp [hk], hh⟩⟩

theorem Inv.checkClause (L : Lawful K M) (h : Inv K M ρ β s) {ω : HashOrder} {fuel : Nat} {ls : List Literal}
    (ht : LitsTyped K Γ ls) {b : Bool} {g : EGraph} (e : s.graph.checkClause ω fuel ls = .done (b, g)) :
    Inv K M ρ β { s with graph := g } ∧ (b = true → ∀ σ γ, LitsHold M σ γ ls) := by
  obtain ⟨T, hs⟩ := h.graph
  simp only [EGraph.checkClause, hs.contra, Bool.false_eq_true, ↓reduceIte, Out.bind_done, Prod.exists] at e
  obtain ⟨b0, g0, e1, e⟩ := e
  obtain ⟨⟨T0, h0⟩, h1⟩ := anyTrue_sound L hs ht e1
  split at e
  · rename_i hb
    rw [Out.pure_done, Prod.mk.injEq] at e
    obtain ⟨rfl, rfl⟩ := e
    exact ⟨⟨⟨T0, h0⟩, h.exact, h.contra⟩, fun _ => h1 hb⟩
  · by_cases hv : ls.any Literal.hasAnyVar = true
    · have hv' : (ls.any fun l => l.left.hasAnyVar || l.right.hasAnyVar) = true := hv
      simp only [EGraph.clauseExists, hv', ↓reduceIte] at e
      split at e <;>
      · cases e
        exact ⟨⟨⟨T0, h0⟩, h.exact, h.contra⟩, fun hb => by cases hb⟩
    · have hv' : ∀ l ∈ ls, l.hasAnyVar = false := by
        intro l hl
        cases hlv : l.hasAnyVar with
        | false => rfl
        | true => exact absurd (List.any_eq_true.2 ⟨l, hl, hlv⟩) hv
      obtain ⟨⟨T1, _, h2⟩, h3⟩ := h0.clauseExists (egraph_laws L (models_empty ρ) β) ω fuel
        (fun l hl => good_lit (ht l hl) (hv' l hl)) e
      refine ⟨⟨⟨T1, h2⟩, h.exact, h.contra⟩, fun hb σ γ => ?_⟩
      obtain ⟨l, hl, hh⟩ := h3 hb
      exact ⟨l, hl, (lit_value (ht l hl) (hv' l hl) ρ σ β γ).2 hh⟩

/-! ### Empty types -/

theorem not_emptyType (L : Lawful K M) (hN : NoEmpty K M) {c : Clause} (h : PlainClause K c) (ht : ClauseTrue M c) :
    Checker.emptyType c = none := by
  obtain ⟨ls, Γ⟩ := c
  unfold Checker.emptyType
  dsimp only
  split
  · rename_i l
    split
    · rfl
    · rename_i hp
      simp only [Bool.or_eq_true, Bool.not_eq_true', not_or, Bool.not_eq_true, Bool.not_eq_false] at hp
      split
      · rename_i A body el
        split
        · rename_i hb
          exfalso
          obtain ⟨σ, hσ⟩ := h.vars.model hN
          have hl := h.neat (l := l) (by simp)
          obtain ⟨t1, t2⟩ := signed_parts hl.plain.typed hp.2
          obtain ⟨k, hk, hh⟩ := ht σ hσ σ
          simp only [List.mem_cons, List.not_mem_nil, or_false] at hk
          subst hk
          rw [signed_holds hl.plain.typed hp.2] at hh
          have sl := hl.left
          rw [el] at t1 hh sl
          obtain ⟨_, hA, hbody⟩ := t1.quant_inv (Or.inr rfl)
          rw [tr_ex L hσ hbody bmodels_nil, hp.1] at hh
          obtain ⟨d, hd⟩ := hN A (Small.of_ctx h.vars (small_of_isTy hA rfl (SortFree.bind.1 sl).1))
          have := hh.1 ⟨d, hd σ σ, by rw [isTrue_eq hbody hb]; rfl⟩
          cases this
        · rfl
      · rfl
  · rfl

/-! ### Recording a clause -/

theorem Inv.record (h : Inv K M ρ β s) {c : Clause} (hc : Known K M c) (reason : StepReason) :
    Inv K M ρ β (s.record c reason) := by
  refine ⟨h.graph, fun d hd => ?_, h.contra⟩
  simp only [Checker.record] at hd
  split at hd
  · exact h.exact d hd
  · obtain ⟨v, hv⟩ := AMap.mem_keys.1 hd
    rw [AMap.get?_insert] at hv
    split at hv
    · rename_i e; subst e; exact hc
    · exact h.exact d (AMap.mem_keys.2 ⟨v, hv⟩)

theorem Inv.note (L : Lawful K M) (hN : NoEmpty K M) (h : Inv K M ρ β s) {c : Clause} (hc : Known K M c)
    (reason : StepReason) {b : Bool} (e : Checker.noteInhabited K ((s.record c reason).noteEmpty c) c = .done (b, s')) :
    Inv K M ρ β s' := by
  have h1 : Inv K M ρ β ((s.record c reason).noteEmpty c) := by
    rw [Checker.noteEmpty, not_emptyType L hN hc.plain hc.truth]
    exact h.record hc reason
  generalize (s.record c reason).noteEmpty c = s1 at h1 e
  simp only [Checker.noteInhabited, Out.bind_done, Prod.exists] at e
  obtain ⟨key, s2, e1, e⟩ := e
  have h2 : Inv K M ρ β s2 := by
    simp only [Checker.markInhabited, Out.bind_done, Out.ofOption_done] at e1
    obtain ⟨o, _, e1⟩ := e1
    split at e1
    · rw [Out.pure_done, Prod.mk.injEq] at e1
      obtain ⟨_, rfl⟩ := e1; exact h1
    · simp only [Out.bind_done, Out.ofOption_done] at e1
      obtain ⟨k, _, e1⟩ := e1
      split at e1
      · rw [Out.pure_done, Prod.mk.injEq] at e1
        obtain ⟨_, rfl⟩ := e1; exact h1
      · rw [Out.pure_done, Prod.mk.injEq] at e1
        obtain ⟨_, rfl⟩ := e1; exact h1.of_eq rfl rfl rfl
  split at e
  · rw [Out.pure_done, Prod.mk.injEq] at e
    obtain ⟨_, rfl⟩ := e; exact h2
  · rename_i k
    have hk : s2.knownEmpty k = false := by
      rw [Checker.knownEmpty, List.any_eq_false]
      intro d hd
      rw [not_emptyType L hN (h2.exact d hd).plain (h2.exact d hd).truth]
      simp
    rw [hk, Out.pure_done, Prod.mk.injEq] at e
    obtain ⟨_, rfl⟩ := e; exact h2

/-! ### Derived clauses -/

/-- Inserting a clause keeps the invariant. -/
def Ins (K : KCtx) (M : Interp.{u}) (ρ β : Nat → M.D) (ins : Checker → Clause → StepReason → Out Checker) : Prop :=
  ∀ s c reason s', Inv K M ρ β s → Known K M c → ins s c reason = .done s' → Inv K M ρ β s'

variable {ins : Checker → Clause → StepReason → Out Checker}

theorem known_normTrace (L : Lawful K M) (hN : NoEmpty K M) {env : CheckEnv} {t : Trace} (hp : PlainClause K t.clause)
    (ht : ClauseTrue M t.clause) {d : Clause} (e : Checker.normTrace env s t = some d) : Known K M d := by
  obtain ⟨r, c⟩ := renewed_checker L hN hp e
  exact ⟨r.plain, r.truth.2 ht, c⟩

theorem known_normFound (L : Lawful K M) (hN : NoEmpty K M) {env : CheckEnv} {ls : List Literal}
    (hp : PlainClause K ⟨ls, Γ⟩) (ht : ClauseTrue M ⟨ls, Γ⟩) {d : Clause}
    (e : Checker.normFound env s ls Γ = some d) : Known K M d := by
  simp only [Checker.normFound, Option.bind_eq_bind, Option.bind_eq_some_iff] at e
  obtain ⟨t, e1, e⟩ := e
  have r := renewed_withTrace L hN hp e1
  exact known_normTrace L hN r.plain (r.truth.2 ht) e

theorem Inv.insertFound (L : Lawful K M) (hN : NoEmpty K M) (hi : Ins K M ρ β ins) {env : CheckEnv}
    {reason : StepReason} : ∀ {found : List (List Literal × LCtx)} {s s' : Checker}, Inv K M ρ β s →
    (∀ p ∈ found, PlainClause K ⟨p.1, p.2⟩ ∧ ClauseTrue M ⟨p.1, p.2⟩) →
    Checker.insertFound env ins reason s found = .done s' → Inv K M ρ β s' := by
  intro found
  induction found with
  | nil => intro s s' h _ e; simp only [Checker.insertFound, Out.done.injEq] at e; subst e; exact h
  | cons p rest ih =>
    obtain ⟨ls, Γ⟩ := p
    intro s s' h hp e
    have hp' : ∀ p ∈ rest, PlainClause K ⟨p.1, p.2⟩ ∧ ClauseTrue M ⟨p.1, p.2⟩ := fun p h => hp p (by simp [h])
    simp only [Checker.insertFound] at e
    split at e
    · exact ih h hp' e
    · rename_i d ed
      split at e
      · exact ih h hp' e
      · simp only [Out.bind_done] at e
        obtain ⟨s1, e1, e⟩ := e
        have h0 := hp (ls, Γ) (by simp)
        exact ih (hi _ _ _ _ h (known_normFound L hN h0.1 h0.2 ed) e1) hp' e

theorem Inv.insertReductions (hi : Ins K M ρ β ins) {step : Nat} : ∀ {rs : List Clause} {s s' : Checker},
    Inv K M ρ β s → (∀ r ∈ rs, Known K M r) → Checker.insertReductions ins step s rs = .done s' → Inv K M ρ β s' := by
  intro rs
  induction rs with
  | nil => intro s s' h _ e; simp only [Checker.insertReductions, Out.done.injEq] at e; subst e; exact h
  | cons r rs ih =>
    intro s s' h hr e
    have hr' : ∀ r ∈ rs, Known K M r := fun q h => hr q (by simp [h])
    simp only [Checker.insertReductions] at e
    split at e
    · exact ih h hr' e
    · simp only [Out.bind_done] at e
      obtain ⟨s1, e1, e⟩ := e
      exact ih (hi _ _ _ _ (h.of_eq (s' := { s with past := r :: s.past }) rfl rfl rfl) (hr r (by simp)) e1) hr' e

theorem known_boolReductions (L : Lawful K M) (hN : NoEmpty K M) {env : CheckEnv} (hE : env.K = K) {c : Clause}
    (hc : Known K M c) {rs : List Clause} (e : Checker.boolReductions env s c = .done rs) :
    ∀ r ∈ rs, Known K M r := by
  subst hE
  simp only [Checker.boolReductions, Out.bind_done, Out.ofOption_done] at e
  obtain ⟨found, e1, e⟩ := e
  rw [Out.pure_done] at e
  subst e
  intro r hr
  obtain ⟨⟨k, i, t⟩, hm, er⟩ := List.mem_filterMap.1 hr
  dsimp only at er
  split at er
  · cases er
  · obtain ⟨h1, h2⟩ := boolReduction_true L hN hc.plain ((findBoolReductions_spec e1).2 k i t hm)
    exact known_normTrace L hN h1 (h2 hc.truth) er

theorem Inv.reduceBool (L : Lawful K M) (hN : NoEmpty K M) (hi : Ins K M ρ β ins) {env : CheckEnv} (hE : env.K = K)
    (h : Inv K M ρ β s) {c : Clause} (hc : Known K M c) {step : Nat}
    (e : Checker.reduceBool env ins s c step = .done s') : Inv K M ρ β s' := by
  simp only [Checker.reduceBool] at e
  split at e
  · cases e; exact h
  · simp only [Out.bind_done] at e
    obtain ⟨rs, e1, e⟩ := e
    exact h.insertReductions hi (known_boolReductions L hN hE hc e1) e

theorem Inv.reduceAll (L : Lawful K M) (hN : NoEmpty K M) (hi : Ins K M ρ β ins) {env : CheckEnv} (hE : env.K = K) :
    ∀ {cs : List (Clause × Nat)} {s s' : Checker}, Inv K M ρ β s → (∀ p ∈ cs, Known K M p.1) →
    Checker.reduceAll env ins s cs = .done s' → Inv K M ρ β s' := by
  intro cs
  induction cs with
  | nil => intro s s' h _ e; simp only [Checker.reduceAll, Out.done.injEq] at e; subst e; exact h
  | cons p cs ih =>
    obtain ⟨c, n⟩ := p
    intro s s' h hp e
    simp only [Checker.reduceAll, Out.bind_done] at e
    obtain ⟨s1, e1, e⟩ := e
    exact ih (h.reduceBool L hN hi hE (hp (c, n) (by simp)) e1) (fun p h => hp p (by simp [h])) e

theorem Inv.reprocess (L : Lawful K M) (hN : NoEmpty K M) (hi : Ins K M ρ β ins) {env : CheckEnv} (hE : env.K = K)
    (h : Inv K M ρ β s) (e : Checker.reprocess env ins s = .done s') : Inv K M ρ β s' := by
  refine h.reduceAll L hN hi hE (fun p hp => h.exact p.1 ?_) e
  exact List.mem_map.2 ⟨p, (env.order_perm _).mem_iff.1 hp, rfl⟩

theorem Inv.insertVariable (L : Lawful K M) (hK : PlainSignature K) (hN : NoEmpty K M) (hi : Ins K M ρ β ins)
    {env : CheckEnv} (hE : env.K = K) (h : Inv K M ρ β s) {c : Clause} (hc : Known K M c) {step : Nat}
    (e : Checker.insertVariable env ins s c step = .done s') : Inv K M ρ β s' := by
  subst hE
  rw [Checker.insertVariable, Out.bind_done] at e
  obtain ⟨⟨r, s1⟩, e1, e⟩ := e
  obtain ⟨h1, hd⟩ := h.simplifyVariable L hN hc e1
  dsimp only at e
  have : ∃ s2, Inv env.K M ρ β s2 ∧ ((do
      let fs ← Out.ofOption (findResolutions env.K env.fuel c)
      let s ← Checker.insertFound env ins (.equalityResolution step) s2 (fs.map fun f => (f.lits, f.ctx))
      match c.findExtensionality env.K env.vp with
      | none => return s
      | some (ls, _) =>
        let d ← Out.ofOption (Clause.new ls c.ctx)
        ins s d (.extensionality step)) : Out Checker) = .done s' := by
    cases r with
    | none => exact ⟨s1, h1, e⟩
    | some d =>
      dsimp only at e
      rw [Out.bind_done] at e
      obtain ⟨s2, e2, e⟩ := e
      exact ⟨s2, hi _ _ _ _ h1 (hd d rfl) e2, e⟩
  obtain ⟨s2, h2, e⟩ := this
  simp only [Out.bind_done, Out.ofOption_done] at e
  obtain ⟨fs, ef, s3, e3, e⟩ := e
  have h3 := h2.insertFound L hN hi (found := fs.map fun f => (f.lits, f.ctx)) (fun p hp => by
    obtain ⟨f, hf, rfl⟩ := List.mem_map.1 hp
    exact resolution_true L hN hc.plain hc.truth ef f hf) e3
  split at e
  · rw [Out.pure_done] at e; subst e; exact h3
  · rename_i ls P ex
    simp only [Out.bind_done, Out.ofOption_done] at e
    obtain ⟨d, ed, e⟩ := e
    obtain ⟨p1, p2, p3⟩ := extensionality_true (M := M) L hK hc.plain hc.crisp ex
    have rn := renewed_new L hN p1 ed
    exact hi _ _ _ _ h3 ⟨rn.plain, rn.truth.2 (p3 hc.truth), rn.crisp p2⟩ e

theorem Inv.insertConcrete (L : Lawful K M) (hN : NoEmpty K M) {env : CheckEnv} (h : Inv K M ρ β s) {c : Clause}
    (hc : Known K M c) (hv : c.hasAnyVar = false) {step : Nat}
    (e : Checker.insertConcrete env s c step = .done s') : Inv K M ρ β s' := by
  simp only [Checker.insertConcrete, Out.bind_done] at e
  obtain ⟨g, e1, e⟩ := e
  rw [Out.pure_done] at e
  subst e
  obtain ⟨T, hs⟩ := h.graph
  have hv' : ∀ l ∈ c.lits, l.hasAnyVar = false := by
    intro l hl
    cases hlv : l.hasAnyVar with
    | false => rfl
    | true => rw [Clause.hasAnyVar, List.any_eq_true.2 ⟨l, hl, hlv⟩] at hv; cases hv
  obtain ⟨σ, hσ⟩ := hc.plain.vars.model hN
  obtain ⟨l, hl, hh⟩ := hc.truth σ hσ σ
  obtain ⟨T', _, hs'⟩ := hs.insertClause (egraph_laws L (models_empty ρ) β) env.ω env.fuel
    (fun l hl => good_lit (hc.plain.typed l hl) (hv' l hl))
    ⟨l, hl, (lit_value (hc.plain.typed l hl) (hv' l hl) ρ σ β σ).1 hh⟩ e1
  exact ⟨⟨T', hs'⟩, h.exact, h.contra⟩

theorem Inv.insertDerived (L : Lawful K M) (hK : PlainSignature K) (hN : NoEmpty K M) (hi : Ins K M ρ β ins)
    {env : CheckEnv} (hE : env.K = K) (h : Inv K M ρ β s) {c : Clause} (hc : Known K M c) {step : Nat}
    (e : Checker.insertDerived env ins s c step = .done s') : Inv K M ρ β s' := by
  subst hE
  simp only [Checker.insertDerived, Out.bind_done, Out.ofOption_done] at e
  obtain ⟨fs, ef, s1, e1, is, ei, e⟩ := e
  have h1 := h.insertFound L hN hi (found := fs.map fun f => (f.lits, f.ctx)) (fun p hp => by
    obtain ⟨f, hf, rfl⟩ := List.mem_map.1 hp
    exact factoring_true L hN hc.plain hc.truth ef f hf) e1
  refine h1.insertFound L hN hi (found := is.map fun ls => (ls, c.ctx)) (fun p hp => ?_) e
  obtain ⟨r, hr, rfl⟩ := List.mem_map.1 hp
  obtain ⟨p1, p2⟩ := injectivity_true (M := M) hK hc.plain hc.crisp ei r hr
  exact ⟨p1, p2 hc.truth⟩

theorem Known.possible (hN : NoEmpty K M) {c : Clause} (hc : Known K M c) : c.isImpossible = false := by
  obtain ⟨σ, hσ⟩ := hc.plain.vars.model hN
  obtain ⟨l, hl, _⟩ := hc.truth σ hσ σ
  cases hi : c.isImpossible with
  | false => rfl
  | true =>
    rw [Clause.isImpossible, List.isEmpty_iff] at hi
    rw [hi] at hl; cases hl

/-- Insertion keeps the invariant. -/
theorem insertInternal_inv (L : Lawful K M) (hK : PlainSignature K) (hN : NoEmpty K M) {env : CheckEnv}
    (hE : env.K = K) : ∀ n, Ins K M ρ β (Checker.insertInternal env n) := by
  intro n
  induction n with
  | zero => intro s c reason s' _ _ e; cases e
  | succ n ih =>
    intro s c reason s' h hc e
    simp only [Checker.insertInternal, hc.possible hN, Bool.false_eq_true, ↓reduceIte] at e
    split at e
    · cases e; exact h
    · simp only [Out.bind_done, Prod.exists] at e
      obtain ⟨b, s1, e1, s2, e2, s3, e3, s4, e4, e⟩ := e
      have h1 : Inv K M ρ β s1 := by subst hE; exact h.note L hN hc reason e1
      have h2 : Inv K M ρ β s2 := by
        rw [Checker.reprocessIf] at e2
        split at e2
        · exact h1.reprocess L hN ih hE e2
        · cases e2; exact h1
      have h3 : Inv K M ρ β s3 := by
        rw [Checker.insertClass] at e3
        split at e3
        · exact h2.insertVariable L hK hN ih hE hc e3
        · rename_i hv
          exact h2.insertConcrete L hN hc (by simpa using hv) e3
      have h4 := h3.insertDerived L hK hN ih hE hc e4
      split at e
      · exact h4.reduceBool L hN ih hE hc e
      · rw [Out.pure_done] at e; subst e; exact h4

/-! ### The entry points -/

/-- Normalization at the entry points. -/
theorem renewed_normal (L : Lawful K M) (hN : NoEmpty K M) {env : CheckEnv} {c d : Clause} (h : PlainClause K c)
    (e : Checker.normal env c = .done d) : Renewed K M c d ∧ (∀ l ∈ d.lits, Crisp l) ∧ NegFirst d.lits := by
  simp only [Checker.normal, Out.bind_done, Out.ofOption_done] at e
  obtain ⟨c1, e1, e⟩ := e
  obtain ⟨r1, k1⟩ := renewed_subterms L hN h e1
  have r2 := renewed_new L hN r1.plain e
  exact ⟨r1.trans r2, r2.crisp k1, normalizePinned_negFirst e⟩

theorem known_normal (L : Lawful K M) (hN : NoEmpty K M) {env : CheckEnv} {c d : Clause} (h : PlainClause K c)
    (ht : ClauseTrue M c) (e : Checker.normal env c = .done d) : Known K M d := by
  obtain ⟨r, k, _⟩ := renewed_normal L hN h e
  exact ⟨r.plain, r.truth.2 ht, k⟩

theorem Inv.insert (L : Lawful K M) (hK : PlainSignature K) (hN : NoEmpty K M) {env : CheckEnv} (hE : env.K = K)
    (h : Inv K M ρ β s) {c : Clause} (hp : PlainClause K c) (ht : ClauseTrue M c) {reason : StepReason}
    (e : Checker.insert env s c reason = .done s') : Inv K M ρ β s' := by
  simp only [Checker.insert, Out.bind_done] at e
  obtain ⟨d, e1, e⟩ := e
  exact insertInternal_inv L hK hN hE _ _ _ _ _ h (known_normal L hN hp ht e1) e

theorem Inv.insertShallow (L : Lawful K M) (hN : NoEmpty K M) {env : CheckEnv} (hE : env.K = K)
    (h : Inv K M ρ β s) {c : Clause} (hc : Known K M c) {reason : StepReason}
    (e : Checker.insertShallow env s c reason = .done s') : Inv K M ρ β s' := by
  simp only [Checker.insertShallow, hc.possible hN, Bool.false_eq_true, ↓reduceIte] at e
  split at e
  · cases e; exact h
  · simp only [Out.bind_done, Prod.exists] at e
    obtain ⟨b, s1, e1, e⟩ := e
    have h1 : Inv K M ρ β s1 := by subst hE; exact h.note L hN hc reason e1
    split at e
    · rw [Out.pure_done] at e; subst e; exact h1
    · rename_i hv
      exact h1.insertConcrete L hN hc (by simpa using hv) e

theorem Inv.insertTrace (L : Lawful K M) (hN : NoEmpty K M) {env : CheckEnv} (hE : env.K = K)
    (h : Inv K M ρ β s) {c : Clause} (hp : PlainClause K c) (ht : ClauseTrue M c) {reason : StepReason}
    (e : Checker.insertTrace env s c reason = .done s') : Inv K M ρ β s' := by
  simp only [Checker.insertTrace, Out.bind_done] at e
  obtain ⟨d, e1, e⟩ := e
  exact h.insertShallow L hN hE (known_normal L hN hp ht e1) e

theorem Inv.enableEager (L : Lawful K M) (hK : PlainSignature K) (hN : NoEmpty K M) {env : CheckEnv} (hE : env.K = K)
    (h : Inv K M ρ β s) (e : Checker.enableEager env s = .done s') : Inv K M ρ β s' :=
  Inv.reprocess L hN (insertInternal_inv L hK hN hE _) hE (h.of_eq (s' := { s with eager := true }) rfl rfl rfl) e

/-! ### Checks -/

/-- What a check of a clause does to the state, and what its answer means. -/
def Checked (K : KCtx) (M : Interp.{u}) (ρ β : Nat → M.D) (c : Clause) (r : Option StepReason) (s : Checker) : Prop :=
  Inv K M ρ β s ∧ (r.isSome = true → ClauseTrue M c)

theorem Inv.checkDirect (L : Lawful K M) (h : Inv K M ρ β s) {env : CheckEnv} {c : Clause} (hp : PlainClause K c)
    {r : Option StepReason} (e : Checker.checkDirect env s c = .done (r, s')) : Checked K M ρ β c r s' := by
  simp only [Checker.checkDirect, h.hasContradiction, Bool.false_eq_true, ↓reduceIte, Out.bind_done, Prod.exists] at e
  obtain ⟨b, g, e1, e⟩ := e
  obtain ⟨h1, h2⟩ := h.checkClause L hp.typed e1
  split at e
  · rename_i hb
    rw [Out.pure_done, Prod.mk.injEq] at e
    obtain ⟨rfl, rfl⟩ := e
    exact ⟨h1, fun _ σ _ γ => h2 hb σ γ⟩
  · split at e
    · rename_i step es
      simp only [Out.bind_done] at e
      obtain ⟨_, _, e⟩ := e
      rw [Out.pure_done, Prod.mk.injEq] at e
      obtain ⟨rfl, rfl⟩ := e
      exact ⟨h1, fun _ => (h1.exact c (AMap.mem_keys.2 ⟨step, es⟩)).truth⟩
    · rw [Out.pure_done, Prod.mk.injEq] at e
      obtain ⟨rfl, rfl⟩ := e
      exact ⟨h1, fun h => by cases h⟩

theorem Inv.checkConcrete (L : Lawful K M) (hN : NoEmpty K M) (h : Inv K M ρ β s) {env : CheckEnv} {c : Clause}
    (hp : PlainClause K c) {r : Option StepReason} (e : Checker.checkConcrete env s c = .done (r, s')) :
    Checked K M ρ β c r s' := by
  simp only [Checker.checkConcrete, Out.bind_done, Prod.exists] at e
  obtain ⟨r0, s0, e1, e⟩ := e
  obtain ⟨h0, hn, hq⟩ := h.simplifyLits L hp.typed e1
  split at e
  · rw [Out.pure_done, Prod.mk.injEq] at e
    obtain ⟨rfl, rfl⟩ := e
    exact ⟨h0, fun _ σ _ γ => hn rfl σ γ⟩
  · rename_i ls changed
    split at e
    · rw [Out.pure_done, Prod.mk.injEq] at e
      obtain ⟨rfl, rfl⟩ := e
      exact ⟨h0, fun h => by cases h⟩
    · simp only [Out.bind_done, Out.ofOption_done] at e
      obtain ⟨d, ed, e⟩ := e
      obtain ⟨p1, _⟩ := hq _ rfl
      have rn := renewed_new L hN (plain_sub hp p1) ed
      obtain ⟨h1, h2⟩ := h0.checkDirect L rn.plain e
      refine ⟨h1, fun hr σ hσ γ => ?_⟩
      obtain ⟨l, hl, hh⟩ := rn.truth.1 (h2 hr) σ hσ γ
      exact ⟨l, p1 l hl, hh⟩

theorem reductionSets_plain (L : Lawful K M) (hN : NoEmpty K M) {env : CheckEnv} (hE : env.K = K) {c : Clause}
    (hp : PlainClause K c) {sets : List (List Clause)} (e : Checker.reductionSets env s c = .done sets) :
    ∀ ds ∈ sets, (∀ d ∈ ds, PlainClause K d) ∧ ((∀ d ∈ ds, ClauseTrue M d) → ClauseTrue M c) := by
  subst hE
  simp only [Checker.reductionSets, Out.ofOption_done] at e
  intro ds hds
  refine ⟨fun d hd => ?_, fun ht => ?_⟩
  · simp only [Clause.checkerReductionSets, Option.bind_eq_bind, Option.pure_def, Option.bind_eq_some_iff] at e
    obtain ⟨rs, er, e⟩ := e
    cases e
    obtain ⟨hg, hat⟩ := findBoolReductions_spec er
    have key : ∀ {k i t d}, (k, i, t) ∈ rs → t.checkerClause env.fuel (Checker.guard env s) = some d →
        PlainClause env.K d := fun hm en =>
      (renewed_checker L hN (boolReduction_true L hN hp (hat _ _ _ hm)).1 en).1.plain
    rcases boolReductionSets_spec hg ds hds with ⟨k, i, t, d', hm, _, en, rfl⟩ |
      ⟨k, k', i, t, t', d1, d2, hm, hm', _, en, en', rfl⟩
    · rw [List.mem_singleton] at hd; subst hd; exact key hm en
    · simp only [List.mem_cons, List.not_mem_nil, or_false] at hd
      rcases hd with rfl | rfl
      · exact key hm en
      · exact key hm' en'
  · have hΓ := ctxOk_of hp.vars.ordered hp.vars.closed
    exact checkerReductionSets_complete L hp.vars.ordered hp.vars.closed hp.typed
      (fun l hl hs => (FnDiseqSimple.of_plain hp.lits).at hΓ hp.typed hl hs) e hds ht

/-- A recursive check. -/
def Chk (K : KCtx) (M : Interp.{u}) (ρ β : Nat → M.D)
    (check : Checker → Clause → List Clause → Out (Option StepReason × List Clause × Checker)) : Prop :=
  ∀ s c seen r seen' s', Inv K M ρ β s → PlainClause K c → check s c seen = .done (r, seen', s') →
    Checked K M ρ β c r s'

variable {chk : Checker → Clause → List Clause → Out (Option StepReason × List Clause × Checker)}

theorem Inv.checkSet (L : Lawful K M) (hc : Chk K M ρ β chk) {env : CheckEnv} : ∀ {ds : List Clause}
    {s s' : Checker} {seen : List Clause} {r : Option (List StepReason)}, Inv K M ρ β s →
    (∀ d ∈ ds, PlainClause K d) → Checker.checkSet env chk s seen ds = .done (r, s') →
    Inv K M ρ β s' ∧ (r.isSome = true → ∀ d ∈ ds, ClauseTrue M d) := by
  intro ds
  induction ds with
  | nil =>
    intro s s' seen r h _ e
    simp only [Checker.checkSet, Out.done.injEq, Prod.mk.injEq] at e
    obtain ⟨_, rfl⟩ := e
    exact ⟨h, fun _ d hd => by cases hd⟩
  | cons d ds ih =>
    intro s s' seen r h hp e
    have hp' : ∀ d ∈ ds, PlainClause K d := fun x hx => hp x (by simp [hx])
    simp only [Checker.checkSet, Out.bind_done, Prod.exists] at e
    obtain ⟨r0, s0, e1, e⟩ := e
    obtain ⟨h0, t0⟩ := h.checkDirect L (hp d (by simp)) e1
    split at e
    · simp only [Out.bind_done, Prod.exists] at e
      obtain ⟨r1, s1, e2, e⟩ := e
      rw [Out.pure_done, Prod.mk.injEq] at e
      obtain ⟨rfl, rfl⟩ := e
      obtain ⟨h1, t1⟩ := ih h0 hp' e2
      refine ⟨h1, fun hr x hx => ?_⟩
      rcases List.mem_cons.1 hx with rfl | hx
      · exact t0 rfl
      · exact t1 (by simpa using hr) x hx
    · simp only [Out.bind_done, Prod.exists] at e
      obtain ⟨r1, seen1, s1, e2, e⟩ := e
      obtain ⟨h1, t1⟩ := hc _ _ _ _ _ _ h0 (hp d (by simp)) e2
      split at e
      · simp only [Out.bind_done, Prod.exists] at e
        obtain ⟨r2, s2, e3, e⟩ := e
        rw [Out.pure_done, Prod.mk.injEq] at e
        obtain ⟨rfl, rfl⟩ := e
        obtain ⟨h2, t2⟩ := ih h1 hp' e3
        refine ⟨h2, fun hr x hx => ?_⟩
        rcases List.mem_cons.1 hx with rfl | hx
        · exact t1 rfl
        · exact t2 (by simpa using hr) x hx
      · rw [Out.pure_done, Prod.mk.injEq] at e
        obtain ⟨rfl, rfl⟩ := e
        exact ⟨h1, fun h => by cases h⟩

theorem Inv.checkSets (L : Lawful K M) (hc : Chk K M ρ β chk) {env : CheckEnv} {c : Clause} :
    ∀ {sets : List (List Clause)} {s s' : Checker} {seen : List Clause} {r : Option StepReason}, Inv K M ρ β s →
    (∀ ds ∈ sets, (∀ d ∈ ds, PlainClause K d) ∧ ((∀ d ∈ ds, ClauseTrue M d) → ClauseTrue M c)) →
    Checker.checkSets env chk s seen sets = .done (r, s') → Checked K M ρ β c r s' := by
  intro sets
  induction sets with
  | nil =>
    intro s s' seen r h _ e
    simp only [Checker.checkSets, Out.done.injEq, Prod.mk.injEq] at e
    obtain ⟨rfl, rfl⟩ := e
    exact ⟨h, fun h => by cases h⟩
  | cons ds sets ih =>
    intro s s' seen r h hs e
    simp only [Checker.checkSets, Out.bind_done, Prod.exists] at e
    obtain ⟨r0, s0, e1, e⟩ := e
    obtain ⟨p1, p2⟩ := hs ds (by simp)
    obtain ⟨h0, t0⟩ := h.checkSet L hc p1 e1
    split at e
    · rw [Out.pure_done, Prod.mk.injEq] at e
      obtain ⟨rfl, rfl⟩ := e
      exact ⟨h0, fun _ => p2 (t0 rfl)⟩
    · exact ih h0 (fun x hx => hs x (by simp [hx])) e

theorem checkReductions_chk (L : Lawful K M) (hN : NoEmpty K M) {env : CheckEnv} (hE : env.K = K) :
    ∀ n, Chk K M ρ β (Checker.checkReductions env n) := by
  intro n
  induction n with
  | zero => intro s c seen r seen' s' _ _ e; cases e
  | succ n ih =>
    intro s c seen r seen' s' h hp e
    simp only [Checker.checkReductions] at e
    split at e
    · simp only [Out.done.injEq, Prod.mk.injEq] at e
      obtain ⟨rfl, _, rfl⟩ := e
      exact ⟨h, fun h => by cases h⟩
    · simp only [Out.bind_done, Prod.exists] at e
      obtain ⟨sets, e1, r0, s0, e2, e⟩ := e
      rw [Out.pure_done, Prod.mk.injEq, Prod.mk.injEq] at e
      obtain ⟨rfl, _, rfl⟩ := e
      exact h.checkSets L ih (reductionSets_plain L hN hE hp e1) e2

theorem Inv.checkBool (L : Lawful K M) (hN : NoEmpty K M) {env : CheckEnv} (hE : env.K = K)
    (h : Inv K M ρ β s) {c : Clause} (hp : PlainClause K c)
    {r : Option StepReason} (e : Checker.checkBool env s c = .done (r, s')) : Checked K M ρ β c r s' := by
  simp only [Checker.checkBool, Out.bind_done, Prod.exists] at e
  obtain ⟨r0, seen, s0, e1, e⟩ := e
  rw [Out.pure_done, Prod.mk.injEq] at e
  obtain ⟨rfl, rfl⟩ := e
  exact checkReductions_chk L hN hE _ _ _ _ _ _ _ h hp e1

theorem checked_orElse {x : Out (Option StepReason × Checker)} {f : Checker → Out (Option StepReason × Checker)}
    {c : Clause} (hx : ∀ r s, x = .done (r, s) → Checked K M ρ β c r s)
    (hf : ∀ s, Inv K M ρ β s → ∀ r s', f s = .done (r, s') → Checked K M ρ β c r s') {r : Option StepReason}
    (e : Checker.orElse x f = .done (r, s')) : Checked K M ρ β c r s' := by
  simp only [Checker.orElse, Out.bind_done, Prod.exists] at e
  obtain ⟨r0, s0, e1, e⟩ := e
  have h0 := hx _ _ e1
  split at e
  · rw [Out.pure_done, Prod.mk.injEq] at e
    obtain ⟨rfl, rfl⟩ := e
    exact ⟨h0.1, fun _ => h0.2 rfl⟩
  · exact hf _ h0.1 _ _ e

theorem Inv.check (L : Lawful K M) (hN : NoEmpty K M) {env : CheckEnv} (hE : env.K = K) (h : Inv K M ρ β s)
    {c : Clause} (hp : PlainClause K c) {r : Option StepReason} (e : Checker.check env s c = .done (r, s')) :
    Checked K M ρ β c r s' := by
  simp only [Checker.check, Out.bind_done] at e
  obtain ⟨d, e1, e⟩ := e
  obtain ⟨rn, _, _⟩ := renewed_normal L hN hp e1
  have := checked_orElse (c := d) (fun r s h' => checked_orElse (c := d) (fun r s e => h.checkDirect L rn.plain e)
    (fun s h r s' e => h.checkBool L hN hE rn.plain e) h') (fun s h r s' e => h.checkConcrete L hN rn.plain e) e
  exact ⟨this.1, fun hr => rn.truth.1 (this.2 hr)⟩

theorem Inv.checkTrace (L : Lawful K M) (hN : NoEmpty K M) {env : CheckEnv} (h : Inv K M ρ β s)
    {c : Clause} (hp : PlainClause K c) {r : Option StepReason} (e : Checker.checkTrace env s c = .done (r, s')) :
    Checked K M ρ β c r s' := by
  simp only [Checker.checkTrace, Out.bind_done] at e
  obtain ⟨d, e1, e⟩ := e
  obtain ⟨rn, _, nf⟩ := renewed_normal L hN hp e1
  split at e
  · rename_i ht
    rw [Out.pure_done, Prod.mk.injEq] at e
    obtain ⟨rfl, rfl⟩ := e
    exact ⟨h, fun _ => rn.truth.1 fun σ _ γ => tautology_holds nf ht σ γ⟩
  · have := checked_orElse (c := d) (fun r s e => h.checkDirect L rn.plain e)
      (fun s h r s' e => h.checkConcrete L hN rn.plain e) e
    exact ⟨this.1, fun hr => rn.truth.1 (this.2 hr)⟩

end Acorn
