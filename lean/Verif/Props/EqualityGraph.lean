/-
C17, C18: contradictions and answers of the equality graph.
-/
import Verif.Spec.EqualityGraph
import Verif.Spec.DemoSimple
import Verif.Lemmas.EGraphSoundApi
import Verif.Lemmas.BoolReduce
import Verif.Spec.SetModel
namespace Acorn
open Spec Term

universe u

/-- Values in a lawful interpretation satisfy what soundness needs. -/
theorem egraph_laws {K : KCtx} {M : Interp.{u}} (L : Lawful K M) {Γ : LCtx} {ρ : Nat → M.D}
    (hρ : Models M Γ ρ) (β : Nat → M.D) :
    EGraph.Laws (eval M ρ β) M.app fun t => ∃ T, SHasType K Γ t T where
  app f a := rfl
  good f a h := by
    obtain ⟨T, h⟩ := h
    rcases h.app_inv with ⟨A, B, _, h1, h2, _⟩ | ⟨A, B, h1, h2, _⟩
    · exact ⟨⟨_, h1⟩, _, h2⟩
    · exact ⟨⟨_, h1⟩, _, h2⟩
  swap t s h e := by
    obtain ⟨T, h⟩ := h
    simp only [EGraph.swappedEq] at e
    split at e
    · rename_i ty x y ha
      split at e
      · rename_i hh
        split at e
        · cases e
          obtain ⟨hk, T0, hT0, hg0, hn0⟩ := valueSym_type (K := K) (s := .eq_) rfl
          have hs := STyped.spineHead_of_head hk hT0 hg0 hn0 t h hh
          have ht : t = .eq ty x y := by
            rw [← apply_args t, hs, ha]; rfl
          subst ht
          obtain ⟨e1, hT, hx, hy⟩ := h.eq_inv
          cases e1
          have h' := STyped.eq hT hy hx
          refine ⟨⟨_, h'⟩, ?_⟩
          refine bool_ext L (h'.bool_mem L hρ bmodels_nil) (h.bool_mem L hρ bmodels_nil) ?_
          have t1 := tr_eq L hρ h' (bmodels_nil (β := β))
          have t2 := tr_eq L hρ h (bmodels_nil (β := β))
          simp only [Tr] at t1 t2
          rw [t1, t2]
          exact eq_comm
        · cases e
      · cases e
    · cases e

theorem goodLits {K : KCtx} {Γ : LCtx} {ls : List Literal}
    (h : ∀ t ∈ ls.flatMap (fun l => [l.left, l.right]), ∃ T, SHasType K Γ t T) :
    ∀ l ∈ ls, EGraph.GoodLit (fun t => ∃ T, SHasType K Γ t T) l := fun l hl =>
  ⟨h l.left (List.mem_flatMap.2 ⟨l, hl, by simp⟩), h l.right (List.mem_flatMap.2 ⟨l, hl, by simp⟩)⟩

/-- The graph of a history is sound. -/
theorem reach_sound {K : KCtx} {M : Interp.{u}} (L : Lawful K M) {Γ : LCtx} {ρ : Nat → M.D}
    (hρ : Models M Γ ρ) (β : Nat → M.D) {cs : List GCmd} {g : EGraph} (hr : Reach cs g)
    (ht : ∀ c ∈ cs, c.Typed K Γ) (hf : ∀ c ∈ cs, c.Holds M ρ β) :
    ∃ T, EGraph.Sound (eval M ρ β) M.app (fun t => ∃ T, SHasType K Γ t T) T g := by
  have W := egraph_laws L hρ β
  induction hr with
  | start => exact ⟨[], EGraph.sound_empty _ _ _⟩
  | @step cs g ω fuel c r hr e ih =>
    obtain ⟨T, h⟩ := ih (fun c hc => ht c (List.mem_append_left _ hc))
      (fun c hc => hf c (List.mem_append_left _ hc))
    have hc : c ∈ cs ++ [c] := List.mem_append_right _ List.mem_cons_self
    have hT := ht c hc
    have hH := hf c hc
    cases c with
    | insert t =>
      simp only [GCmd.run, Out.bind_done, Out.pure_done] at e
      obtain ⟨r1, e1, rfl⟩ := e
      obtain ⟨T', _, h', _⟩ := EGraph.Sound.insertTerm W ω _ h (hT t (by simp [GCmd.terms])) e1
      exact ⟨T', h'⟩
    | equate s t p i =>
      simp only [GCmd.run, Out.bind_done, Out.pure_done] at e
      obtain ⟨r1, e1, r2, e2, g3, e3, rfl⟩ := e
      obtain ⟨T', _, h', qa, qb⟩ := EGraph.Sound.pair W ω _ h (hT s (by simp [GCmd.terms]))
        (hT t (by simp [GCmd.terms])) e1 e2
      have hH : eval M ρ β s = eval M ρ β t := hH
      exact ⟨T', EGraph.Sound.setTermsEqual ω _ h'
        ⟨_, EGraph.vals_of_term qa, by rw [EGraph.vals_of_term qb, hH]⟩ e3⟩
    | separate s t p =>
      simp only [GCmd.run, Out.bind_done, Out.pure_done] at e
      obtain ⟨r1, e1, r2, e2, g3, e3, rfl⟩ := e
      obtain ⟨T', _, h', qa, qb⟩ := EGraph.Sound.pair W ω _ h (hT s (by simp [GCmd.terms]))
        (hT t (by simp [GCmd.terms])) e1 e2
      exact ⟨T', EGraph.Sound.setTermsNotEqual ω _ h'
        ⟨_, _, EGraph.vals_of_term qa, EGraph.vals_of_term qb, hH⟩ e3⟩
    | clause ls p =>
      simp only [GCmd.run, Out.bind_done, Out.pure_done] at e
      obtain ⟨g1, e1, rfl⟩ := e
      obtain ⟨T', _, h'⟩ := EGraph.Sound.insertClause W ω _ h (goodLits hT) hH e1
      exact ⟨T', h'⟩
    | evaluate l =>
      obtain ⟨⟨T', _, h'⟩, _⟩ := EGraph.Sound.evaluateLiteral W ω _ h
        ⟨hT l.left (by simp [GCmd.terms]), hT l.right (by simp [GCmd.terms])⟩ e
      exact ⟨T', h'⟩
    | check ls =>
      simp only [GCmd.run, Out.bind_done, Out.pure_done] at e
      obtain ⟨r1, e1, rfl⟩ := e
      obtain ⟨⟨T', _, h'⟩, _⟩ := EGraph.Sound.checkClause W ω _ h (goodLits hT) e1
      exact ⟨T', h'⟩
    | lookup ls =>
      simp only [GCmd.run, Out.bind_done, Out.pure_done] at e
      obtain ⟨r1, e1, rfl⟩ := e
      obtain ⟨⟨T', _, h'⟩, _⟩ := EGraph.Sound.clauseExists W ω _ h (goodLits hT) e1
      exact ⟨T', h'⟩

/-- **C17.** When the graph reports a contradiction after some history of well-typed commands, no
interpretation satisfies everything the history asserted. -/
theorem C17_contradiction_real {K : KCtx} {cs : List GCmd} {g : EGraph} (hr : Reach cs g)
    (hc : g.contra = true) {M : Interp.{u}} (L : Lawful K M) {Γ : LCtx}
    (ht : ∀ c ∈ cs, c.Typed K Γ) {ρ : Nat → M.D} (hρ : Models M Γ ρ) (β : Nat → M.D) :
    ¬ ∀ c ∈ cs, c.Holds M ρ β := by
  intro hf
  obtain ⟨T, h⟩ := reach_sound L hρ β hr ht hf
  rw [h.contra] at hc; cases hc

/-- **C18 (literals).** When the graph answers that a literal is true, or false, after some history,
it is true, or false, in every interpretation that satisfies everything the history asserted. -/
theorem C18_evaluate {K : KCtx} {cs : List GCmd} {g g' : EGraph} (hr : Reach cs g) {ω : HashOrder}
    {fuel : Nat} {l : Literal} {b : Bool} (e : g.evaluateLiteral ω fuel l = .done (some b, g'))
    {M : Interp.{u}} (L : Lawful K M) {Γ : LCtx} (ht : ∀ c ∈ cs, c.Typed K Γ)
    (hl : LitTyped K Γ l) {ρ : Nat → M.D} (hρ : Models M Γ ρ) (β : Nat → M.D)
    (hf : ∀ c ∈ cs, c.Holds M ρ β) : LitHolds M ρ β l ↔ b = true := by
  obtain ⟨T, h⟩ := reach_sound L hρ β hr ht hf
  obtain ⟨A, h1, h2⟩ := hl
  exact (EGraph.Sound.evaluateLiteral (egraph_laws L hρ β) ω fuel h ⟨⟨_, h1⟩, ⟨_, h2⟩⟩ e).2 b rfl

/-- **C18 (clauses).** When the graph accepts a clause, by its literals or because it is stored, the
clause holds in every interpretation that satisfies everything the history asserted. -/
theorem C18_check {K : KCtx} {cs : List GCmd} {g g' : EGraph} (hr : Reach cs g) {ω : HashOrder}
    {fuel : Nat} {ls : List Literal}
    (e : g.checkClause ω fuel ls = .done (true, g') ∨ g.clauseExists ω fuel ls = .done (true, g'))
    {M : Interp.{u}} (L : Lawful K M) {Γ : LCtx} (ht : ∀ c ∈ cs, c.Typed K Γ)
    (hl : LitsTyped K Γ ls) {ρ : Nat → M.D} (hρ : Models M Γ ρ) (β : Nat → M.D)
    (hf : ∀ c ∈ cs, c.Holds M ρ β) : LitsHold M ρ β ls := by
  obtain ⟨T, h⟩ := reach_sound L hρ β hr ht hf
  have hg : ∀ l ∈ ls, EGraph.GoodLit (fun t => ∃ T, SHasType K Γ t T) l := by
    intro l hm
    obtain ⟨A, h1, h2⟩ := hl l hm
    exact ⟨⟨_, h1⟩, ⟨_, h2⟩⟩
  rcases e with e | e
  · exact (EGraph.Sound.checkClause (egraph_laws L hρ β) ω fuel h hg e).2 rfl
  · exact (EGraph.Sound.clauseExists (egraph_laws L hρ β) ω fuel h hg e).2 rfl

/-! ### Concrete histories -/

/-- Hash maps iterated in the order of their lists. -/
def plainOrder : HashOrder := ⟨id, fun _ => List.Perm.refl _, id, fun _ => List.Perm.refl _⟩

/-- Perform several commands. -/
def runAll (fuel : Nat) : List GCmd → EGraph → Out EGraph
  | [], g => .done g
  | c :: cs, g =>
    match GCmd.run plainOrder fuel g c with
    | .done r => runAll fuel cs r.2
    | .panic => .panic
    | .more => .more

theorem reach_runAll {fuel : Nat} : ∀ (cs : List GCmd) {ds : List GCmd} {g g' : EGraph},
    Reach ds g → runAll fuel cs g = .done g' → Reach (ds ++ cs) g' := by
  intro cs
  induction cs with
  | nil => intro ds g g' h e; cases e; simpa using h
  | cons c cs ih =>
    intro ds g g' h e
    simp only [runAll] at e
    split at e
    · rename_i r er
      have := ih (h.step er) e
      simpa using this
    · cases e
    · cases e

/-- Whether a run ends with a contradiction. -/
def contraAfter (fuel : Nat) (cs : List GCmd) : Option Bool :=
  match runAll fuel cs EGraph.empty with
  | .done g => some g.contra
  | _ => none

theorem reach_contra {fuel : Nat} {cs : List GCmd} {b : Bool} (h : contraAfter fuel cs = some b) :
    ∃ g, Reach cs g ∧ g.contra = b := by
  simp only [contraAfter] at h
  split at h
  · rename_i g e
    cases h
    exact ⟨g, by simpa using reach_runAll cs .start e, rfl⟩
  · cases h

/-- Zero equals its successor, but two and one differ: a contradiction by congruence. -/
def demoClash : List GCmd :=
  [.equate Demo.zero (.app Demo.suc Demo.zero) 0 none,
   .separate (.app Demo.suc Demo.zero) (.app Demo.suc (.app Demo.suc Demo.zero)) 1]

example : ∃ g, Reach demoClash g ∧ g.contra = true := reach_contra (fuel := 20) (by decide +kernel)

example : ∀ c ∈ demoClash, c.Typed Demo.K [] := by
  intro c hc
  simp only [demoClash, List.mem_cons, List.not_mem_nil, or_false] at hc
  have h1 := Demo.s_suc (Γ := []) (Δ := BCtx.nil) Demo.s_zero
  rcases hc with rfl | rfl <;> intro t ht <;>
    simp only [GCmd.terms, List.mem_cons, List.not_mem_nil, or_false] at ht
  · rcases ht with rfl | rfl
    · exact ⟨_, Demo.s_zero⟩
    · exact ⟨_, h1⟩
  · rcases ht with rfl | rfl
    · exact ⟨_, h1⟩
    · exact ⟨_, Demo.s_suc h1⟩

/-- A consistent history: a clause of two literals, and the second one is refuted. -/
def demoResolve : List GCmd :=
  [.clause [⟨true, Demo.prop, .tt⟩, ⟨true, Demo.zero, .app Demo.suc Demo.zero⟩] 0,
   .separate Demo.zero (.app Demo.suc Demo.zero) 1]

/-- The clause alone. -/
def demoClause : GCmd :=
  .clause [⟨true, Demo.prop, .tt⟩, ⟨true, Demo.zero, .app Demo.suc Demo.zero⟩] 0

/-- The answer to a question after a run. -/
def answerAfter (fuel : Nat) (cs : List GCmd) (l : Literal) : Option Bool :=
  match runAll fuel cs EGraph.empty with
  | .done g =>
    match g.evaluateLiteral plainOrder fuel l with
    | .done r => r.1
    | _ => none
  | _ => none

theorem reach_answer {fuel : Nat} {cs : List GCmd} {l : Literal} {b : Bool}
    (h : answerAfter fuel cs l = some b) : ∃ g g', Reach cs g ∧
      g.evaluateLiteral plainOrder fuel l = .done (some b, g') := by
  simp only [answerAfter] at h
  split at h
  · rename_i g e
    split at h
    · rename_i r e'
      exact ⟨g, r.2, by simpa using reach_runAll cs .start e, by rw [e', ← h]⟩
    · cases h
  · cases h

/-- The hypotheses of `C18_evaluate` are met: the first literal is derived, and the history is true
in the demo interpretation. -/
example : (∃ g g', Reach demoResolve g ∧
      g.evaluateLiteral plainOrder 30 ⟨true, Demo.prop, .tt⟩ = .done (some true, g')) ∧
    (∃ g, Reach demoResolve g ∧ g.contra = false) ∧
    (∀ c ∈ demoResolve, c.Typed Demo.K []) ∧ Lawful Demo.K Demo.M ∧
    ∀ ρ β, ∀ c ∈ demoResolve, c.Holds Demo.M ρ β := by
  refine ⟨reach_answer (by decide +kernel), reach_contra (fuel := 30) (by decide +kernel), ?_,
    Demo.lawful, ?_⟩
  · intro c hc
    simp only [demoResolve, List.mem_cons, List.not_mem_nil, or_false] at hc
    have h1 := Demo.s_suc (Γ := []) (Δ := BCtx.nil) Demo.s_zero
    rcases hc with rfl | rfl <;> intro t ht <;>
      simp only [GCmd.terms, List.flatMap_cons, List.flatMap_nil, List.append_nil, List.cons_append,
        List.nil_append, List.mem_cons, List.not_mem_nil, or_false] at ht
    · rcases ht with rfl | rfl | rfl | rfl
      · exact ⟨_, Demo.s_prop⟩
      · exact ⟨_, Demo.s_tt⟩
      · exact ⟨_, Demo.s_zero⟩
      · exact ⟨_, h1⟩
    · rcases ht with rfl | rfl
      · exact ⟨_, Demo.s_zero⟩
      · exact ⟨_, h1⟩
  · intro ρ β c hc
    simp only [demoResolve, List.mem_cons, List.not_mem_nil, or_false] at hc
    rcases hc with rfl | rfl
    · exact ⟨_, List.mem_cons_self, rfl⟩
    · show ¬ _ = _
      have e1 : eval Demo.M ρ β (.app Demo.suc Demo.zero) = (insert ∅ ∅ : ZFSet) :=
        SetModel.app_lam ZFSet.omega_zero
      rw [e1]
      intro h
      exact ZFSet.notMem_empty ∅
        ((congrArg (fun x : ZFSet => ∅ ∈ x) h).mpr (ZFSet.mem_insert ∅ ∅))

/-- The hypotheses of `C18_check` are met: a clause with the sides of its literals exchanged is found. -/
example : (match runAll 30 [demoClause] EGraph.empty with
    | .done g =>
      match g.clauseExists plainOrder 30
        [⟨true, .app Demo.suc Demo.zero, Demo.zero⟩, ⟨true, .tt, Demo.prop⟩] with
      | .done r => some r.1
      | _ => none
    | _ => none) = some true := by decide +kernel

end Acorn
