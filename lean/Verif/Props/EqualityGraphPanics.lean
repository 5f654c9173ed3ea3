/-
C20: the equality graph never panics.
-/
import Verif.Spec.EqualityGraph
import Verif.Lemmas.EGraphNoPanic
import Verif.Props.EqualityGraph
namespace Acorn
open Spec Term

/-- A command on a consistent graph does not panic and leaves the graph consistent. -/
theorem run_wf (ω : HashOrder) (fuel : Nat) {g : EGraph} (h : EGraph.WfAny g) (c : GCmd) :
    (GCmd.run ω fuel g c).Ok fun r => EGraph.WfAny r.2 := by
  obtain ⟨n, h⟩ := h
  cases c with
  | insert t =>
    refine Out.Ok.bind (EGraph.Wf.insertTerm ω fuel n t g h) ?_
    rintro ⟨a, g1⟩ ⟨m, _, w, _⟩
    exact ⟨m, w⟩
  | equate s t p i =>
    refine h.pair ω fuel s t (f := fun a b g => do
      let g ← g.setTermsEqual ω fuel a b p i
      return (none, g)) ?_
    intro m a b g1 hm w ha hb
    exact Out.Ok.bind (w.setTermsEqual ω fuel ha hb p i) fun g2 w2 => ⟨m, w2⟩
  | separate s t p =>
    refine h.pair ω fuel s t (f := fun a b g => do
      let g ← g.setTermsNotEqual ω fuel a b p
      return (none, g)) ?_
    intro m a b g1 hm w ha hb
    exact Out.Ok.bind (w.setTermsNotEqual ω fuel ha hb p) fun g2 w2 => ⟨m, w2⟩
  | clause ls step => exact Out.Ok.bind (h.insertClause ω fuel ls step) fun g1 w => w
  | evaluate l => exact h.evaluateLiteral ω fuel l
  | check ls => exact Out.Ok.bind (h.checkClause ω fuel ls) fun r w => w
  | lookup ls => exact Out.Ok.bind (h.clauseExists ω fuel ls) fun r w => w

theorem reach_wf {cs : List GCmd} {g : EGraph} (hr : Reach cs g) : EGraph.WfAny g := by
  induction hr with
  | start => exact ⟨0, EGraph.wf_empty⟩
  | @step cs g ω fuel c r hr e ih =>
    have := run_wf ω fuel ih c
    rw [e] at this; exact this

/-- **C20.** After any history of commands, on any terms, no further command panics: not when a merged
group is looked up, not when a disequality is missing or recorded on one side only, not in following
the links between merged groups. -/
theorem C20_no_panic {cs : List GCmd} {g : EGraph} (hr : Reach cs g) (ω : HashOrder) (fuel : Nat)
    (c : GCmd) : GCmd.run ω fuel g c ≠ .panic := by
  intro e
  have := run_wf ω fuel (reach_wf hr) c
  rw [e] at this; exact this

/-- Also within a command, the processing of the queue and the lookups of the graph succeed: disequal
groups are live, list each other, and are distinct. -/
theorem C20_symmetric {cs : List GCmd} {g : EGraph} (hr : Reach cs g) {a b : Nat} {i : GroupInfo}
    (hi : g.info? a = some i) (hb : i.ineqs.contains b = true) :
    a ≠ b ∧ ∃ j, g.info? b = some j ∧ j.ineqs.contains a = true := by
  obtain ⟨n, h⟩ := reach_wf hr
  obtain ⟨⟨j, h1, h2⟩, h3⟩ := h.grp.sym a b ⟨i, hi, hb⟩
  exact ⟨h3, j, h1, h2⟩

/-- The hypotheses are met by histories with merges, disequalities and clauses, also after a
contradiction. -/
example : (∃ g, Reach demoClash g ∧ g.contra = true) ∧ (∃ g, Reach demoResolve g ∧ g.contra = false) :=
  ⟨reach_contra (fuel := 20) (by decide +kernel), reach_contra (fuel := 30) (by decide +kernel)⟩

example : ∃ g i, Reach demoResolve g ∧ g.info? 2 = some i ∧ i.ineqs.contains 4 = true := by
  have h : (match runAll 30 demoResolve EGraph.empty with
    | .done g => (match g.info? 2 with | some i => i.ineqs.contains 4 | none => false)
    | _ => false) = true := by decide +kernel
  split at h
  · rename_i g e
    split at h
    · rename_i i hi
      exact ⟨g, i, by simpa using reach_runAll demoResolve .start e, hi, h⟩
    · cases h
  · cases h

end Acorn
