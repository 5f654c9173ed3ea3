/-
C63: the outcome that a proof search reports is right.
-/
import Verif.Lemmas.SearchRounds
import Verif.Lemmas.SearchLevels
import Verif.Props.ActiveSet
namespace Acorn
open Term Spec Active
open Passive (Step)

universe u

section
variable {R : Type} {H : Hunt R} {M : Interp.{u}} {mode : ProverMode} {ms : List Moment} {r r' : Run R}
  {ins : List (Step (Info R))} {o : Option Outcome}

/-- Whatever the outcome is, it says what it should about the state the search stops in; and a search that goes on
has seen no cancelled token and no time out. -/
theorem C63_outcome (ho : ∀ k l, (H.prover.order k l).Perm l) (h : Searches H.prover r.state ins)
    (hf : r.state.final = none) (e : H.search mode ms r = some (r', o)) : Says H mode ms r' o :=
  (search_ran ho h hf e).2.1

/-- A search stops in the first round in which a token is cancelled or the time is up. -/
theorem C63_stops (ho : ∀ k l, (H.prover.order k l).Perm l) (h : Searches H.prover r.state ins)
    (hf : r.state.final = none) (e : H.search mode ms r = some (r', o)) {m : Moment} (hm : m ∈ ms)
    (hs : m.cancelled = true ∨ timeOf mode ≤ m.elapsed) : o ≠ none := by
  rintro rfl
  obtain ⟨h1, h2⟩ := (C63_outcome ho h hf e).2 m hm
  rcases hs with hs | hs
  · rw [h1] at hs; cases hs
  · omega

/-- A search only takes steps as a prover does, and forgets no active step.  It activates at most as many steps that
do not only depend on facts as the limit of the mode allows, or one if the limit was reached before. -/
theorem C63_limit (ho : ∀ k l, (H.prover.order k l).Perm l) (h : Searches H.prover r.state ins)
    (hf : r.state.final = none) (e : H.search mode ms r = some (r', o)) :
    Searches H.prover r'.state ins ∧ ∃ new, r'.state.active.steps = r.state.active.steps ++ new ∧
      ((r.count + (nonfactual new).length : Nat) : Int) ≤ max (capOf mode) (r.count + 1) := by
  obtain ⟨h1, _, h3⟩ := search_ran ho h hf e
  obtain ⟨new, k1, k2, _⟩ := h1.steps
  exact ⟨h1.searches, new, k1, by rw [capOf_eq]; omega⟩

/-- A shallow search activates only steps that were scored as shallow. -/
theorem C63_shallow_only (ho : ∀ k l, (H.prover.order k l).Perm l) (h : Searches H.prover r.state ins)
    (hf : r.state.final = none) (e : H.search mode ms r = some (r', o)) (hb : IsShallow mode) :
    ∃ new, r'.state.active.steps = r.state.active.steps ++ new ∧
      ∀ s ∈ new, ∃ g, (H.prover.score g s).shallow = true := by
  obtain ⟨new, k1, _, k3⟩ := (search_ran ho h hf e).1.steps
  exact ⟨new, k1, k3 (isShallow_iff.1 hb)⟩

/-- A shallow search that reports that it is exhausted has left no shallow step, unless a step that is not shallow
was taken before. -/
theorem C63_shallow_exhausted (ho : ∀ k l, (H.prover.order k l).Perm l) (h : Searches H.prover r.state ins)
    (hf : r.state.final = none) (ha : r.state.passive.allShallow = true)
    (e : H.search mode ms r = some (r', some .shallowExhausted)) {id : Nat} {s : Step (Info R)} {sc : Passive.Score}
    (hw : r'.state.passive.Waits id s sc) : sc.shallow = false := by
  obtain ⟨h1, ⟨_, hb, hn, _⟩, _⟩ := search_ran ho h hf e
  cases hs : sc.shallow with
  | false => rfl
  | true => exact absurd ⟨(h1.shallow (isShallow_iff.1 hb)).trans ha, id, s, sc, hw, hs⟩ hn

/-- A search reports a success only if the steps it was given cannot all be true.  Missing: ends that name two waiting
steps whose variables have different types, and what C58 leaves out. -/
theorem C63_success_partial (hE : SoundEnv H.prover.env M) (ho : ∀ k l, (H.prover.order k l).Perm l)
    (h : Searches H.prover r.state ins) (hf : r.state.final = none)
    (e : H.search mode ms r = some (r', some .success)) (hi : ∀ s ∈ ins, PlainClause H.prover.env.K s.clause)
    (hs : ∀ s ∈ r'.state.active.steps, Sharp H.prover.env.K s.clause)
    (hm : ∀ f, r'.state.final = some f → ¬ MixedEnd f) : ∃ s ∈ ins, ¬ ClauseTrue M s.clause := by
  obtain ⟨h1, ⟨f, hf', _⟩, _⟩ := search_ran ho h hf e
  exact C58_search_partial hE ho h1.searches hi hs hf' (hm f hf')

/-- A search reports an inconsistency only if the steps it was given cannot all be true even without those that
depend on the negated goal.  Missing: contradictions in the equality graph, because what their explanation names is an
input, and what is missing for a success. -/
theorem C63_inconsistent_partial (hE : SoundEnv H.prover.env M) (ho : ∀ k l, (H.prover.order k l).Perm l)
    (h : Searches H.prover r.state ins) (hf : r.state.final = none)
    (e : H.search mode ms r = some (r', some .inconsistent)) (hi : ∀ s ∈ ins, PlainClause H.prover.env.K s.clause)
    (hs : ∀ s ∈ r'.state.active.steps, Sharp H.prover.env.K s.clause)
    (hm : ∀ f, r'.state.final = some f → ¬ MixedEnd f) (hg : r'.state.final ≠ some .graph) :
    ∃ s ∈ ins, s.info.truth ≠ .counterfactual ∧ ¬ ClauseTrue M s.clause := by
  obtain ⟨h1, ⟨f, hf', hu, _⟩, _⟩ := search_ran ho h hf e
  refine Classical.byContradiction fun hn => ?_
  have key : ∀ t : Truthiness, 1 < level t → t = .counterfactual := by intro t; cases t <;> simp [level]
  have hl := searches_levels (n := 1) hE ho h1.searches (fun s hx => ⟨hi s hx, fun hl => ?_⟩) hs
  · have hz := hl.final f hf'
    cases f with
    | step s => exact hu ⟨s, rfl, key _ hz⟩
    | passive x y =>
      rcases hz with hz | hz | hz
      · exact hu ⟨x, .inl rfl, key _ hz⟩
      · exact hu ⟨y, .inr rfl, key _ hz⟩
      · exact hm _ hf' ⟨x, y, rfl, hz⟩
    | graph => exact hg hf'
  · refine Classical.byContradiction fun ht => hn ⟨s, hx, fun hc => ?_, ht⟩
    rw [hc] at hl
    simp [level] at hl

/-- The same for every single step of a search: nothing that claims to be independent of the negated goal depends on
it, and nothing that claims to be a fact depends on the assumptions.  Missing: what C58 leaves out. -/
theorem C63_levels_partial (hE : SoundEnv H.prover.env M) (ho : ∀ k l, (H.prover.order k l).Perm l)
    (h : Searches H.prover r.state ins) (hf : r.state.final = none) (e : H.search mode ms r = some (r', o)) {n : Nat}
    (hi : ∀ s ∈ ins, TrueUpTo H.prover.env.K M n s) (hs : ∀ s ∈ r'.state.active.steps, Sharp H.prover.env.K s.clause) :
    (∀ s ∈ r'.state.active.steps, TrueUpTo H.prover.env.K M n s) ∧
      ∀ id s sc, r'.state.passive.Waits id s sc → TrueUpTo H.prover.env.K M n s := by
  have hl := searches_levels hE ho (search_ran ho h hf e).1.searches hi hs
  exact ⟨hl.active.all, hl.waits⟩

/-- A search that found a contradiction finds it again if it is not shallow: it stops at once, with the same
outcome. -/
theorem C63_again {f : Final R} (hf : r.state.final = some f) (hb : ¬ IsShallow mode) {m : Moment} {t : Outcome}
    (e : H.search mode (m :: ms) r = some (r', some t)) : r' = r ∧ Says H mode ms r (some t) := by
  have hb : mode.shallowOnly = false := by
    cases h : mode.shallowOnly with
    | false => rfl
    | true => exact absurd (isShallow_iff.2 h) hb
  simp only [Hunt.search, Hunt.round, Hunt.frontier, hb, Bool.not_false, Bool.true_or, if_true, Run.next, State.next,
    State.takes, hf, Option.isSome_some, Option.bind_eq_bind, Option.bind_some, Option.pure_def] at e
  cases hv : H.verdict r.state.active f with
  | none => rw [hv] at e; cases e
  | some o' =>
    rw [hv] at e
    cases e
    exact ⟨rfl, verdict_says hf hv⟩

end

/-! ### Examples -/

namespace HuntDemo
open Demo CheckerExample TraceExample PassiveDemo ActiveDemo

/-- The example of C58; all steps are shallow or none is. -/
def Q (b : Bool) : Prover Unit :=
  { ActiveDemo.P with score := fun _ s => ⟨s.clause.lits.isEmpty, 0, -(s.clause.lits.length : Int), b⟩ }

def H (b : Bool) : Hunt Unit := ⟨Q b, some false, fun _ => (0, [])⟩

def begin (b : Bool) (ins : List (Step (Info Unit))) : Option (Run Unit) :=
  (noPanic ((Passive.PassiveSet.new (Q b).setup).push (Q b).setup ins)).map fun p => ⟨⟨p, .new, none⟩, 0⟩

/-- Which end a search has. -/
def kind : Option (Final Unit) → Nat
  | none => 0
  | some (.step _) => 1
  | some (.passive _ _) => 2
  | some .graph => 3

def report (b : Bool) (mode : ProverMode) (ms : List Moment) (ins : List (Step (Info Unit))) :
    Option (Option Outcome × Nat × List Clause × Nat) :=
  (begin b ins).bind fun r => ((H b).search mode ms r).map fun x =>
    (x.2, x.1.count, x.1.state.active.steps.map (·.clause), kind x.1.state.final)

theorem begin_searches {b : Bool} {ins : List (Step (Info Unit))} {p : Passive.PassiveSet (Info Unit)}
    (e : noPanic ((Passive.PassiveSet.new (Q b).setup).push (Q b).setup ins) = some p) :
    Searches (H b).prover ⟨p, .new, none⟩ ins := Searches.add (P := Q b) ins .new e

/-- A report is about a search. -/
theorem report_run {b : Bool} {mode : ProverMode} {ms : List Moment} {ins : List (Step (Info Unit))} {o : Option Outcome}
    {c k : Nat} {cs : List Clause} (h : report b mode ms ins = some (o, c, cs, k)) :
    ∃ r r', Searches (H b).prover r.state ins ∧ r.state.final = none ∧ r.state.passive.allShallow = true ∧ r.count = 0 ∧
      r.state.active.steps = [] ∧ (H b).search mode ms r = some (r', o) ∧ r'.count = c ∧
      r'.state.active.steps.map (·.clause) = cs ∧ kind r'.state.final = k := by
  simp only [report, begin, Option.map_eq_some_iff, Option.bind_eq_some_iff, Prod.mk.injEq, Prod.exists] at h
  obtain ⟨r, ⟨p, e1, rfl⟩, r', o', e2, rfl, rfl, rfl, rfl⟩ := h
  refine ⟨_, r', begin_searches e1, rfl, ?_, rfl, rfl, e2, rfl, rfl, rfl⟩
  exact (neat_push (P := Q b) ⟨Passive.agrees_new, Passive.scored_new⟩ e1).2

theorem quiet (b : Bool) : ∀ k l, ((H b).prover.order k l).Perm l := fun _ _ => List.Perm.refl _

def ms : Nat → List Moment := fun n => List.replicate n ⟨false, 0⟩

/-- The negated goal is needed. -/
theorem found : report false (.interactive 10 100) (ms 5) ins =
    some (some .success, 2, [n4, c1, c2], 1) := by decide +kernel

theorem found_shallow : report true .test (ms 5) ins = some (some .success, 2, [n4, c1, c2], 1) := by decide +kernel

/-- The same without a goal. -/
def bad : List (Step (Info Unit)) := [step c2 .factual, step c1 .hypothetical, step n4 .hypothetical]

theorem found_bad : report false (.interactive 10 100) (ms 5) bad =
    some (some .inconsistent, 2, [n4, c1, c2], 1) := by decide +kernel

def open_ : List (Step (Info Unit)) := [step c2 .factual, step c1 .hypothetical]

example : ∃ c cs, report false .test (ms 5) ins = some (some .shallowExhausted, c, cs, 0) := ⟨0, [], by decide +kernel⟩
example : (report false (.interactive 10 1) (ms 5) open_).map (·.1) = some (some .activationCap) := by decide +kernel
example : (report true (.shallow 10 1) (ms 5) open_).map (·.1) = some (some .shallowExplosion) := by decide +kernel
example : (report true (.shallow 10 10) (ms 2 ++ [⟨false, 10⟩]) open_).map (·.1) = some (some .timeout) := by decide +kernel
example : (report true (.shallow 10 10) (ms 1 ++ [⟨true, 10⟩]) open_).map (·.1) = some (some .interrupted) := by decide +kernel
example : (report false (.interactive 10 10) (ms 5) [step c1 .factual]).map (·.1) = some (some .exhausted) := by decide +kernel

theorem sharp_found {ss : List (Step (Info Unit))} (h : ss.map (·.clause) = [n4, c1, c2]) :
    ∀ s ∈ ss, Sharp Demo.K s.clause := by
  intro s hs
  have : s.clause ∈ ss.map (·.clause) := List.mem_map_of_mem hs
  rw [h] at this
  simp only [List.mem_cons, List.not_mem_nil, or_false] at this
  rcases this with e | e | e <;> rw [e]
  · exact sharp4
  · exact sharp1
  · exact sharp2

theorem plain_ins (t : Truthiness) : ∀ s ∈ [step c2 .factual, step c1 .hypothetical, step n4 t],
    PlainClause Demo.K s.clause := by
  intro s hs
  simp only [List.mem_cons, List.not_mem_nil, or_false] at hs
  rcases hs with rfl | rfl | rfl
  · exact plain2
  · exact plain1
  · exact plain_n4

theorem kind_one {f : Option (Final Unit)} (h : kind f = 1) : ∃ s, f = some (.step s) := by
  cases f with
  | none => cases h
  | some f => cases f with
    | step s => exact ⟨s, rfl⟩
    | passive => cases h
    | graph => cases h

/-- The success of the example: the facts, the assumption and the negated goal are not all true. -/
example : ∃ s ∈ ins, ¬ ClauseTrue Full s.clause := by
  obtain ⟨r, r', h1, h2, _, _, _, h3, _, h4, h5⟩ := report_run found
  obtain ⟨f, hf⟩ := kind_one h5
  refine C63_success_partial (H := H false) sound (quiet _) h1 h2 h3 (plain_ins _) (sharp_found h4) fun g hg => ?_
  rw [hf] at hg; cases hg
  rintro ⟨a, b, h, _⟩; cases h

/-- The inconsistency of the example. -/
example : ∃ s ∈ bad, s.info.truth ≠ .counterfactual ∧ ¬ ClauseTrue Full s.clause := by
  obtain ⟨r, r', h1, h2, _, _, _, h3, _, h4, h5⟩ := report_run found_bad
  obtain ⟨f, hf⟩ := kind_one h5
  refine C63_inconsistent_partial (H := H false) sound (quiet _) h1 h2 h3 (plain_ins _) (sharp_found h4) (fun g hg => ?_) ?_
  · rw [hf] at hg; cases hg
    rintro ⟨a, b, h, _⟩; cases h
  · rw [hf]; intro h; cases h

/-- The shallow search of the example took three shallow steps. -/
example : ∃ r r', Searches (H true).prover r.state ins ∧ r.state.final = none ∧
    (H true).search .test (ms 5) r = some (r', some .success) ∧ r'.state.active.steps.length = 3 ∧ r'.count = 2 := by
  obtain ⟨r, r', h1, h2, _, _, _, h3, h6, h4, h5⟩ := report_run found_shallow
  exact ⟨r, r', h1, h2, h3, by rw [← List.length_map (f := (·.clause)), h4]; rfl, h6⟩

/-- What a second search says. -/
def twice (b : Bool) (mode : ProverMode) (ins : List (Step (Info Unit))) : Option (Option Outcome × Option Outcome) :=
  (begin b ins).bind fun r => ((H b).search mode (ms 5) r).bind fun x =>
    ((H b).search mode (ms 5) x.1).map fun y => (x.2, y.2)

example : twice false (.interactive 10 100) ins = some (some .success, some .success) := by decide +kernel

theorem forgets : twice true .test [step ⟨[], []⟩ .counterfactual] = some (some .success, some .shallowExhausted) := by
  decide +kernel

end HuntDemo

/-- A shallow search that has found a contradiction does not always find it again: asked again, it reports that the
shallow steps are exhausted, although the final step is there. -/
theorem C63_disagreement_again : ∃ (H : Hunt Unit) (ins : List (Step (Info Unit))) (ms : List Moment) (r r' r'' : Run Unit),
    Searches H.prover r.state ins ∧ r.state.final = none ∧ H.search .test ms r = some (r', some .success) ∧
    H.search .test ms r' = some (r'', some .shallowExhausted) := by
  have h := HuntDemo.forgets
  simp only [HuntDemo.twice, HuntDemo.begin, Option.map_eq_some_iff, Option.bind_eq_some_iff, Prod.mk.injEq, Prod.exists] at h
  obtain ⟨r, ⟨p, e1, rfl⟩, r', o', e2, r'', o'', e3, rfl, rfl⟩ := h
  exact ⟨HuntDemo.H true, _, HuntDemo.ms 5, _, r', r'', HuntDemo.begin_searches e1, rfl, e2, e3⟩

end Acorn
