/-
C19: the equality graph is closed under congruence.
-/
import Verif.Spec.EqualityGraph
import Verif.Lemmas.EGraphCongApi
import Verif.Props.EqualityGraph
namespace Acorn
open Spec Term EGraph

theorem run_idle (ω : HashOrder) (fuel : Nat) {g : EGraph} (h : Idle g) (c : GCmd) :
    (GCmd.run ω fuel g c).Ok fun r => Next g r.2 := by
  cases c with
  | insert t =>
    refine Out.Ok.bind (h.insertTerm ω fuel t) ?_
    rintro ⟨a, g1⟩ ⟨h1, _⟩
    exact h1
  | equate s t p i =>
    refine h.pair ω fuel s t (f := fun a b g => do
      let g ← g.setTermsEqual ω fuel a b p i
      return (none, g)) ?_
    intro a b g1 h1 ha hb
    exact Out.Ok.bind (h1.1.pushed ω fuel (op := .rewrite _) ⟨lt_of_term ha, lt_of_term hb⟩)
      fun g2 h2 => h1.trans h2.1
  | separate s t p =>
    refine h.pair ω fuel s t (f := fun a b g => do
      let g ← g.setTermsNotEqual ω fuel a b p
      return (none, g)) ?_
    intro a b g1 h1 ha hb
    exact Out.Ok.bind (h1.1.pushed ω fuel (op := .neq a b p) ⟨lt_of_term ha, lt_of_term hb⟩)
      fun g2 h2 => h1.trans h2.1
  | clause ls step => exact Out.Ok.bind (h.insertClause ω fuel ls step) fun g1 w => w
  | evaluate l => exact (h.evaluateLiteral ω fuel l).mono fun r h1 => h1.1
  | check ls => exact Out.Ok.bind (h.checkClause ω fuel ls) fun r w => w
  | lookup ls => exact Out.Ok.bind (h.clauseExists ω fuel ls) fun r w => w

theorem reach_idle {cs : List GCmd} {g : EGraph} (hr : Reach cs g) : Idle g := by
  induction hr with
  | start => exact idle_empty
  | @step cs g ω fuel c r hr e ih =>
    have := run_idle ω fuel ih c
    rw [e] at this; exact this.1

/-- The graph answers that two terms are equal. -/
def Says (g : EGraph) (s t : Term) (g' : EGraph) : Prop :=
  ∃ ω fuel, g.evaluateLiteral ω fuel ⟨true, s, t⟩ = .done (some true, g')

/-- Inserting, asserting and asking questions only adds to what is known: every pair of terms that is
held equal is held equal ever after. -/
theorem equal_grow {g g' : EGraph} {s t : Term} (G : Grow g g') (h : Equal g s t) : Equal g' s t := by
  obtain ⟨x, y, hx, hy, hs⟩ := h
  exact ⟨x, y, G.term _ _ hx, G.term _ _ hy, G.same _ _ hs⟩

theorem says_equal {g g' : EGraph} {s t : Term} (h : Idle g) (e : Says g s t g') :
    Idle g' ∧ Grow g g' ∧ Equal g' s t := by
  obtain ⟨ω, fuel, e⟩ := e
  have := h.evaluateLiteral ω fuel ⟨true, s, t⟩
  rw [e] at this
  exact ⟨this.1.1, this.1.2, (this.2.2 true rfl).1 rfl⟩

/-- **C19 (congruence).** After any history, if the graph says that two functions are equal, and that
two arguments are equal, then it also says that the applications are equal, if asked, unless it has
found a contradiction. -/
theorem C19_congruence {cs : List GCmd} {g g1 g2 g3 : EGraph} (hr : Reach cs g) {f f' a a' : Term}
    (e1 : Says g f f' g1) (e2 : Says g1 a a' g2) (hg : (Term.app f a).hasAnyVar = false)
    (hg' : (Term.app f' a').hasAnyVar = false) {ω : HashOrder} {fuel : Nat} {r : Option Bool}
    (e3 : g2.evaluateLiteral ω fuel ⟨true, .app f a, .app f' a'⟩ = .done (r, g3))
    (hc : g3.contra = false) : r = some true := by
  obtain ⟨h1, _, q1⟩ := says_equal (reach_idle hr) e1
  obtain ⟨h2, G2, q2⟩ := says_equal h1 e2
  have := h2.evaluateLiteral ω fuel ⟨true, .app f a, .app f' a'⟩
  rw [e3] at this
  obtain ⟨⟨h3, G3⟩, h4, _⟩ := this
  obtain ⟨⟨x, y, hx, hy⟩, h5, _⟩ := h4 (by simp only [hg, hg', Bool.or_false])
  exact h5 (h3.congruence hc (equal_grow (G2.trans G3) q1) (equal_grow G3 q2) ⟨x, hx⟩ ⟨y, hy⟩)

/-- **C19 (classes).** The same for the terms known to the graph, in terms of the classes it keeps: no
further question is needed. -/
theorem C19_closed {cs : List GCmd} {g : EGraph} (hr : Reach cs g) (hc : g.contra = false)
    {f f' a a' : Term} (h1 : Equal g f f') (h2 : Equal g a a') (h3 : ∃ x, g.term? x = some (.app f a))
    (h4 : ∃ x, g.term? x = some (.app f' a')) : Equal g (.app f a) (.app f' a') :=
  (reach_idle hr).congruence hc h1 h2 h3 h4

/-- **C19 (embedded equations).** Whatever the graph knows about an equation between two terms that
occurs inside of a term, it knows about the equation with its sides exchanged. -/
theorem C19_swapped {cs : List GCmd} {g : EGraph} (hr : Reach cs g) (hc : g.contra = false)
    {T x y : Term} (hne : x ≠ y) (h : ∃ i, g.term? i = some (.eq T x y)) :
    Equal g (.eq T x y) (.eq T y x) := by
  refine (reach_idle hr).symmetry hc ?_ h
  have hn : Term.eq T y x ≠ Term.eq T x y := by
    intro he
    simp only [Term.eq, Term.apply, List.foldl, Term.app.injEq] at he
    exact hne he.2
  have ha : (Term.eq T x y).args = [T, x, y] := by
    simp [Term.eq, Term.apply, Term.args, Term.sym]
  have hh : (Term.eq T x y).headAtom = .sym .eq_ := by
    simp [Term.eq, Term.apply, Term.sym, Term.headAtom]
  simp only [swappedEq, ha, hh, if_true, ne_eq, hn, not_false_iff]

/-- **C19 (history).** Later commands do not separate terms held equal, and keep terms held different
apart unless there is a contradiction. -/
theorem C19_kept {cs : List GCmd} {g g' : EGraph} (hr : Reach cs g) {ω : HashOrder} {fuel : Nat}
    {c : GCmd} {r : Option Bool} (e : GCmd.run ω fuel g c = .done (r, g')) {s t : Term} :
    (Equal g s t → Equal g' s t) ∧ (Differ g s t → g'.contra = true ∨ Differ g' s t) := by
  have := run_idle ω fuel (reach_idle hr) c
  rw [e] at this
  refine ⟨equal_grow this.2, ?_⟩
  rintro ⟨x, y, hx, hy, h⟩
  rcases this.2.apart x y h with h | h
  · exact Or.inl h
  · exact Or.inr ⟨x, y, this.2.term _ _ hx, this.2.term _ _ hy, h⟩

/-- **C19 (asserted equations).** After an equation is asserted, the graph holds its sides equal,
unless it has found a contradiction. -/
theorem C19_asserted {cs : List GCmd} {g g' : EGraph} (hr : Reach cs g) {ω : HashOrder} {fuel : Nat}
    {s t : Term} {p : Nat} {i : Option Nat} {r : Option Bool}
    (e : GCmd.run ω fuel g (.equate s t p i) = .done (r, g')) (hc : g'.contra = false) :
    Equal g' s t := by
  have := (reach_idle hr).pair ω fuel s t (f := fun a b g => do
      let g ← g.setTermsEqual ω fuel a b p i
      return ((none : Option Bool), g)) (Q := fun r => r.2.contra = true ∨ Equal r.2 s t) (by
    intro a b g1 h1 ha hb
    refine Out.Ok.bind (h1.1.pushed ω fuel (op := .rewrite _) ⟨lt_of_term ha, lt_of_term hb⟩) ?_
    rintro g2 ⟨h2, h3⟩
    rcases h3 with h3 | h3
    · exact Or.inl h3
    · exact Or.inr ⟨a, b, h2.2.term _ _ ha, h2.2.term _ _ hb, h3.1 a b rfl⟩)
  rw [show (do
      let (a, g) ← EGraph.insertTerm ω fuel s g
      let (b, g) ← EGraph.insertTerm ω fuel t g
      let g ← g.setTermsEqual ω fuel a b p i
      return ((none : Option Bool), g) : Out _) = .done (r, g') from e] at this
  exact this.resolve_left (by rw [hc]; simp)

/-- **C19 (asserted disequalities).** After a disequality is asserted, the graph holds its sides
different, unless it has found a contradiction. -/
theorem C19_separated {cs : List GCmd} {g g' : EGraph} (hr : Reach cs g) {ω : HashOrder} {fuel : Nat}
    {s t : Term} {p : Nat} {r : Option Bool}
    (e : GCmd.run ω fuel g (.separate s t p) = .done (r, g')) (hc : g'.contra = false) :
    Differ g' s t := by
  have := (reach_idle hr).pair ω fuel s t (f := fun a b g => do
      let g ← g.setTermsNotEqual ω fuel a b p
      return ((none : Option Bool), g)) (Q := fun r => r.2.contra = true ∨ Differ r.2 s t) (by
    intro a b g1 h1 ha hb
    refine Out.Ok.bind (h1.1.pushed ω fuel (op := .neq a b p) ⟨lt_of_term ha, lt_of_term hb⟩) ?_
    rintro g2 ⟨h2, h3⟩
    rcases h3 with h3 | h3
    · exact Or.inl h3
    · exact Or.inr ⟨a, b, h2.2.term _ _ ha, h2.2.term _ _ hb, h3.2 a b p rfl⟩)
  rw [show (do
      let (a, g) ← EGraph.insertTerm ω fuel s g
      let (b, g) ← EGraph.insertTerm ω fuel t g
      let g ← g.setTermsNotEqual ω fuel a b p
      return ((none : Option Bool), g) : Out _) = .done (r, g') from e] at this
  exact this.resolve_left (by rw [hc]; simp)

/-- **C19 (answers).** A question about a literal without variables is answered by what the graph then
holds: true or false exactly when the sides are held equal or different. -/
theorem C19_answers {cs : List GCmd} {g g' : EGraph} (hr : Reach cs g) {ω : HashOrder} {fuel : Nat}
    {l : Literal} (hg : (l.left.hasAnyVar || l.right.hasAnyVar) = false) {r : Option Bool}
    (e : g.evaluateLiteral ω fuel l = .done (r, g')) :
    (r = some l.positive ↔ Equal g' l.left l.right) ∧ (r = some (!l.positive) ↔ Differ g' l.left l.right) := by
  have := (reach_idle hr).evaluateLiteral ω fuel l
  rw [e] at this
  obtain ⟨_, h1, h2⟩ := this
  obtain ⟨_, h3, h4⟩ := h1 hg
  exact ⟨⟨fun h => (h2 _ h).1 rfl, h3⟩, ⟨fun h => (h2 _ h).2 (by cases l.positive <;> simp), h4⟩⟩

/-! ### Concrete histories -/

/-- Zero equals its successor. -/
def demoLoop : List GCmd := [.equate Demo.zero (.app Demo.suc Demo.zero) 0 none]

/-- A few questions in turn. -/
def asks (fuel : Nat) : List (Term × Term) → EGraph → Option (List (Option Bool) × Bool)
  | [], g => some ([], g.contra)
  | (s, t) :: rest, g =>
    match g.evaluateLiteral plainOrder fuel ⟨true, s, t⟩ with
    | .done (r, g) => (asks fuel rest g).map fun p => (r :: p.1, p.2)
    | _ => none

/-- The hypotheses of `C19_congruence` are met with terms that are not identical: `suc = suc`,
`zero = suc zero`, and the question about `suc zero = suc (suc zero)`. -/
example : (match runAll 20 demoLoop EGraph.empty with
    | .done g => asks 20 [(Demo.suc, Demo.suc), (Demo.zero, .app Demo.suc Demo.zero),
        (.app Demo.suc Demo.zero, .app Demo.suc (.app Demo.suc Demo.zero)),
        (Demo.zero, .app Demo.suc (.app Demo.suc (.app Demo.suc Demo.zero))), (Demo.zero, Demo.suc)] g
    | _ => none) = some ([some true, some true, some true, some true, none], false) := by decide +kernel

/-- An embedded equation, known after its sides are exchanged. -/
example : (match runAll 30 [.equate (.eq Demo.nat Demo.zero (.app Demo.suc Demo.zero)) Demo.prop 0 none]
      EGraph.empty with
    | .done g => asks 30 [(.eq Demo.nat (.app Demo.suc Demo.zero) Demo.zero, Demo.prop)] g
    | _ => none) = some ([some true], false) := by decide +kernel

end Acorn
