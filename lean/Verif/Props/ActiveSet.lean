/-
C58: what the active set derives from the steps follows from them, and a proof found by the search shows that the
given steps cannot all be true.
-/
import Verif.Lemmas.ActiveSearch
import Verif.Lemmas.ActiveFound
import Verif.Lemmas.ActiveDropped
import Verif.Props.PassiveSet
import Verif.Props.TraceChecker
import Verif.Props.EqualityGraph
namespace Acorn
open Term Spec Active
open Passive (Step)

universe u

/-! ### Activation -/

section
variable {R : Type} {E : Env R} {M : Interp.{u}} {n : Nat}

/-- Activating a step puts it at the end of the active steps and changes no other. -/
theorem C58_activate_steps {a a' : ActiveSet R} {s : Step (Info R)} {new : List (Step (Info R))}
    (e : a.activate E s = some (new, a')) : a'.steps = a.steps ++ [s] := activate_steps e

/-- Everything that is derived when a step is activated, by any of the rules, is true as far as the step claims:
if it claims to be a fact it follows from facts, if it claims to depend on the assumptions it follows from facts and
assumptions, and otherwise it follows from all steps.  If all steps are true, the equality graph shows no contradiction.
Missing: types without elements, clauses with variables for types or with literals that compare types or contain
redexes, and the witnesses of existential clauses and the selection of patterns, which are inputs. -/
theorem C58_activate_partial (hE : SoundEnv E M) {a a' : ActiveSet R} {ss new : List (Step (Info R))} {s : Step (Info R)}
    (h : Grows E a ss) (hs : ∀ x ∈ ss ++ [s], TrueUpTo E.K M n x ∧ Sharp E.K x.clause)
    (e : a.activate E s = some (new, a')) :
    (∀ x ∈ new, TrueUpTo E.K M n x) ∧ (2 ≤ n → a'.graph.contra = false) := by
  obtain ⟨g, rfl⟩ := grows_good hE (M.sym .type0) h fun x hx => hs x (by simp [hx])
  obtain ⟨h1, h2⟩ := hs s (by simp)
  obtain ⟨k1, k2, _⟩ := activate_sound hE (M.sym .type0) g h1 h2 e
  refine ⟨k1, fun hn => ?_⟩
  obtain ⟨T, hT⟩ := k2.graph hn (fun _ => M.sym .type0) (fun _ => M.sym .type0)
  exact hT.contra

/-- A simplified step is true as far as it claims. -/
theorem C58_simplify_partial (hE : SoundEnv E M) {a : ActiveSet R} {ss : List (Step (Info R))} {s t : Step (Info R)}
    (h : Grows E a ss) (hs : ∀ x ∈ ss, TrueUpTo E.K M n x ∧ Sharp E.K x.clause) (h' : TrueUpTo E.K M n s)
    (e : a.simplify E s = some (some t)) : TrueUpTo E.K M n t := by
  obtain ⟨g, rfl⟩ := grows_good hE (M.sym .type0) h hs
  exact simplify_sound hE.lawful hE.inhabited g h' e

/-- Simplification loses nothing: the step follows from the simplified one, and a step that is dropped is known, or
has a variable whose type is not known to be inhabited.  Missing: as above. -/
theorem C58_simplify_keeps_partial (hE : SoundEnv E M) {a : ActiveSet R} {ss : List (Step (Info R))} {s : Step (Info R)}
    (h : Grows E a ss) (hs : ∀ x ∈ ss, PlainClause E.K x.clause ∧ ClauseTrue M x.clause ∧ Sharp E.K x.clause)
    (hp : PlainClause E.K s.clause) (hn : NegFirst s.clause.lits) {r : Option (Step (Info R))}
    (e : a.simplify E s = some r) :
    (∀ t, r = some t → ClauseTrue M t.clause → ClauseTrue M s.clause) ∧
    (r = none → ClauseTrue M s.clause ∨ ∃ i T, s.clause.ctx.get i = some T ∧ E.inh s.clause.ctx T = false) := by
  obtain ⟨g, rfl⟩ := grows_good (n := 2) hE (M.sym .type0) h fun x hx => ⟨⟨(hs x hx).1, fun _ => (hs x hx).2.1⟩, (hs x hx).2.2⟩
  refine ⟨?_, ?_⟩
  · rintro t rfl ht
    exact simplify_back hE.lawful hE.inhabited g hp e ht
  · rintro rfl
    exact simplify_dropped hE.lawful hE.inhabited g (fun x hx => (hs x hx).2.1) hp hn e

/-- Every resolution with an active step is found: if a literal of the new step and one of an active step have opposite
signs, the left side of the first and one side of the second have a common instance, and the steps are not both facts, then
the resolution at these literals, if there is one, is derived. -/
theorem C58_resolution_found {a a' : ActiveSet R} {ss new : List (Step (Info R))} {s old t : Step (Info R)} (h : Grows E a ss)
    (e : a.activate E s = some (new, a')) {k i j : Nat} {l m : Literal} (hk : ss[k]? = some old)
    (hi : s.clause.lits[i]? = some l) (hj : old.clause.lits[j]? = some m) (hop : m.positive = !l.positive)
    (nf : ¬ (s.info.truth = .factual ∧ old.info.truth = .factual)) (ps : PlainClause E.K s.clause)
    (po : PlainClause E.K old.clause) (hs : Sharp E.K s.clause) (ho : Sharp E.K old.clause) {left : Bool}
    (hu : Unifiable E.K s.clause.ctx l.left old.clause.ctx (if left then m.left else m.right))
    (ht : (if l.positive then tryResolution E ss.length s i k old j (!left)
      else tryResolution E k old j ss.length s i (!left)) = some (some t)) : t ∈ new :=
  resolution_found h e hk hi hj hop nf ps po hs ho hu ht

/-- A resolution of two steps follows from them, and claims to depend on what they depend on. -/
theorem C58_resolution_partial (hE : SoundEnv E M) {pos neg t : Step (Info R)} {posId i negId j : Nat} {flipped : Bool}
    (hp : PlainClause E.K pos.clause) (hn : PlainClause E.K neg.clause)
    (e : tryResolution E posId pos i negId neg j flipped = some (some t)) :
    PlainClause E.K t.clause ∧ (ClauseTrue M pos.clause → ClauseTrue M neg.clause → ClauseTrue M t.clause) ∧
      level t.info.truth = max (level pos.info.truth) (level neg.info.truth) := by
  obtain ⟨h1, h2, h3⟩ := tryResolution_sound hE.lawful hE.inhabited hp hn e
  exact ⟨h1, h2, by rw [h3]; cases pos.info.truth <;> cases neg.info.truth <;> rfl⟩

end

/-! ### The search -/

section
variable {R : Type} {P : Prover R} {M : Interp.{u}}

/-- If the given steps are true then all active and all waiting steps are. -/
theorem C58_derived_partial (hE : SoundEnv P.env M) (ho : ∀ k l, (P.order k l).Perm l) {st : State R}
    {ins : List (Step (Info R))} (h : Searches P st ins)
    (hi : ∀ s ∈ ins, PlainClause P.env.K s.clause ∧ ClauseTrue M s.clause)
    (hs : ∀ s ∈ st.active.steps, Sharp P.env.K s.clause) :
    (∀ s ∈ st.active.steps, ClauseTrue M s.clause) ∧ st.passive.AllTrue M := by
  have g := searches_good hE ho h hi hs
  exact ⟨fun s h => (g.active.all s h).holds (level_le_two _), g.passive.true⟩

/-- A search that ends with a proof shows that the given steps are not all true.  Missing: as for
`C58_activate_partial`, and the contradictions between two waiting steps whose variables have different types. -/
theorem C58_search_partial (hE : SoundEnv P.env M) (ho : ∀ k l, (P.order k l).Perm l) {st : State R}
    {ins : List (Step (Info R))} (h : Searches P st ins) (hi : ∀ s ∈ ins, PlainClause P.env.K s.clause)
    (hs : ∀ s ∈ st.active.steps, Sharp P.env.K s.clause) {f : Final R} (hf : st.final = some f) (hm : ¬ MixedEnd f) :
    ∃ s ∈ ins, ¬ ClauseTrue M s.clause := by
  refine Classical.byContradiction fun hn => hm ?_
  refine (searches_good hE ho h (fun s h => ⟨hi s h, ?_⟩) hs).final f hf
  exact Classical.byContradiction fun ht => hn ⟨s, h, ht⟩

end

/-! ### Examples -/

namespace ActiveDemo
open Demo CheckerExample TraceExample PassiveDemo

def E : Env Unit where
  K := Demo.K
  fuel := 100
  ω := plainOrder
  aliases := noAliases
  vp _ := false
  inh _ _ := true
  find _ _ := none
  needsSource _ _ := false
  opened _ _ := none
  selects _ _ := true
  rest _ _ _ := ()

theorem sound : SoundEnv E Full where
  lawful := full_lawful
  inhabited := full_noEmpty
  signature := Demo.plain
  aliases := noAliases_ok
  aliasesHold := noAliases_hold _
  opens := fun _ _ _ h => by cases h

def step (c : Clause) (t : Truthiness) : Step (Info Unit) := ⟨c, false, false, t, false, 0, 0, ()⟩

/-- `not even(add(zero, zero))`. -/
def n4 : Clause := ⟨[⟨false, .app even (.app (.app add zero) zero), .tt⟩], []⟩

theorem plain_n4 : PlainClause Demo.K n4 := Passive.plain_lit plain4 (List.mem_singleton_self _) false

def P : Prover Unit where
  env := E
  inhabited _ _ := true
  score _ s := ⟨s.clause.lits.isEmpty, 0, -(s.clause.lits.length : Int), false⟩
  usesGoal := false
  period := none
  order _ := id
  explained _ := true

def ins : List (Step (Info Unit)) := [step c2 .factual, step c1 .hypothetical, step n4 .counterfactual]

/-- Some steps of a search. -/
def steps : Nat → State Unit → Option (State Unit)
  | 0, st => some st
  | n + 1, st => (st.next P false).bind fun r => steps n r.1

def start (ins : List (Step (Info Unit))) : Option (State Unit) :=
  (noPanic ((Passive.PassiveSet.new P.setup).push P.setup ins)).map fun p => ⟨p, .new, none⟩

def report (ins : List (Step (Info Unit))) (n : Nat) :=
  ((start ins).bind (steps n)).map fun st => (st.active.steps.map (·.clause), st.passive.steps.map (Option.map (·.clause)),
    match st.final with
    | some (.step s) => some s.clause
    | _ => none)

theorem steps_searches {ins : List (Step (Info Unit))} : ∀ {n : Nat} {st st' : State Unit}, Searches P st ins →
    steps n st = some st' → Searches P st' ins
  | 0, st, st', h, e => by cases e; exact h
  | n + 1, st, st', h, e => by
    simp only [steps, Option.bind_eq_some_iff, Prod.exists] at e
    obtain ⟨st1, b, e1, e2⟩ := e
    exact steps_searches (.next false b h e1) e2

theorem start_searches {ins : List (Step (Info Unit))} {st : State Unit} (e : start ins = some st) :
    Searches P st ins := by
  simp only [start, Option.map_eq_some_iff] at e
  obtain ⟨p, e, rfl⟩ := e
  exact .add ins .new e

theorem report_search {ins : List (Step (Info Unit))} {n : Nat} {cs : List Clause} {ws : List (Option Clause)}
    {f : Option Clause} (h : report ins n = some (cs, ws, f)) : ∃ st, Searches P st ins ∧
      st.active.steps.map (·.clause) = cs ∧ st.passive.steps.map (Option.map (·.clause)) = ws ∧
      ∀ c, f = some c → ∃ s : Step (Info Unit), st.final = some (.step s) ∧ s.clause = c := by
  simp only [report, Option.map_eq_some_iff, Option.bind_eq_some_iff, Prod.mk.injEq] at h
  obtain ⟨st', ⟨st, e1, e2⟩, h1, h2, h3⟩ := h
  refine ⟨st', steps_searches (start_searches e1) e2, h1, h2, fun c hc => ?_⟩
  subst hc
  cases hf : st'.final with
  | none => rw [hf] at h3; cases h3
  | some f =>
    rw [hf] at h3
    cases f with
    | step s => exact ⟨s, rfl, by simpa using h3⟩
    | passive a b => cases h3
    | graph => cases h3

theorem sharp_bool {c : Clause} (h : ∀ l ∈ c.lits, l.left.BetaFree ∧ l.right = .tt ∧ SHasType Demo.K c.ctx l.left .boolTy) :
    Sharp Demo.K c := fun l hl => ⟨(h l hl).1, by rw [(h l hl).2.1]; trivial, .boolTy, s_bool, (h l hl).2.2⟩

theorem sharp1 : Sharp Demo.K c1 := sharp_bool fun l hl => by
  cases List.mem_singleton.1 hl; exact ⟨⟨rfl, trivial, trivial⟩, rfl, s_even s_zero⟩
theorem sharp4 : Sharp Demo.K n4 := sharp_bool fun l hl => by
  cases List.mem_singleton.1 hl
  exact ⟨⟨rfl, trivial, rfl, ⟨rfl, trivial, trivial⟩, trivial⟩, rfl, s_even (s_add s_zero s_zero)⟩
theorem sharp2 : Sharp Demo.K c2 := sharp_bool fun l hl => by
  have hv : SHasType Demo.K [some nat] (.fvar 0) nat := .fvar rfl rfl
  simp only [c2, List.mem_cons, List.not_mem_nil, or_false] at hl
  rcases hl with rfl | rfl
  · exact ⟨⟨rfl, trivial, trivial⟩, rfl, s_even hv⟩
  · exact ⟨⟨rfl, trivial, rfl, ⟨rfl, trivial, trivial⟩, trivial⟩, rfl, s_even (s_add hv hv)⟩

/-- What an activation derives after others. -/
def derives : ActiveSet Unit → List (Step (Info Unit)) → Step (Info Unit) → Option (List (Clause × Truthiness))
  | a, [], s => (a.activate E s).map fun r => r.1.map fun x => (x.clause, x.info.truth)
  | a, t :: ts, s => (a.activate E t).bind fun r => derives r.2 ts s

theorem derives_grows : ∀ {ts ss : List (Step (Info Unit))} {a : ActiveSet Unit} {s : Step (Info Unit)}
    {out : List (Clause × Truthiness)}, Grows E a ss → derives a ts s = some out →
    ∃ a1 a2 new, Grows E a1 (ss ++ ts) ∧ a1.activate E s = some (new, a2) ∧ new.map (fun x => (x.clause, x.info.truth)) = out
  | [], ss, a, s, out, h, e => by
    simp only [derives, Option.map_eq_some_iff, Prod.exists] at e
    obtain ⟨new, a2, e, rfl⟩ := e
    exact ⟨a, a2, new, by simpa using h, e, rfl⟩
  | t :: ts, ss, a, s, out, h, e => by
    simp only [derives, Option.bind_eq_some_iff, Prod.exists] at e
    obtain ⟨new, a1, e1, e2⟩ := e
    obtain ⟨b1, b2, n, h1, h2, h3⟩ := derives_grows (.activate h e1) e2
    exact ⟨b1, b2, n, by simpa using h1, h2, h3⟩

/-- `add(zero, zero) = zero`. -/
def z : Clause := ⟨[⟨true, .app (.app add zero) zero, zero⟩], []⟩

theorem plain_z : PlainClause Demo.K z := plainClause_iff.2 ⟨ValueVars.nil, fun l hl => by
  simp only [z, List.mem_cons, List.not_mem_nil, or_false] at hl; subst hl
  exact neat_lit s_nat (s_add s_zero s_zero) s_zero rfl rfl⟩

theorem full_z : ClauseTrue Full z := fun ρ _ β => ⟨_, List.mem_cons_self, add_full ZFSet.omega_zero ZFSet.omega_zero⟩

theorem sharp_z : Sharp Demo.K z := fun l hl => by
  cases List.mem_singleton.1 hl
  exact ⟨⟨rfl, ⟨rfl, trivial, trivial⟩, trivial⟩, trivial, nat, s_nat, s_add s_zero s_zero⟩

theorem sharp_c4 : Sharp Demo.K c4 := sharp_bool fun l hl => by
  cases List.mem_singleton.1 hl
  exact ⟨⟨rfl, trivial, rfl, ⟨rfl, trivial, trivial⟩, trivial⟩, rfl, s_even (s_add s_zero s_zero)⟩

theorem derives_mem {ts : List (Step (Info Unit))} {s : Step (Info Unit)} {c : Clause} {t : Truthiness}
    (h : (derives .new ts s).any (fun out => decide ((c, t) ∈ out)) = true) :
    ∃ a a' new, Grows E a ts ∧ a.activate E s = some (new, a') ∧ ∃ x ∈ new, x.clause = c ∧ x.info.truth = t := by
  cases hd : derives .new ts s with
  | none => rw [hd] at h; cases h
  | some out =>
    rw [hd] at h
    obtain ⟨a, a', new, h1, h2, rfl⟩ := derives_grows .new hd
    obtain ⟨x, hx, h3⟩ := List.mem_map.1 (of_decide_eq_true h)
    cases h3
    exact ⟨a, a', new, h1, h2, x, hx, rfl, rfl⟩

/-- The hypotheses of `C58_activate_partial` can be met: resolving the assumption `even(zero)` with the fact
`not even(x) or even(add(x, x))` gives `even(add(zero, zero))`, which claims to depend on assumptions. -/
example : ∃ a a' new, Grows E a [step c1 .hypothetical] ∧ a.activate E (step c2 .factual) = some (new, a') ∧
    (∃ x ∈ new, x.clause = c4 ∧ x.info.truth = .hypothetical) ∧ (∀ x ∈ new, TrueUpTo Demo.K Full 2 x) ∧
    a'.graph.contra = false := by
  obtain ⟨a, a', new, h1, h2, h3⟩ := derives_mem (ts := [step c1 .hypothetical]) (s := step c2 .factual) (c := c4)
    (t := .hypothetical) (by decide +kernel)
  obtain ⟨h4, h5⟩ := C58_activate_partial (n := 2) sound h1 (fun x hx => by
    simp only [List.mem_append, List.mem_singleton] at hx
    rcases hx with rfl | rfl
    · exact ⟨⟨plain1, fun _ => full1⟩, sharp1⟩
    · exact ⟨⟨plain2, fun _ => full2⟩, sharp2⟩) h2
  exact ⟨a, a', new, h1, h2, h3, h4, h5 (Nat.le_refl _)⟩

/-- By rewriting: the fact `add(zero, zero) = zero` turns the assumption `even(add(zero, zero))` into `even(zero)`. -/
example : ∃ a a' new, Grows E a [step c4 .hypothetical] ∧ a.activate E (step z .factual) = some (new, a') ∧
    (∃ x ∈ new, x.clause = c1 ∧ x.info.truth = .hypothetical) ∧ (∀ x ∈ new, TrueUpTo Demo.K Full 2 x) := by
  obtain ⟨a, a', new, h1, h2, h3⟩ := derives_mem (ts := [step c4 .hypothetical]) (s := step z .factual) (c := c1)
    (t := .hypothetical) (by decide +kernel)
  obtain ⟨h4, _⟩ := C58_activate_partial (n := 2) sound h1 (fun x hx => by
    simp only [List.mem_append, List.mem_singleton] at hx
    rcases hx with rfl | rfl
    · exact ⟨⟨plain4, fun _ => full4⟩, sharp_c4⟩
    · exact ⟨⟨plain_z, fun _ => full_z⟩, sharp_z⟩) h2
  exact ⟨a, a', new, h1, h2, h3, h4⟩

/-- With a false negated goal: the impossible clause that follows from `even(add(zero, zero))` and the negated goal
`not even(add(zero, zero))` claims to depend on the negated goal. -/
example : ∃ a a' new, Grows E a [step c4 .hypothetical] ∧ a.activate E (step n4 .counterfactual) = some (new, a') ∧
    (∃ x ∈ new, x.clause = ⟨[], []⟩ ∧ x.info.truth = .counterfactual) ∧ (∀ x ∈ new, TrueUpTo Demo.K Full 1 x) := by
  obtain ⟨a, a', new, h1, h2, h3⟩ := derives_mem (ts := [step c4 .hypothetical]) (s := step n4 .counterfactual)
    (c := ⟨[], []⟩) (t := .counterfactual) (by decide +kernel)
  obtain ⟨h4, _⟩ := C58_activate_partial (n := 1) sound h1 (fun x hx => by
    simp only [List.mem_append, List.mem_singleton] at hx
    rcases hx with rfl | rfl
    · exact ⟨⟨plain4, fun _ => full4⟩, sharp_c4⟩
    · exact ⟨⟨plain_n4, fun h => absurd h (by decide)⟩, sharp4⟩) h2
  exact ⟨a, a', new, h1, h2, h3, h4⟩

/-- The hypotheses of `C58_simplify_partial` can be met: with `even(zero)`, the clause
`not even(zero) or even(add(zero, zero))` becomes `even(add(zero, zero))`. -/
example : ∃ a t, Grows E a [step c1 .hypothetical] ∧ a.simplify E (step c5 .factual) = some (some t) ∧ t.clause = c4 ∧
    t.info.truth = .hypothetical ∧ TrueUpTo Demo.K Full 2 t := by
  have h : (((ActiveSet.new : ActiveSet Unit).activate E (step c1 .hypothetical)).any fun r =>
      (r.2.simplify E (step c5 .factual)).any fun o => o.any fun t =>
        decide (t.clause = c4 ∧ t.info.truth = .hypothetical)) = true := by decide +kernel
  simp only [Option.any_eq_true] at h
  obtain ⟨⟨new, a⟩, e, _, e', t, rfl, ht⟩ := h
  have hg : Grows E a [step c1 .hypothetical] := .activate .new e
  have ht := of_decide_eq_true ht
  refine ⟨a, t, hg, e', ht.1, ht.2, C58_simplify_partial (s := step c5 .factual) (n := 2) sound hg (fun x hx => ?_) ⟨plain5, fun _ => full5⟩ e'⟩
  rw [List.mem_singleton.1 hx]
  exact ⟨⟨plain1, fun _ => full1⟩, sharp1⟩

theorem grows_one : ∃ a, Grows E a [step c1 .hypothetical] ∧ a.simplify E (step c1 .factual) = some none := by
  have h : (((ActiveSet.new : ActiveSet Unit).activate E (step c1 .hypothetical)).any fun r =>
      match r.2.simplify E (step c1 .factual) with | some none => true | _ => false) = true := by decide +kernel
  simp only [Option.any_eq_true] at h
  obtain ⟨⟨new, a⟩, e, h3⟩ := h
  refine ⟨a, .activate .new e, ?_⟩
  split at h3
  · assumption
  · cases h3

/-- The hypotheses of `C58_simplify_keeps_partial` can be met, by a step that is dropped: `even(zero)` is known. -/
example : ∃ a, Grows E a [step c1 .hypothetical] ∧ a.simplify E (step c1 .factual) = some none ∧
    PlainClause Demo.K c1 ∧ NegFirst c1.lits ∧
    (ClauseTrue Full c1 ∨ ∃ i T, c1.ctx.get i = some T ∧ E.inh c1.ctx T = false) := by
  obtain ⟨a, h, e⟩ := grows_one
  have hn : NegFirst c1.lits := List.pairwise_singleton _ _
  refine ⟨a, h, e, plain1, hn, (C58_simplify_keeps_partial (s := step c1 .factual) sound h (fun x hx => ?_) plain1 hn e).2 rfl⟩
  rw [List.mem_singleton.1 hx]
  exact ⟨plain1, full1, sharp1⟩

/-- The hypotheses of `C58_resolution_found` can be met: `even(zero)` and `not even(x) or even(add(x, x))`. -/
example : ∃ a a' new t, Grows E a [step c1 .hypothetical] ∧ a.activate E (step c2 .factual) = some (new, a') ∧ t ∈ new ∧
    t.clause = c4 := by
  obtain ⟨a, a', new, h1, h2, -⟩ := derives_mem (ts := [step c1 .hypothetical]) (s := step c2 .factual) (c := c4)
    (t := .hypothetical) (by decide +kernel)
  have h : ((tryResolution E 0 (step c1 .hypothetical) 0 1 (step c2 .factual) 0 false).any fun o => o.any fun t =>
      decide (t.clause = c4)) = true := by decide +kernel
  simp only [Option.any_eq_true] at h
  obtain ⟨_, e, t, rfl, ht⟩ := h
  refine ⟨a, a', new, t, h1, h2, C58_resolution_found (i := 0) (j := 0) (k := 0) (left := true) h1 h2 rfl rfl rfl rfl
    (by rintro ⟨-, h⟩; cases h) plain2 plain1 sharp2 sharp1 ?_ e, of_decide_eq_true ht⟩
  refine ⟨[], fun _ => zero, fun i => .fvar i, ⟨fun i T h => ?_, fun _ => rfl⟩, ⟨fun i T h => by simp [LCtx.get, step, c1] at h,
    fun _ => rfl⟩, rfl⟩
  match i, h with
  | 0, h => cases h; exact s_zero.typed

/-- The hypotheses of `C58_resolution_partial` can be met. -/
example : ∃ t, tryResolution E 0 (step c1 .hypothetical) 0 1 (step c2 .factual) 0 false = some (some t) ∧ t.clause = c4 ∧
    ClauseTrue Full t.clause ∧ level t.info.truth = 1 := by
  have h : ((tryResolution E 0 (step c1 .hypothetical) 0 1 (step c2 .factual) 0 false).any fun o => o.any fun t =>
      decide (t.clause = c4)) = true := by decide +kernel
  simp only [Option.any_eq_true] at h
  obtain ⟨_, e, t, rfl, ht⟩ := h
  obtain ⟨_, h2, h3⟩ := C58_resolution_partial (pos := step c1 .hypothetical) (neg := step c2 .factual) (M := Full) sound plain1 plain2 e
  exact ⟨t, e, of_decide_eq_true ht, h2 full1 full2, h3⟩

/-- The hypotheses of `C58_search_partial` can be met: given `even(zero)`, `not even(x) or even(add(x, x))` and
`not even(add(zero, zero))`, the search ends with an impossible clause, so one of them is false. -/
example : ∃ st f, Searches P st ins ∧ st.final = some f ∧ ¬ MixedEnd f ∧ ∃ s ∈ ins, ¬ ClauseTrue Full s.clause := by
  have hd : (report ins 3).map (fun x => (x.1, x.2.2)) = some ([n4, c1, c2], some ⟨[], []⟩) := by decide +kernel
  simp only [Option.map_eq_some_iff, Prod.exists, Prod.mk.injEq] at hd
  obtain ⟨cs, ws, f, hr, rfl, rfl⟩ := hd
  obtain ⟨st, h1, h2, _, h4⟩ := report_search hr
  obtain ⟨s, hs, _⟩ := h4 _ rfl
  have hm : ¬ MixedEnd (.step s) := fun ⟨a, b, h, _⟩ => by cases h
  refine ⟨st, _, h1, hs, hm, C58_search_partial sound (fun _ _ => .refl _) h1 (fun x hx => ?_) (fun x hx => ?_) hs hm⟩
  · simp only [ins, List.mem_cons, List.not_mem_nil, or_false] at hx
    rcases hx with rfl | rfl | rfl
    · exact plain2
    · exact plain1
    · exact plain_n4
  · have : x.clause ∈ [n4, c1, c2] := by rw [← h2]; exact List.mem_map_of_mem hx
    simp only [List.mem_cons, List.not_mem_nil, or_false] at this
    show Sharp Demo.K _
    rcases this with h | h | h <;> rw [h]
    · exact sharp4
    · exact sharp1
    · exact sharp2

/-- The hypotheses of `C58_derived_partial` can be met: the search finds `even(add(zero, zero))`. -/
example : ∃ st, Searches P st [step c2 .factual, step c1 .hypothetical] ∧ st.passive.Has c4 ∧ st.active.steps.length = 2 ∧
    st.passive.AllTrue Full := by
  have hd : (report [step c2 .factual, step c1 .hypothetical] 2).map (fun x => (x.1, x.2.1)) =
      some ([c1, c2], [none, none, some c4]) := by decide +kernel
  simp only [Option.map_eq_some_iff, Prod.exists, Prod.mk.injEq] at hd
  obtain ⟨cs, ws, f, hr, rfl, rfl⟩ := hd
  obtain ⟨st, h1, h2, h3, _⟩ := report_search hr
  refine ⟨st, h1, ?_, by have := congrArg List.length h2; simpa using this, ?_⟩
  · have h := congrArg (·[2]?) h3
    simp only [List.getElem?_map, List.getElem?_cons_succ, List.getElem?_cons_zero, Option.map_eq_some_iff] at h
    obtain ⟨o, ho, s, rfl, hs⟩ := h
    exact Passive.has_steps.2 ⟨s, List.mem_of_getElem? ho, hs⟩
  · refine (C58_derived_partial sound (fun _ _ => .refl _) h1 (fun x hx => ?_) (fun x hx => ?_)).2
    · simp only [List.mem_cons, List.not_mem_nil, or_false] at hx
      rcases hx with rfl | rfl
      · exact ⟨plain2, full2⟩
      · exact ⟨plain1, full1⟩
    · have : x.clause ∈ [c1, c2] := by rw [← h2]; exact List.mem_map_of_mem hx
      simp only [List.mem_cons, List.not_mem_nil, or_false] at this
      show Sharp Demo.K _
      rcases this with h | h <;> rw [h]
      · exact sharp1
      · exact sharp2

end ActiveDemo
end Acorn
