/-
Helper lemmas for C63: the rounds of a search, and all of them together.
-/
import Verif.Lemmas.SearchOutcome
import Verif.Spec.SearchOutcome
namespace Acorn
namespace Active
open Spec
open Passive (Step)

variable {R : Type} {H : Hunt R}

theorem isShallow_iff {mode : ProverMode} : IsShallow mode ↔ mode.shallowOnly = true := by
  cases mode <;> simp [IsShallow, ProverMode.shallowOnly]

theorem not_isShallow {mode : ProverMode} (h : mode.shallowOnly = false) : ¬ IsShallow mode := by
  rw [isShallow_iff, h]; simp

theorem capOf_eq (mode : ProverMode) : capOf mode = mode.limit := by cases mode <;> rfl

theorem timeOf_eq (mode : ProverMode) : timeOf mode = mode.timeout := by cases mode <;> rfl

theorem combine_goal (a b : Truthiness) : a.combine b = .counterfactual ↔ a = .counterfactual ∨ b = .counterfactual := by
  cases a <;> cases b <;> simp [Truthiness.combine]

theorem blame_goal {a : ActiveSet R} : ∀ {is : List Nat} {t t' : Truthiness}, blame a t is = some t' →
    (t' = .counterfactual ↔ t = .counterfactual ∨ ∃ i ∈ is, ∃ s, a.steps[i]? = some s ∧ s.info.truth = .counterfactual)
  | [], t, t', e => by cases e; simp
  | i :: is, t, t', e => by
    simp only [blame, Option.bind_eq_bind, Option.bind_eq_some_iff] at e
    obtain ⟨s, e1, e2⟩ := e
    rw [blame_goal e2, combine_goal, or_assoc]
    refine or_congr_right ?_
    constructor
    · rintro (h | ⟨j, hj, h⟩)
      · exact ⟨i, by simp, s, e1, h⟩
      · exact ⟨j, by simp [hj], h⟩
    · rintro ⟨j, hj, z, hz, h⟩
      rcases List.mem_cons.1 hj with rfl | hj
      · rw [e1] at hz; cases hz; exact .inl h
      · exact .inr ⟨j, hj, z, hz, h⟩

theorem truth_goal {a : ActiveSet R} {f : Final R} {t : Truthiness} (e : H.truth a f = some t) :
    t = .counterfactual ↔ UsesGoal H a f := by
  cases f with
  | step s =>
    cases e
    exact ⟨fun h => ⟨s, rfl, h⟩, fun ⟨_, h, k⟩ => h ▸ k⟩
  | passive x y =>
    cases e
    rw [combine_goal, combine_goal]
    constructor
    · rintro ((h | h) | h)
      · cases h
      · exact ⟨x, .inl rfl, h⟩
      · exact ⟨y, .inr rfl, h⟩
    · rintro ⟨_, rfl | rfl, h⟩
      · exact .inl (.inr h)
      · exact .inr h
  | graph =>
    simp only [Hunt.truth, Option.bind_eq_bind, Option.bind_eq_some_iff] at e
    obtain ⟨s, e1, e2⟩ := e
    rw [blame_goal e2]
    constructor
    · rintro (h | ⟨i, hi, z, hz, h⟩)
      · exact ⟨s, ⟨_, by simp, e1⟩, h⟩
      · exact ⟨z, ⟨i, by simp [hi], hz⟩, h⟩
    · rintro ⟨z, ⟨i, hi, hz⟩, h⟩
      rcases List.mem_cons.1 hi with rfl | hi
      · rw [e1] at hz; cases hz; exact .inl h
      · exact .inr ⟨i, hi, z, hz, h⟩

theorem verdict_says {mode : ProverMode} {ms : List Moment} {r : Run R} {f : Final R} {o : Outcome}
    (hf : r.state.final = some f) (e : H.verdict r.state.active f = some o) : Says H mode ms r (some o) := by
  unfold Hunt.verdict at e
  simp only [Option.bind_eq_bind, Option.bind_eq_some_iff, Option.pure_def] at e
  obtain ⟨t, e1, e⟩ := e
  have hg := truth_goal e1
  split at e
  · rename_i ht
    cases e
    exact ⟨f, hf, .inl (hg.1 ht)⟩
  · rename_i ht
    split at e
    · rename_i hk; cases e; exact ⟨f, hf, .inr hk⟩
    · rename_i hk; cases e; exact ⟨f, hf, fun h => ht (hg.2 h), hk⟩

theorem len_waits {P : Prover R} {p : Passive.PassiveSet (Info R)} (h : Neat P p) :
    p.len = 0 ↔ ¬ ∃ id s sc, p.Waits id s sc := by
  rw [Passive.waiting_count h.1]
  rw [List.length_eq_zero_iff, List.filter_eq_nil_iff]
  constructor
  · rintro hn ⟨id, s, sc, hw⟩
    refine hn (some s) ?_ rfl
    unfold Passive.PassiveSet.steps
    unfold Passive.PassiveSet.Waits at hw
    have := List.mem_of_getElem? hw
    exact List.mem_map.2 ⟨_, this, rfl⟩
  · intro hn x hx hs
    unfold Passive.PassiveSet.steps at hx
    obtain ⟨y, hy, rfl⟩ := List.mem_map.1 hx
    obtain ⟨i, hi⟩ := List.getElem?_of_mem hy
    cases y with
    | none => cases hs
    | some y => exact hn ⟨i, y.1, y.2, hi⟩

/-- What a part of a search does. -/
structure Ran (H : Hunt R) (mode : ProverMode) (ins : List (Step (Info R))) (r r' : Run R) : Prop where
  searches : Searches H.prover r'.state ins
  steps : ∃ new, r'.state.active.steps = r.state.active.steps ++ new ∧ r.count + (nonfactual new).length ≤ r'.count ∧
    (mode.shallowOnly = true → ∀ s ∈ new, ∃ g, (H.prover.score g s).shallow = true)
  shallow : mode.shallowOnly = true → r'.state.passive.allShallow = r.state.passive.allShallow

theorem Ran.trans {mode : ProverMode} {ins : List (Step (Info R))} {r r' r'' : Run R} (h : Ran H mode ins r r')
    (h' : Ran H mode ins r' r'') : Ran H mode ins r r'' := by
  obtain ⟨new, e, n, g⟩ := h.steps
  obtain ⟨new', e', n', g'⟩ := h'.steps
  refine ⟨h'.searches, ⟨new ++ new', by rw [e', e, List.append_assoc], ?_, fun hs s hm => ?_⟩,
    fun hs => (h'.shallow hs).trans (h.shallow hs)⟩
  · unfold nonfactual at n n' ⊢
    rw [List.filter_append, List.length_append]; omega
  · rcases List.mem_append.1 hm with hm | hm
    · exact g hs s hm
    · exact g' hs s hm

theorem Ran.same {mode : ProverMode} {ins : List (Step (Info R))} {r r' : Run R} (h : Searches H.prover r'.state ins)
    (e1 : r'.state.active = r.state.active) (e2 : r'.state.passive.allShallow = r.state.passive.allShallow)
    (e3 : r'.count = r.count) : Ran H mode ins r r' :=
  ⟨h, ⟨[], by rw [e1]; simp, by simp [nonfactual, e3], fun _ s h => by cases h⟩, fun _ => e2⟩

theorem stands_ran {mode : ProverMode} {ins : List (Step (Info R))} {r : Run R} {st' : State R}
    (h : Searches H.prover r.state ins) (hf : r.state.final = none) {b : Bool} {o : Option Outcome}
    (e : Stands H b r.state st' o) : Ran H mode ins r { r with state := st' } := by
  refine Ran.same (stands_searches h hf e) ?_ ?_ rfl
  · cases e with
    | goes _ e => rw [e]
    | ends _ _ _ e => rw [e]
    | clash _ _ e => rw [e]
  · cases e with
    | goes _ e => rw [e]
    | ends _ _ _ e => rw [e]
    | clash _ _ e => rw [e]

theorem stands_says (ho : ∀ k l, (H.prover.order k l).Perm l) {mode : ProverMode} {ins : List (Step (Info R))}
    {r : Run R} {st' : State R} (h : Searches H.prover r.state ins) (hf : r.state.final = none) {o : Outcome}
    (e : Stands H mode.shallowOnly r.state st' (some o)) (ms : List Moment) :
    Says H mode ms { r with state := st' } (some o) := by
  cases e with
  | clash e1 e2 e => subst e; exact verdict_says rfl e2
  | ends hb hc hg e =>
    subst e
    refine ⟨hf, isShallow_iff.2 hb, fun hl => ?_, noPanic_some hg⟩
    rw [(can_pop (searches_neat ho h)).2 hl] at hc
    cases hc

theorem takes_ran (ho : ∀ k l, (H.prover.order k l).Perm l) {mode : ProverMode} {ins : List (Step (Info R))}
    {r r' : Run R} (h : Searches H.prover r.state ins) (h' : Searches H.prover r'.state ins) {stop : Bool}
    (e : Takes H.prover mode.shallowOnly r r' stop) (hp : mode.shallowOnly = true → ShallowLeft r.state) :
    Ran H mode ins r r' ∧ r'.count ≤ r.count + 1 := by
  cases e with
  | clash _ e => subst e; exact ⟨Ran.same h' rfl rfl rfl, by simp⟩
  | none _ e1 e2 _ _ e3 e4 =>
    refine ⟨⟨h', ⟨[], by rw [e2]; simp, by simp [nonfactual, e1], fun _ s h => by cases h⟩, fun hb => ?_⟩, by omega⟩
    obtain ⟨_, id, s, sc, hw, hs⟩ := hp hb
    rw [(e4 id s sc hw).2] at hs
    cases hs
  | @some id s sc stop hw hb hn ha hc hi hi' hs =>
    refine ⟨⟨h', ?_, ha⟩, by rw [hc]; split <;> omega⟩
    cases him : s.clause.isImpossible with
    | true =>
      obtain ⟨_, e, _⟩ := hi him
      exact ⟨[], by rw [e]; simp, by rw [hc]; simp only [nonfactual, List.filter_nil, List.length_nil]; split <;> omega,
        fun _ s h => by cases h⟩
    | false =>
      refine ⟨[s], hi' him, ?_, fun hb' x hx => ?_⟩
      · rw [hc]
        by_cases hf : s.info.truth = .factual
        · simp [nonfactual, hf]
        · simp [nonfactual, hf]
      · cases List.mem_singleton.1 hx
        obtain ⟨g, _, hg, _⟩ := (searches_neat ho h).2 id s sc hw
        exact ⟨g, by rw [← hb hb', hg]; rfl⟩

theorem check_ran (ho : ∀ k l, (H.prover.order k l).Perm l) {mode : ProverMode} {ins : List (Step (Info R))}
    {r r' : Run R} (h : Searches H.prover r.state ins) (hf : r.state.final = none) {m : Moment} {o : Option Outcome}
    (e : H.check mode m r = some (r', o)) :
    Ran H mode ins r r' ∧ r'.count = r.count ∧ Says H mode [m] r' o ∧ (o = none → (r'.count : Int) < mode.limit) := by
  unfold Hunt.check at e
  split at e
  · rename_i hc
    cases e
    exact ⟨Ran.same h rfl rfl rfl, rfl, ⟨hf, m, by simp, hc⟩, fun h => by cases h⟩
  · rename_i hc
    simp only [Option.bind_eq_bind, Option.bind_eq_some_iff, Option.pure_def, Prod.exists] at e
    obtain ⟨st, o', e1, e⟩ := e
    have hs := frontier_stands hf e1
    have hr := stands_ran (mode := mode) h hf hs
    cases o' with
    | some o' =>
      cases e
      exact ⟨hr, rfl, stands_says ho h hf hs _, fun h => by cases h⟩
    | none =>
      cases hs with
      | goes hg e2 =>
        subst e2
        have hn := searches_neat ho h
        have hw := len_waits hn
        simp only at e
        split at e
        · rename_i hl
          cases e
          refine ⟨hr, rfl, ⟨hf, not_isShallow ?_, hw.1 hl⟩, fun h => by cases h⟩
          cases hb : mode.shallowOnly with
          | false => rfl
          | true =>
            obtain ⟨_, id, s, sc, hx, _⟩ := (can_pop hn).1 (hg hb)
            exact absurd ⟨id, s, sc, hx⟩ (hw.1 hl)
        · rename_i hl
          have hw' : SomeWaits r.state := Classical.byContradiction fun h => hl (hw.2 h)
          split at e
          · rename_i hlim
            split at e
            · rename_i hcp
              cases e
              exact ⟨hr, rfl, ⟨hf, capOf_eq mode ▸ hlim, (can_pop hn).1 hcp⟩, fun h => by cases h⟩
            · rename_i hcp
              cases e
              refine ⟨hr, rfl, ⟨hf, capOf_eq mode ▸ hlim, not_isShallow ?_, hw', fun h => hcp ((can_pop hn).2 h)⟩, fun h => by cases h⟩
              cases hb : mode.shallowOnly with
              | false => rfl
              | true => exact absurd (hg hb) hcp
          · rename_i hlim
            split at e
            · rename_i ht
              cases e
              exact ⟨hr, rfl, ⟨hf, hw', m, by simp, timeOf_eq mode ▸ ht⟩, fun h => by cases h⟩
            · rename_i ht
              cases e
              refine ⟨hr, rfl, ⟨hf, fun x hx => ?_⟩, fun _ => by simpa using hlim⟩
              cases List.mem_singleton.1 hx
              exact ⟨by simpa using hc, by rw [timeOf_eq]; omega⟩

theorem round_ran (ho : ∀ k l, (H.prover.order k l).Perm l) {mode : ProverMode} {ins : List (Step (Info R))}
    {r r' : Run R} (h : Searches H.prover r.state ins) (hf : r.state.final = none) {m : Moment} {o : Option Outcome}
    (e : H.round mode m r = some (r', o)) :
    Ran H mode ins r r' ∧ r'.count ≤ r.count + 1 ∧ Says H mode [m] r' o ∧ (o = none → (r'.count : Int) < mode.limit) := by
  unfold Hunt.round at e
  simp only [Option.bind_eq_bind, Option.bind_eq_some_iff, Option.pure_def, Prod.exists] at e
  obtain ⟨st, o', e1, e⟩ := e
  have hs := frontier_stands hf e1
  have hr := stands_ran (mode := mode) h hf hs
  cases o' with
  | some o' =>
    cases e
    exact ⟨hr, by simp, stands_says ho h hf hs _, fun h => by cases h⟩
  | none =>
    cases hs with
    | goes hg e2 =>
      subst e2
      have hn := searches_neat ho h
      simp only [Option.bind_eq_some_iff, Prod.exists] at e
      obtain ⟨r1, stop, e2, e⟩ := e
      have hsr := run_searches h e2
      have ht := run_next ho hn hf e2
      obtain ⟨k1, k2⟩ := takes_ran ho h hsr ht fun hb => (can_pop hn).1 (hg hb)
      cases stop with
      | false =>
        simp only [Bool.false_eq_true, if_false] at e
        have hf1 : r1.state.final = none := by
          cases ht with
          | some _ _ _ _ _ _ _ hs => simpa using hs
        obtain ⟨c1, c2, c3, c4⟩ := check_ran ho hsr hf1 e
        exact ⟨k1.trans c1, by omega, c3, c4⟩
      | true =>
        simp only [if_true] at e
        split at e
        · rename_i f hf1
          simp only [Option.bind_eq_some_iff] at e
          obtain ⟨o', e3, e⟩ := e
          cases e
          exact ⟨k1, k2, verdict_says hf1 e3, fun h => by cases h⟩
        · rename_i hf1
          cases e
          refine ⟨k1, k2, ?_, fun h => by cases h⟩
          cases ht with
          | clash _ e => rw [e] at hf1; cases hf1
          | some _ _ _ _ _ _ _ hs => rw [hf1] at hs; cases hs
          | none _ _ _ _ _ e3 e4 =>
            have hb : mode.shallowOnly = false := by
              cases hb : mode.shallowOnly with
              | false => rfl
              | true =>
                obtain ⟨_, id, s, sc, hw, hs⟩ := (can_pop hn).1 (hg hb)
                rw [(e4 id s sc hw).2] at hs; cases hs
            refine ⟨hf1, not_isShallow hb, ?_⟩
            rintro ⟨id, s, sc, hw⟩
            have := (e4 id s sc ((e3 id s sc).1 hw)).1
            rw [hb] at this; cases this

theorem says_more {mode : ProverMode} {m : Moment} {ms : List Moment} {r : Run R} {o : Option Outcome}
    (hm : m.cancelled = false ∧ m.elapsed < timeOf mode) (h : Says H mode ms r o) : Says H mode (m :: ms) r o := by
  cases o with
  | none =>
    refine ⟨h.1, fun x hx => ?_⟩
    rcases List.mem_cons.1 hx with rfl | hx
    · exact hm
    · exact h.2 x hx
  | some o =>
    cases o with
    | interrupted => obtain ⟨h1, x, hx, h2⟩ := h; exact ⟨h1, x, by simp [hx], h2⟩
    | timeout => obtain ⟨h1, h3, x, hx, h2⟩ := h; exact ⟨h1, h3, x, by simp [hx], h2⟩
    | _ => exact h

theorem says_fewer {mode : ProverMode} {m : Moment} {ms : List Moment} {r : Run R} {o : Outcome}
    (h : Says H mode [m] r (some o)) : Says H mode (m :: ms) r (some o) := by
  cases o with
  | interrupted => obtain ⟨h1, x, hx, h2⟩ := h; cases List.mem_singleton.1 hx; exact ⟨h1, m, by simp, h2⟩
  | timeout => obtain ⟨h1, h3, x, hx, h2⟩ := h; cases List.mem_singleton.1 hx; exact ⟨h1, h3, m, by simp, h2⟩
  | _ => exact h

theorem search_ran (ho : ∀ k l, (H.prover.order k l).Perm l) {mode : ProverMode} {ins : List (Step (Info R))} :
    ∀ {ms : List Moment} {r r' : Run R} {o : Option Outcome}, Searches H.prover r.state ins → r.state.final = none →
    H.search mode ms r = some (r', o) →
    Ran H mode ins r r' ∧ Says H mode ms r' o ∧ (r'.count : Int) ≤ max mode.limit (r.count + 1)
  | [], r, r', o, h, hf, e => by
    cases e
    exact ⟨Ran.same h rfl rfl rfl, ⟨hf, fun m h => by cases h⟩, by omega⟩
  | m :: ms, r, r', o, h, hf, e => by
    simp only [Hunt.search, Option.bind_eq_bind, Option.bind_eq_some_iff, Option.pure_def, Prod.exists] at e
    obtain ⟨r1, o1, e1, e⟩ := e
    obtain ⟨k1, k2, k3, k4⟩ := round_ran ho h hf e1
    cases o1 with
    | some o1 =>
      cases e
      exact ⟨k1, says_fewer k3, by omega⟩
    | none =>
      obtain ⟨c1, c2, c3⟩ := search_ran ho k1.searches k3.1 e
      have := k4 rfl
      exact ⟨k1.trans c1, says_more (k3.2 m (by simp)) c2, by omega⟩

end Active
end Acorn
