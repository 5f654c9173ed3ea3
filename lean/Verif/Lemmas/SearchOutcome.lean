/-
Helper lemmas for C63: what the rounds of a search do.
-/
import Verif.Model.SearchOutcome
import Verif.Lemmas.ActiveSearch
import Verif.Props.PassiveSet
namespace Acorn
namespace Active
open Spec
open Passive (Step)

variable {R : Type} {H : Hunt R} {P : Prover R}

/-! ### The passive set is in order -/

/-- The passive set is in order. -/
def Neat (P : Prover R) (p : Passive.PassiveSet (Info R)) : Prop := Passive.Agrees P.setup p ∧ Passive.Scored P.setup p

theorem neat_push {p p' : Passive.PassiveSet (Info R)} (h : Neat P p) {ss : List (Step (Info R))}
    (e : noPanic (p.push P.setup ss) = some p') : Neat P p' ∧ p'.allShallow = p.allShallow := by
  have e := noPanic_some e
  rcases Passive.push_spec h.1 h.2 ss with e' | ⟨q, e', h1, h2, _, _, h3, _⟩
  · rw [e'] at e; cases e
  · rw [e'] at e; cases e; exact ⟨⟨h1, h2⟩, h3⟩

theorem neat_simplify (ho : ∀ k l, (P.order k l).Perm l) {st : State R} (h : Neat P st.passive) {s : Step (Info R)}
    {p' : Passive.PassiveSet (Info R)} (e : simplifyPassive P st s = some p') :
    Neat P p' ∧ p'.allShallow = st.passive.allShallow := by
  unfold simplifyPassive at e
  split at e
  · rename_i hl
    have e := noPanic_some e
    rcases Passive.simplify_kept (S := P.setup) (ho st.active.steps.length) hl h.1 h.2 with e' | ⟨q, e', hk⟩
    · rw [e'] at e; cases e
    · rw [e'] at e; cases e; exact ⟨⟨hk.agrees, hk.scored⟩, hk.flags.1⟩
  · cases e; exact ⟨h, rfl⟩

theorem neat_pop {st : State R} (h : Neat P st.passive) {b : Bool} {x : Option (Step (Info R))}
    {p' : Passive.PassiveSet (Info R)} (e : st.pop P b = some (x, p')) :
    Neat P p' ∧ (b = true → p'.allShallow = st.passive.allShallow) ∧
    (x = none → (∀ id s sc, p'.Waits id s sc ↔ st.passive.Waits id s sc) ∧
      ∀ id s sc, st.passive.Waits id s sc → b = true ∧ sc.shallow = false) ∧
    ∀ s, x = some s → ∃ id sc, st.passive.Waits id s sc ∧ (b = true → sc.shallow = true) := by
  unfold State.pop at e
  split at e
  · rename_i hb
    simp only [Option.map_eq_some_iff, Prod.mk.injEq] at e
    obtain ⟨⟨z, q⟩, e, rfl, rfl⟩ := e
    have e := noPanic_some e
    rcases Passive.popShallow_spec h.1 with ⟨e', hn⟩ | ⟨w, hw, hs, e', _⟩
    · rw [e'] at e; cases e
      exact ⟨h, fun _ => rfl, fun _ => ⟨fun _ _ _ => Iff.rfl, fun id s sc hw => ⟨hb, hn id s sc hw⟩⟩, fun s hs => by cases hs⟩
    · rw [e'] at e; cases e
      exact ⟨⟨h.1.forget hw, h.2.forget hw⟩, fun _ => rfl, (fun hx => by cases hx),
        fun s hs' => by cases hs'; exact ⟨w.id, w.score, hw, fun _ => hs⟩⟩
  · rename_i hb
    have hb : b = false := by simpa using hb
    simp only [Option.map_eq_some_iff, Prod.mk.injEq] at e
    obtain ⟨⟨z, q⟩, e, rfl, rfl⟩ := e
    have e := noPanic_some e
    have h0 := Passive.op_spec h.1 h.2 (o := .pop) trivial
    simp only [Passive.PassiveSet.op, e, Bind.bind, Except.bind, pure, Except.pure] at h0
    rcases h0 with h0 | ⟨q', x, h0, h1, h2, _⟩
    · cases h0
    · cases h0
      rcases Passive.pop_spec h.1 with ⟨e', hn⟩ | ⟨w, hw, e', _⟩
      · rw [e'] at e; cases e
        exact ⟨⟨h1, h2⟩, (fun hb' => by simp [hb] at hb'),
          fun _ => ⟨fun _ _ _ => Iff.rfl, fun id s sc hw => absurd hw (hn id s sc)⟩, fun s hs => by cases hs⟩
      · rw [e'] at e; cases e
        exact ⟨⟨h1, h2⟩, (fun hb' => by simp [hb] at hb'), (fun hx => by cases hx),
          fun s hs => by cases hs; exact ⟨w.id, w.score, hw, fun hb' => by simp [hb] at hb'⟩⟩

theorem conclude_only {st st' : State R} {b : Bool} (hf : st.final = none) (e : conclude P st = some (st', b)) :
    st'.active = st.active ∧ st'.passive = st.passive ∧ st'.final.isSome = b := by
  unfold conclude at e
  simp only [Option.bind_eq_bind, Option.bind_eq_some_iff, Option.pure_def] at e
  obtain ⟨x, -, e⟩ := e
  cases x with
  | some xy => cases e; exact ⟨rfl, rfl, rfl⟩
  | none =>
    simp only at e
    split at e <;> cases e
    · exact ⟨rfl, rfl, rfl⟩
    · exact ⟨rfl, rfl, by rw [hf]; rfl⟩

theorem activate_only (ho : ∀ k l, (P.order k l).Perm l) {st st' : State R} (h : Neat P st.passive) {s : Step (Info R)}
    {b : Bool} (e : State.activate P st s = some (st', b)) :
    st'.active.steps = st.active.steps ++ [s] ∧ Neat P st'.passive ∧ st'.passive.allShallow = st.passive.allShallow ∧
      st'.final.isSome = b := by
  unfold State.activate at e
  simp only [Option.bind_eq_bind, Option.bind_eq_some_iff, Option.pure_def, Prod.exists] at e
  obtain ⟨p, e1, new, act, e2, r, e3, e⟩ := e
  have hst := activate_steps e2
  obtain ⟨hp, hp'⟩ := neat_simplify ho h e1
  cases r with
  | inl f => cases e; exact ⟨hst, hp, hp', rfl⟩
  | inr ns =>
    simp only [Option.bind_eq_some_iff] at e
    obtain ⟨q, e4, e⟩ := e
    obtain ⟨hq, hq'⟩ := neat_push hp e4
    obtain ⟨k1, k2, k3⟩ := conclude_only rfl e
    exact ⟨by rw [k1, hst], by rw [k2]; exact hq, by rw [k2]; exact hq'.trans hp', k3⟩

/-! ### One step -/

/-- What taking the next step does. -/
inductive Takes (P : Prover R) (b : Bool) (r r' : Run R) : Bool → Prop
  /-- Two waiting steps contradict each other. -/
  | clash {x y : Step (Info R)} : noPanic r.state.passive.getContradiction = some (some (x, y)) →
      r' = ⟨{ r.state with final := some (.passive x y) }, r.count⟩ → Takes P b r r' true
  /-- Nothing is left. -/
  | none : noPanic r.state.passive.getContradiction = some none → r'.count = r.count →
      r'.state.active = r.state.active → r'.state.final = none → Neat P r'.state.passive →
      (∀ id s sc, r'.state.passive.Waits id s sc ↔ r.state.passive.Waits id s sc) →
      (∀ id s sc, r.state.passive.Waits id s sc → b = true ∧ sc.shallow = false) → Takes P b r r' true
  /-- A step is taken. -/
  | some {id : Nat} {s : Step (Info R)} {sc : Passive.Score} {stop : Bool} : r.state.passive.Waits id s sc →
      (b = true → sc.shallow = true) → Neat P r'.state.passive →
      (b = true → r'.state.passive.allShallow = r.state.passive.allShallow) →
      r'.count = (if s.info.truth = .factual then r.count else r.count + 1) →
      (s.clause.isImpossible = true → stop = true ∧ r'.state.active = r.state.active ∧ r'.state.final = some (.step s)) →
      (s.clause.isImpossible = false → r'.state.active.steps = r.state.active.steps ++ [s]) →
      r'.state.final.isSome = stop → Takes P b r r' stop

theorem run_next (ho : ∀ k l, (H.prover.order k l).Perm l) {r r' : Run R} (h : Neat H.prover r.state.passive)
    (hf : r.state.final = none) {b stop : Bool} (e : r.next H b = some (r', stop)) : Takes H.prover b r r' stop := by
  unfold Run.next at e
  simp only [Option.bind_eq_bind, Option.bind_eq_some_iff, Option.pure_def, Prod.exists] at e
  obtain ⟨st, stop', e1, e⟩ := e
  unfold State.next at e1
  unfold State.takes at e
  simp only [hf, Option.isSome_none, Bool.false_eq_true, if_false] at e1 e
  simp only [Option.bind_eq_bind, Option.bind_eq_some_iff, Option.pure_def] at e1
  obtain ⟨x, ex, e1⟩ := e1
  rw [ex] at e
  cases x with
  | some xy =>
    obtain ⟨x, y⟩ := xy
    simp only [Option.some.injEq, Prod.mk.injEq] at e1 e
    obtain ⟨rfl, rfl⟩ := e1
    obtain ⟨rfl, rfl⟩ := e
    exact .clash ex rfl
  | none =>
    simp only [Option.bind_eq_some_iff, Prod.exists] at e1
    obtain ⟨x, p, e2, e1⟩ := e1
    rw [e2] at e
    obtain ⟨hp, ha, hn, hs⟩ := neat_pop h e2
    cases x with
    | none =>
      simp only [Option.some.injEq, Prod.mk.injEq, Option.bind_some] at e1 e
      obtain ⟨rfl, rfl⟩ := e1
      obtain ⟨rfl, rfl⟩ := e
      exact .none ex rfl rfl rfl hp (hn rfl).1 (hn rfl).2
    | some s =>
      obtain ⟨id, sc, hw, hsh⟩ := hs s rfl
      simp only [Option.bind_some, Option.some.injEq, Prod.mk.injEq] at e
      obtain ⟨rfl, rfl⟩ := e
      simp only at e1
      split at e1
      · rename_i hi
        simp only [Option.some.injEq, Prod.mk.injEq] at e1
        obtain ⟨rfl, rfl⟩ := e1
        exact .some hw hsh hp ha rfl (fun _ => ⟨rfl, rfl, rfl⟩) (fun h => by rw [hi] at h; cases h) rfl
      · rename_i hi
        obtain ⟨k1, k2, k3, k4⟩ := activate_only ho (st := { r.state with passive := p }) hp e1
        exact .some hw hsh k2 (fun hb => k3.trans (ha hb)) rfl (fun h => absurd h hi) (fun _ => k1) k4

theorem searches_neat (ho : ∀ k l, (P.order k l).Perm l) {st : State R} {ins : List (Step (Info R))}
    (h : Searches P st ins) : Neat P st.passive := by
  induction h with
  | new => exact ⟨Passive.agrees_new, Passive.scored_new⟩
  | add steps _ e ih => exact (neat_push ih e).1
  | @next st st' _ b stop _ e ih =>
    cases hf : st.final with
    | some f =>
      unfold State.next at e
      simp only [hf, Option.isSome_some, if_true] at e
      cases e; exact ih
    | none =>
      have key : ∃ c, Run.next ⟨P, none, fun _ => (0, [])⟩ ⟨st, 0⟩ b = some (⟨st', c⟩, stop) := by
        unfold Run.next
        simp only [e, Option.bind_eq_bind, Option.bind_some, Option.pure_def]
        split
        · exact ⟨_, rfl⟩
        · exact ⟨_, rfl⟩
      obtain ⟨c, e'⟩ := key
      have := run_next (H := ⟨P, none, fun _ => (0, [])⟩) (r := ⟨st, 0⟩) (r' := ⟨st', c⟩) ho ih hf e'
      cases this with
      | clash _ h => cases h; exact ih
      | none _ _ _ _ h => exact h
      | some _ _ h => exact h

theorem run_searches {r r' : Run R} {ins : List (Step (Info R))} (h : Searches H.prover r.state ins) {b stop : Bool}
    (e : r.next H b = some (r', stop)) : Searches H.prover r'.state ins := by
  unfold Run.next at e
  simp only [Option.bind_eq_bind, Option.bind_eq_some_iff, Option.pure_def, Prod.exists] at e
  obtain ⟨st, stop', e1, e⟩ := e
  split at e <;> cases e <;> exact .next _ _ h e1

/-! ### The frontier -/

theorem can_pop (h : Neat P p) : p.canPopForVerification = true ↔
    p.allShallow = true ∧ ∃ id s sc, p.Waits id s sc ∧ sc.shallow = true := by
  unfold Passive.PassiveSet.canPopForVerification
  rw [Bool.and_eq_true]
  refine and_congr_right fun _ => ?_
  rcases Passive.popShallow_spec h.1 with ⟨e, hn⟩ | ⟨e, hw, hs, h1, _⟩
  · have : p.nextShallow = none := by
      cases hx : p.nextShallow with
      | none => rfl
      | some x =>
        exfalso
        unfold Passive.PassiveSet.popShallow at e
        rw [hx] at e
        obtain ⟨sc, id⟩ := x
        simp only [Bind.bind, Except.bind] at e
        split at e <;> cases e
    rw [this]
    constructor
    · intro h; cases h
    · rintro ⟨id, s, sc, hw, hs⟩; rw [hn id s sc hw] at hs; cases hs
  · constructor
    · intro _; exact ⟨_, _, _, hw, hs⟩
    · intro _
      cases hx : p.nextShallow with
      | some x => rfl
      | none =>
        exfalso
        unfold Passive.PassiveSet.popShallow at h1
        rw [hx] at h1; cases h1

/-- What the test for the frontier does in a search that has not ended. -/
inductive Stands (H : Hunt R) (b : Bool) (st st' : State R) : Option Outcome → Prop
  | goes : (b = true → st.passive.canPopForVerification = true) → st' = st → Stands H b st st' none
  | clash {x y : Step (Info R)} {o : Outcome} : noPanic st.passive.getContradiction = some (some (x, y)) →
      H.verdict st.active (.passive x y) = some o → st' = { st with final := some (.passive x y) } →
      Stands H b st st' (some o)
  | ends : b = true → st.passive.canPopForVerification = false → noPanic st.passive.getContradiction = some none →
      st' = st → Stands H b st st' (some .shallowExhausted)

theorem frontier_stands {st st' : State R} (hf : st.final = none) {b : Bool} {o : Option Outcome}
    (e : H.frontier st b = some (st', o)) : Stands H b st st' o := by
  unfold Hunt.frontier at e
  split at e
  · rename_i hc
    cases e
    refine .goes (fun hb => ?_) rfl
    rw [hb] at hc
    simpa using hc
  · rename_i hc
    simp only [Bool.or_eq_true, Bool.not_eq_true', not_or, Bool.not_eq_false, Bool.not_eq_true] at hc
    simp only [Option.bind_eq_bind, Option.bind_eq_some_iff, Option.pure_def] at e
    obtain ⟨x, ex, e⟩ := e
    cases x with
    | none => cases e; exact .ends hc.1 hc.2 ex rfl
    | some xy =>
      obtain ⟨x, y⟩ := xy
      simp only [hf, Option.bind_eq_some_iff] at e
      obtain ⟨o', e1, e⟩ := e
      cases e
      exact .clash ex e1 rfl

theorem stands_searches {st st' : State R} {ins : List (Step (Info R))} (h : Searches H.prover st ins)
    (hf : st.final = none) {b : Bool} {o : Option Outcome} (e : Stands H b st st' o) : Searches H.prover st' ins := by
  cases e with
  | goes _ e => rw [e]; exact h
  | ends _ _ _ e => rw [e]; exact h
  | clash e1 _ e =>
    refine .next b true h ?_
    unfold State.next
    simp only [hf, Option.isSome_none, Bool.false_eq_true, if_false, e1, Option.bind_eq_bind, Option.bind_some, Option.pure_def, e]

end Active
end Acorn
