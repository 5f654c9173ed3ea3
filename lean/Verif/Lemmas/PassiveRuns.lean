/-
The operations of the passive set.
-/
import Verif.Lemmas.PassiveInv
namespace Acorn
namespace Passive
open Fingerprint Spec

variable {R : Type} {S : Setup R} {p p' : PassiveSet R}

/-- The flags that only popping changes. -/
def SameFlags (p p' : PassiveSet R) : Prop := p'.allShallow = p.allShallow ∧ p'.popCount = p.popCount

theorem waits_lt {id : Nat} {s : Step R} {sc : Score} (h : p.Waits id s sc) : id < p.clauses.length :=
  (List.getElem?_eq_some_iff.1 h).1

theorem steps_get {id : Nat} {s : Step R} : p.steps[id]? = some (some s) ↔ ∃ sc, p.Waits id s sc := by
  simp only [PassiveSet.steps, List.getElem?_map, Option.map_eq_some_iff, PassiveSet.Waits]
  constructor
  · rintro ⟨o, h1, ⟨s', sc⟩, rfl, rfl⟩
    exact ⟨sc, h1⟩
  · rintro ⟨sc, h⟩
    exact ⟨_, h, (s, sc), rfl, rfl⟩

/-! ### Scoring again -/

theorem rescoreOne_spec (h : Agrees S p) (id : Nat) : Agrees S (p.rescoreOne S id) ∧
    (p.rescoreOne S id).steps = p.steps ∧ (p.rescoreOne S id).goal = p.goal ∧ SameFlags p (p.rescoreOne S id) ∧
    ∀ j s sc, (p.rescoreOne S id).Waits j s sc → (j = id → sc = S.score p.goal s) ∧ (j ≠ id → p.Waits j s sc) := by
  unfold PassiveSet.rescoreOne
  split
  · rename_i s old hw
    have hw : p.Waits id s old := hw
    have hws : ∀ j t st, (p.clauses.set id (some (s, S.score p.goal s)))[j]? = some (some (t, st)) →
        (j = id → t = s ∧ st = S.score p.goal s) ∧ (j ≠ id → p.Waits j t st) := by
      intro j t st hj
      by_cases hi : id = j
      · subst hi
        rw [getElem?_set_same hw] at hj
        cases hj
        exact ⟨fun _ => ⟨rfl, rfl⟩, fun h => absurd rfl h⟩
      · rw [getElem?_set_other hi] at hj
        exact ⟨fun h => absurd h.symm hi, fun _ => hj⟩
    refine ⟨?_, ?_, rfl, ⟨rfl, rfl⟩, ?_⟩
    · refine h.shrink (by simp) (fun j t st ht => ?_) rfl rfl rfl (h.queue.rescore entryOrder hw) ?_ (by simp)
      · by_cases hi : j = id
        · obtain ⟨rfl, _⟩ := (hws j t st ht).1 hi
          exact ⟨old, hi ▸ hw⟩
        · exact ⟨st, (hws j t st ht).2 hi⟩
      · intro q hq
        simp only [Option.map_eq_some_iff] at hq
        obtain ⟨q0, h0, rfl⟩ := hq
        exact (h.df q0 h0).rescore dfOrder hw
    · apply List.ext_getElem?
      intro j
      simp only [PassiveSet.steps, List.getElem?_map]
      by_cases hi : id = j
      · subst hi
        rw [getElem?_set_same hw]
        simp only [PassiveSet.Waits] at hw
        rw [hw]; rfl
      · rw [getElem?_set_other hi]
    · intro j t st ht
      obtain ⟨h1, h2⟩ := hws j t st ht
      refine ⟨fun hi => ?_, h2⟩
      obtain ⟨rfl, rfl⟩ := h1 hi
      rfl
  · rename_i hn
    refine ⟨h, rfl, rfl, ⟨rfl, rfl⟩, fun j s sc hw => ⟨fun hj => ?_, fun _ => hw⟩⟩
    subst hj
    exact absurd hw (hn s sc)

theorem rescore_fold (ids : List Nat) : ∀ (p : PassiveSet R), Agrees S p →
    let p' := ids.foldl (PassiveSet.rescoreOne S) p
    Agrees S p' ∧ p'.steps = p.steps ∧ p'.goal = p.goal ∧ SameFlags p p' ∧
      ∀ j s sc, p'.Waits j s sc → (j ∈ ids → sc = S.score p.goal s) ∧ (j ∉ ids → p.Waits j s sc) := by
  induction ids with
  | nil => intro p h; exact ⟨h, rfl, rfl, ⟨rfl, rfl⟩, fun j s sc hw => ⟨(fun h => by cases h), fun _ => hw⟩⟩
  | cons a ids ih =>
    intro p h
    obtain ⟨h1, h2, h3, h4, h5⟩ := rescoreOne_spec h a
    obtain ⟨k1, k2, k3, k4, k5⟩ := ih _ h1
    refine ⟨k1, k2.trans h2, k3.trans h3, ⟨k4.1.trans h4.1, k4.2.trans h4.2⟩, fun j s sc hw => ?_⟩
    obtain ⟨w1, w2⟩ := k5 j s sc hw
    rw [h3] at w1
    by_cases hj : j ∈ ids
    · exact ⟨fun _ => w1 hj, fun hn => absurd (List.mem_cons_of_mem _ hj) hn⟩
    · obtain ⟨w3, w4⟩ := h5 j s sc (w2 hj)
      exact ⟨fun hm => w3 ((List.mem_cons.1 hm).resolve_right hj), fun hn => w4 fun h => hn (h ▸ List.mem_cons_self ..)⟩

theorem rescoreAll_spec (h : Agrees S p) : Agrees S (p.rescoreAll S) ∧ (p.rescoreAll S).steps = p.steps ∧
    (p.rescoreAll S).goal = p.goal ∧ SameFlags p (p.rescoreAll S) ∧
    ∀ j s sc, (p.rescoreAll S).Waits j s sc → sc = S.score p.goal s := by
  obtain ⟨h1, h2, h3, h4, h5⟩ := rescore_fold (S := S) (List.range p.clauses.length) p h
  refine ⟨h1, h2, h3, h4, fun j s sc hw => (h5 j s sc hw).1 ?_⟩
  have e : (p.rescoreAll S).clauses.length = p.clauses.length := by
    have := congrArg List.length h2
    simpa [PassiveSet.steps, PassiveSet.rescoreAll] using this
  have := waits_lt hw
  rw [List.mem_range]
  have hh : j < (p.rescoreAll S).clauses.length := this
  omega

theorem Scored.pushOne (h : Scored S p) {s : Step R} (e : p'.clauses = p.clauses ++ [some (s, S.score p.goal s)])
    (eg : p'.goal = p.goal) : Scored S p' := by
  intro id t st ht
  simp only [PassiveSet.Waits, e] at ht
  rw [eg]
  rcases waits_push.1 ht with ht | ⟨_, rfl, rfl⟩
  · exact h _ _ _ ht
  · exact ⟨p.goal, List.prefix_refl _, rfl, fun _ h => h⟩

theorem pushAll_spec : ∀ (ss : List (Step R)) (p : PassiveSet R), Agrees S p → Scored S p →
    p.pushAll S ss = .error .term ∨ ∃ p', p.pushAll S ss = .ok p' ∧ Agrees S p' ∧ Scored S p' ∧
      p'.clauses = p.clauses ++ ss.map (fun s => some (s, S.score p.goal s)) ∧ p'.goal = p.goal ∧ SameFlags p p' := by
  intro ss
  induction ss with
  | nil => intro p h hs; exact .inr ⟨p, rfl, h, hs, by simp, rfl, rfl, rfl⟩
  | cons s ss ih =>
    intro p h hs
    simp only [PassiveSet.pushAll]
    rcases pushOne_spec h s (S.score p.goal s) with e | ⟨p1, e, h1, ec, eg, ea, en⟩
    · rw [e]; exact .inl rfl
    · rw [e]
      simp only [bind, Except.bind]
      rcases ih p1 h1 (hs.pushOne ec eg) with e | ⟨p2, e, h2, h3, ec2, eg2, ef⟩
      · exact .inl e
      · refine .inr ⟨p2, e, h2, h3, ?_, eg2.trans eg, ef.1.trans ea, ef.2.trans en⟩
        rw [ec2, ec, eg]; simp

/-- What pushing does. -/
theorem push_spec (h : Agrees S p) (hs : Scored S p) (ss : List (Step R)) :
    p.push S ss = .error .term ∨ ∃ p', p.push S ss = .ok p' ∧ Agrees S p' ∧ Scored S p' ∧
      p'.steps = p.steps ++ ss.map some ∧ p'.goal = p.goal ++ ss.filter (·.negatedGoal) ∧ SameFlags p p' := by
  unfold PassiveSet.push
  extract_lets found p1 p2
  have h1 : Agrees S p1 := h.goal _
  have h2 : Agrees S p2 ∧ Scored S p2 ∧ p2.steps = p.steps ∧ p2.goal = p1.goal ∧ SameFlags p p2 := by
    simp only [p2]
    split
    · obtain ⟨k1, k2, k3, k4, k5⟩ := rescoreAll_spec h1
      refine ⟨k1, fun id s sc hw => ?_, k2, k3, k4⟩
      rw [k3]
      exact ⟨p1.goal, List.prefix_refl _, k5 id s sc hw, fun _ h => h⟩
    · rename_i hc
      refine ⟨h1, fun id s sc hw => ?_, rfl, rfl, rfl, rfl⟩
      obtain ⟨g, w1, w2, w3⟩ := hs id s sc hw
      refine ⟨g, w1.trans (List.prefix_append _ _), w2, fun hu hg => ?_⟩
      by_cases hp : p.goal = []
      · have : found = [] := by
          cases hf : found with
          | nil => rfl
          | cons a l => simp [hf, hp, hu] at hc
        simp [p1, hp, this] at hg
      · exact w3 hu hp
  obtain ⟨k1, k2, k3, k4, k5⟩ := h2
  rcases pushAll_spec ss p2 k1 k2 with e | ⟨p', e, a1, a2, a3, a4, a5⟩
  · exact .inl e
  · refine .inr ⟨p', e, a1, a2, ?_, a4.trans k4, a5.1.trans k5.1, a5.2.trans k5.2⟩
    rw [PassiveSet.steps, a3, List.map_append, ← PassiveSet.steps, k3]
    simp

/-! ### Popping -/

theorem take_forget {id : Nat} {s : Step R} {sc : Score} (hw : p.Waits id s sc) (q : List (Score × Nat))
    (d : Option (List (Bool × Nat × Nat))) (b : Bool) :
    ({ p with queue := q, dfQueue := d, allShallow := b } : PassiveSet R).take id =
      .ok (⟨id, s, sc⟩, { p with queue := q, dfQueue := d, allShallow := b, clauses := p.clauses.set id none }) := by
  simp only [PassiveSet.Waits] at hw
  simp only [PassiveSet.take, hw]

theorem popBest_spec (h : Agrees S p) :
    (p.popBest = .ok (none, p) ∧ ∀ id s sc, ¬ p.Waits id s sc) ∨
    ∃ e : Entry R, p.Waits e.id e.step e.score ∧
      p.popBest = .ok (some (e, e.score.shallow),
        { p.forget e.id e.score with allShallow := p.allShallow && e.score.shallow }) ∧
      ∀ id s sc, p.Waits id s sc → entryLt (e.score, e.id) (sc, id) = false := by
  unfold PassiveSet.popBest
  split
  · rename_i hn
    refine .inl ⟨rfl, fun id s sc hw => ?_⟩
    have := (h.queue.mem (sc, id)).2 ⟨id, s, sc, hw, rfl⟩
    rw [setLast_none hn] at this
    cases this
  · rename_i sc id hl
    right
    obtain ⟨id', s, sc', hw, ek⟩ := (h.queue.mem _).1 (setLast_mem hl)
    simp only [Prod.mk.injEq] at ek
    obtain ⟨rfl, rfl⟩ := ek
    have hw : p.Waits id s sc := hw
    refine ⟨⟨id, s, sc⟩, hw, ?_, fun j t st ht => ?_⟩
    · rw [take_forget hw]; rfl
    · exact setLast_max entryLt_irrefl entryLt_trans hl _ ((h.queue.mem (st, j)).2 ⟨j, t, st, ht, rfl⟩)

theorem popDf_spec (h : Agrees S p) :
    (p.popDf = .ok (none, p) ∧ (p.dfQueue ≠ none → ∀ id s sc, ¬ p.Waits id s sc)) ∨
    ∃ e : Entry R, p.Waits e.id e.step e.score ∧
      p.popDf = .ok (some (e, e.score.shallow),
        { p.forget e.id e.score with allShallow := p.allShallow && e.score.shallow }) ∧
      ∀ id s sc, p.Waits id s sc → dfLt (dfKey e.score e.id) (dfKey sc id) = false := by
  unfold PassiveSet.popDf
  split
  · rename_i hn
    exact .inl ⟨rfl, fun h => absurd hn h⟩
  · rename_i q hq
    have hk := h.df q hq
    split
    · rename_i hn
      refine .inl ⟨rfl, fun _ id s sc hw => ?_⟩
      have := (hk.mem (dfKey sc id)).2 ⟨id, s, sc, hw, rfl⟩
      rw [setLast_none hn] at this
      cases this
    · rename_i key hl
      right
      obtain ⟨id, s, sc, hw, rfl⟩ := (hk.mem _).1 (setLast_mem hl)
      have hw : p.Waits id s sc := hw
      refine ⟨⟨id, s, sc⟩, hw, ?_, fun j t st ht => ?_⟩
      · have hw' := hw
        simp only [PassiveSet.Waits] at hw'
        simp only [dfKey, hw']
        simp only [bind, Except.bind, pure, Except.pure, PassiveSet.take, hw', PassiveSet.forget, hq, Option.map_some, dfKey]
      · exact setLast_max dfLt_irrefl dfLt_trans hl _ ((hk.mem (dfKey st j)).2 ⟨j, t, st, ht, rfl⟩)

theorem pop_spec (h : Agrees S p) :
    (p.pop S = .ok (none, { p with popCount := p.popCount + 1 }) ∧ ∀ id s sc, ¬ p.Waits id s sc) ∨
    ∃ e : Entry R, p.Waits e.id e.step e.score ∧
      p.pop S = .ok (some (e, e.score.shallow),
        { p.forget e.id e.score with allShallow := p.allShallow && e.score.shallow, popCount := p.popCount + 1 }) ∧
      ((¬ DepthFirst S p ∧ ∀ id s sc, p.Waits id s sc → entryLt (e.score, e.id) (sc, id) = false) ∨
       (DepthFirst S p ∧ ∀ id s sc, p.Waits id s sc → dfLt (dfKey e.score e.id) (dfKey sc id) = false)) := by
  have h' : Agrees S { p with popCount := p.popCount + 1 } := h.other p.allShallow (p.popCount + 1)
  have best := popBest_spec h'
  have base : ¬ DepthFirst S p → ({ p with popCount := p.popCount + 1 } : PassiveSet R).popBest = p.pop S →
      (p.pop S = .ok (none, { p with popCount := p.popCount + 1 }) ∧ ∀ id s sc, ¬ p.Waits id s sc) ∨
      ∃ e : Entry R, p.Waits e.id e.step e.score ∧
        p.pop S = .ok (some (e, e.score.shallow),
          { p.forget e.id e.score with allShallow := p.allShallow && e.score.shallow, popCount := p.popCount + 1 }) ∧
        ((¬ DepthFirst S p ∧ ∀ id s sc, p.Waits id s sc → entryLt (e.score, e.id) (sc, id) = false) ∨
         (DepthFirst S p ∧ ∀ id s sc, p.Waits id s sc → dfLt (dfKey e.score e.id) (dfKey sc id) = false)) := by
    intro hd e
    rw [← e]
    rcases best with ⟨b1, b2⟩ | ⟨x, b1, b2, b3⟩
    · exact .inl ⟨b1, b2⟩
    · exact .inr ⟨x, b1, b2, .inl ⟨hd, b3⟩⟩
  cases hp : S.period with
  | none =>
    exact base (by rintro ⟨n, hn, _⟩; rw [hp] at hn; cases hn) (by simp only [PassiveSet.pop, hp])
  | some n =>
    by_cases hm : (p.popCount + 1) % n = 0
    · have hd : DepthFirst S p := ⟨n, hp, hm⟩
      rcases popDf_spec h' with ⟨b1, b2⟩ | ⟨x, b1, b2, b3⟩
      · have hdf : p.dfQueue ≠ none := by
          have := h.period
          rw [hp] at this
          intro hn; rw [hn] at this; cases this
        have hnone := b2 hdf
        rcases best with ⟨c1, c2⟩ | ⟨x, c1, _⟩
        · refine .inl ⟨?_, c2⟩
          simp only [PassiveSet.pop, hp, hm, b1, beq_self_eq_true, if_true, bind, Except.bind]
          exact c1
        · exact absurd c1 (hnone _ _ _)
      · refine .inr ⟨x, b1, ?_, .inr ⟨hd, b3⟩⟩
        simp only [PassiveSet.pop, hp, hm, b2, beq_self_eq_true, if_true, bind, Except.bind]
        rfl
    · have hm' : ((p.popCount + 1) % n == 0) = false := by simpa using hm
      exact base (by rintro ⟨n', hn, h0⟩; rw [hp] at hn; cases hn; exact hm h0)
        (by simp only [PassiveSet.pop, hp, hm']; rfl)

theorem popShallow_spec (h : Agrees S p) :
    (p.popShallow = .ok (none, p) ∧ ∀ id s sc, p.Waits id s sc → sc.shallow = false) ∨
    ∃ e : Entry R, p.Waits e.id e.step e.score ∧ e.score.shallow = true ∧
      p.popShallow = .ok (some e, p.forget e.id e.score) ∧
      ∀ id s sc, p.Waits id s sc → sc.shallow = true → entryLt (e.score, e.id) (sc, id) = false := by
  unfold PassiveSet.popShallow PassiveSet.nextShallow
  split
  · rename_i hn
    refine .inl ⟨rfl, fun id s sc hw => ?_⟩
    have hm := (h.queue.mem (sc, id)).2 ⟨id, s, sc, hw, rfl⟩
    cases hs : sc.shallow with
    | false => rfl
    | true =>
      have : (sc, id) ∈ p.queue.filter (·.1.shallow) := List.mem_filter.2 ⟨hm, hs⟩
      rw [setLast_none hn] at this
      cases this
  · rename_i sc id hl
    right
    obtain ⟨hm, hs⟩ := List.mem_filter.1 (setLast_mem hl)
    obtain ⟨id', s, sc', hw, ek⟩ := (h.queue.mem _).1 hm
    simp only [Prod.mk.injEq] at ek
    obtain ⟨rfl, rfl⟩ := ek
    have hw : p.Waits id s sc := hw
    refine ⟨⟨id, s, sc⟩, hw, hs, ?_, fun j t st ht hj => ?_⟩
    · have := take_forget hw (setRemove entryLt p.queue (sc, id)) (p.dfQueue.map fun q => setRemove dfLt q (dfKey sc id)) p.allShallow
      rw [this]; rfl
    · exact setLast_max entryLt_irrefl entryLt_trans hl _
        (List.mem_filter.2 ⟨(h.queue.mem (st, j)).2 ⟨j, t, st, ht, rfl⟩, hj⟩)

end Passive
end Acorn
