/-
The search for a proof.
-/
import Verif.Lemmas.ActiveSteps
import Verif.Lemmas.PassiveSound
namespace Acorn
namespace Active
open Spec Term
open Passive (Step)

universe u

variable {R : Type} {P : Prover R} {M : Interp.{u}}

theorem noPanic_some {α : Type} {x : Except Passive.Panic α} {a : α} (e : noPanic x = some a) : x = .ok a := by
  cases x <;> simp [noPanic] at e
  rw [e]

/-- What holds of a passive set if all inputs are true. -/
structure GoodPassive (P : Prover R) (M : Interp.{u}) (p : Passive.PassiveSet (Info R)) : Prop where
  agrees : Passive.Agrees P.setup p
  scored : Passive.Scored P.setup p
  plain : p.AllPlain P.env.K
  true : p.AllTrue M

theorem goodPassive_op (hE : SoundEnv P.env M) {p p' : Passive.PassiveSet (Info R)} (hp : GoodPassive P M p)
    {o : Passive.Op (Info R)} (ho : o.Ok) (hop : ∀ c, o.Uses c → PlainClause P.env.K c ∧ ClauseTrue M c)
    {x : Option (Passive.Entry (Info R))} (e : p.op P.setup o = .ok (p', x)) :
    GoodPassive P M p' ∧ ∀ y, x = some y → PlainClause P.env.K y.step.clause ∧ ClauseTrue M y.step.clause := by
  obtain ⟨h1, h2, h3⟩ := Passive.op_sound (S := P.setup) hE.lawful hE.inhabited hp.agrees hp.scored hp.plain hp.true
    ho hop e
  rcases Passive.op_spec hp.agrees hp.scored ho with e' | ⟨q, z, e', ha, hs, _⟩
  · rw [e] at e'; cases e'
  · rw [e] at e'; cases e'
    exact ⟨⟨ha, hs, h1, h2⟩, h3⟩

theorem push_good (hE : SoundEnv P.env M) {p p' : Passive.PassiveSet (Info R)} (hp : GoodPassive P M p)
    {ss : List (Step (Info R))} (hs : ∀ s ∈ ss, TrueUpTo P.env.K M 2 s) (e : noPanic (p.push P.setup ss) = some p') :
    GoodPassive P M p' := by
  have e := noPanic_some e
  refine (goodPassive_op hE hp (o := .push ss) trivial ?_ (x := none) ?_).1
  · rintro c ⟨s, h, rfl⟩
    exact ⟨(hs s h).plain, (hs s h).holds (level_le_two _)⟩
  · simp [Passive.PassiveSet.op, e, Bind.bind, Except.bind, pure, Except.pure]

theorem pop_good (hE : SoundEnv P.env M) {st : State R} (hp : GoodPassive P M st.passive) {b : Bool}
    {x : Option (Step (Info R))} {p' : Passive.PassiveSet (Info R)} (e : st.pop P b = some (x, p')) :
    GoodPassive P M p' ∧ ∀ y, x = some y → TrueUpTo P.env.K M 2 y := by
  unfold State.pop at e
  split at e
  · simp only [Option.map_eq_some_iff, Prod.mk.injEq] at e
    obtain ⟨⟨z, q⟩, e, rfl, rfl⟩ := e
    have e := noPanic_some e
    obtain ⟨h1, h2⟩ := goodPassive_op hE hp (o := .popShallow) (p' := q) (x := z) trivial (fun c h => h.elim)
      (by simp [Passive.PassiveSet.op, e, Bind.bind, Except.bind, pure, Except.pure])
    refine ⟨h1, fun y hy => ?_⟩
    cases z with
    | none => cases hy
    | some w => cases hy; exact ⟨(h2 w rfl).1, fun _ => (h2 w rfl).2⟩
  · simp only [Option.map_eq_some_iff, Prod.mk.injEq] at e
    obtain ⟨⟨z, q⟩, e, rfl, rfl⟩ := e
    have e := noPanic_some e
    obtain ⟨h1, h2⟩ := goodPassive_op hE hp (o := .pop) (p' := q) (x := z.map Prod.fst) trivial (fun c h => h.elim)
      (by simp [Passive.PassiveSet.op, e, Bind.bind, Except.bind, pure, Except.pure])
    refine ⟨h1, fun y hy => ?_⟩
    cases z with
    | none => cases hy
    | some w => cases hy; exact ⟨(h2 w.1 rfl).1, fun _ => (h2 w.1 rfl).2⟩

theorem simplifyPassive_good (hE : SoundEnv P.env M) (ho : ∀ k l, (P.order k l).Perm l) {st : State R}
    (hp : GoodPassive P M st.passive) {s : Step (Info R)} (hs : TrueUpTo P.env.K M 2 s)
    {p' : Passive.PassiveSet (Info R)} (e : simplifyPassive P st s = some p') : GoodPassive P M p' := by
  unfold simplifyPassive at e
  split at e
  · rename_i hl
    have e := noPanic_some e
    refine (goodPassive_op hE hp (o := .simplify (P.order st.active.steps.length) s) ⟨hl, ho _⟩ ?_ (x := none) ?_).1
    · rintro c rfl
      exact ⟨hs.plain, hs.holds (level_le_two _)⟩
    · simp [Passive.PassiveSet.op, e, Bind.bind, Except.bind, pure, Except.pure]
  · cases e; exact hp

theorem getContradiction_mixed (hE : SoundEnv P.env M) {p : Passive.PassiveSet (Info R)} (hp : GoodPassive P M p)
    {a b : Step (Info R)} (e : p.getContradiction = .ok (some (a, b))) : a.clause.ctx ≠ b.clause.ctx := by
  intro hc
  unfold Passive.PassiveSet.getContradiction at e
  split at e
  · cases e
  · rename_i i j hij
    split at e
    · rename_i x y hx hy
      cases e
      obtain ⟨l, h1, h2, _⟩ := (hp.agrees.clash i j hij).2.2 _ _ _ _ hx hy
      have ha : p.Has x.1.clause := ⟨i, x.1, x.2, hx, rfl⟩
      have hb : p.Has y.1.clause := ⟨j, y.1, y.2, hy, rfl⟩
      obtain ⟨ρ, hρ⟩ := exists_models hE.inhabited (hp.plain _ ha).vars fun _ => M.sym .type0
      obtain ⟨u, hu, t1⟩ := hp.true _ ha ρ hρ fun _ => M.sym .type0
      obtain ⟨v, hv, t2⟩ := hp.true _ hb ρ (hc ▸ hρ) fun _ => M.sym .type0
      rw [h1, List.mem_singleton] at hu
      rw [h2, List.mem_singleton] at hv
      subst hu hv
      simp only [LitHolds] at t1 t2
      cases hq : u.positive <;> simp_all
    · cases e
    · cases e

theorem not_impossible (hE : SoundEnv P.env M) {s : Step (Info R)} (hs : TrueUpTo P.env.K M 2 s) :
    s.clause.isImpossible = false := by
  cases h : s.clause.isImpossible with
  | false => rfl
  | true =>
    exfalso
    obtain ⟨ρ, hρ⟩ := exists_models hE.inhabited hs.plain.vars fun _ => M.sym .type0
    obtain ⟨l, hl, _⟩ := hs.holds (level_le_two _) ρ hρ fun _ => M.sym .type0
    simp only [Clause.isImpossible, List.isEmpty_iff] at h
    rw [h] at hl; cases hl

theorem sift_sound (hE : SoundEnv P.env M) {a : ActiveSet R} (hg : Good P.env M 2 a.steps a) :
    ∀ (ss : List (Step (Info R))), (∀ s ∈ ss, TrueUpTo P.env.K M 2 s) → ∀ r, sift P.env a ss = some r →
      ∃ ns, r = .inr ns ∧ ∀ s ∈ ns, TrueUpTo P.env.K M 2 s
  | [], _, r, e => by cases e; exact ⟨[], rfl, by simp⟩
  | s :: ss, hs, r, e => by
    have h1 := hs s (by simp)
    have h2 : ∀ x ∈ ss, TrueUpTo P.env.K M 2 x := fun x hx => hs x (by simp [hx])
    unfold sift at e
    rw [not_impossible hE h1] at e
    simp only [Bool.false_eq_true, if_false] at e
    split at e
    · exact sift_sound hE hg ss h2 r e
    · simp only [Option.bind_eq_bind, Option.bind_eq_some_iff, Option.pure_def] at e
      obtain ⟨x, e1, e⟩ := e
      cases x with
      | none => exact sift_sound hE hg ss h2 r e
      | some t =>
        have ht := simplify_sound hE.lawful hE.inhabited hg h1 e1
        simp only [not_impossible hE ht, Bool.false_eq_true, if_false, Option.bind_eq_some_iff] at e
        obtain ⟨y, e2, e⟩ := e
        obtain ⟨ns, rfl, hns⟩ := sift_sound hE hg ss h2 y e2
        cases e
        refine ⟨t :: ns, rfl, fun z hz => ?_⟩
        rcases List.mem_cons.1 hz with rfl | hz
        · exact ht
        · exact hns z hz

/-- What holds of a state if all inputs are true. -/
structure GoodState (P : Prover R) (M : Interp.{u}) (st : State R) : Prop where
  active : Good P.env M 2 st.active.steps st.active
  passive : GoodPassive P M st.passive
  final : ∀ f, st.final = some f → MixedEnd f

theorem conclude_good (hE : SoundEnv P.env M) {st st' : State R} (h : GoodState P M st) {b : Bool}
    (e : conclude P st = some (st', b)) : GoodState P M st' ∧ st'.active = st.active := by
  unfold conclude at e
  simp only [Option.bind_eq_bind, Option.bind_eq_some_iff, Option.pure_def] at e
  obtain ⟨x, e1, e⟩ := e
  cases x with
  | some xy =>
    cases e
    refine ⟨⟨h.active, h.passive, fun f hf => ?_⟩, rfl⟩
    cases hf
    exact ⟨_, _, rfl, getContradiction_mixed hE h.passive (noPanic_some e1)⟩
  | none =>
    obtain ⟨T, hT⟩ := h.active.graph (Nat.le_refl _) (fun _ => M.sym .type0) (fun _ => M.sym .type0)
    have hc : st.active.graph.contra = false := hT.contra
    simp only [hc, Bool.false_and, Bool.false_eq_true, if_false] at e
    cases e
    exact ⟨h, rfl⟩

theorem activate_good (hE : SoundEnv P.env M) (ho : ∀ k l, (P.order k l).Perm l) {st st' : State R}
    (h : GoodState P M st) {s : Step (Info R)} (hs : TrueUpTo P.env.K M 2 s) {b : Bool}
    (e : State.activate P st s = some (st', b)) :
    st'.active.steps = st.active.steps ++ [s] ∧ (Sharp P.env.K s.clause → GoodState P M st') := by
  unfold State.activate at e
  simp only [Option.bind_eq_bind, Option.bind_eq_some_iff, Option.pure_def, Prod.exists] at e
  obtain ⟨p, e1, new, act, e2, r, e3, e⟩ := e
  have hp := simplifyPassive_good hE ho h.passive hs e1
  have hst := activate_steps e2
  cases r with
  | inl f =>
    cases e
    refine ⟨hst, fun hsh => ?_⟩
    obtain ⟨h1, h2, _⟩ := activate_sound hE (M.sym .type0) h.active hs hsh e2
    obtain ⟨ns, h3, _⟩ := sift_sound hE h2 new h1 _ e3
    cases h3
  | inr ns =>
    simp only [Option.bind_eq_some_iff] at e
    obtain ⟨q, e4, e⟩ := e
    have hact : st'.active = act := by
      unfold conclude at e
      simp only [Option.bind_eq_bind, Option.bind_eq_some_iff, Option.pure_def] at e
      obtain ⟨x, -, e⟩ := e
      cases x with
      | some xy => cases e; rfl
      | none =>
        simp only at e
        split at e <;> cases e <;> rfl
    refine ⟨by rw [hact, hst], fun hsh => ?_⟩
    obtain ⟨h1, h2, _⟩ := activate_sound hE (M.sym .type0) h.active hs hsh e2
    obtain ⟨ns', h3, h4⟩ := sift_sound hE h2 new h1 _ e3
    cases h3
    exact (conclude_good hE (st := ⟨q, act, none⟩) ⟨h2, push_good hE hp h4 e4, fun f hf => by cases hf⟩ e).1

theorem next_good (hE : SoundEnv P.env M) (ho : ∀ k l, (P.order k l).Perm l) {st st' : State R}
    (h : GoodState P M st) {b c : Bool} (e : st.next P b = some (st', c))
    (hsh : ∀ s ∈ st'.active.steps, Sharp P.env.K s.clause) : GoodState P M st' := by
  unfold State.next at e
  split at e
  · cases e; exact h
  · simp only [Option.bind_eq_bind, Option.bind_eq_some_iff, Option.pure_def] at e
    obtain ⟨x, e1, e⟩ := e
    cases x with
    | some xy =>
      cases e
      refine ⟨h.active, h.passive, fun f hf => ?_⟩
      cases hf
      exact ⟨_, _, rfl, getContradiction_mixed hE h.passive (noPanic_some e1)⟩
    | none =>
      simp only [Option.bind_eq_some_iff, Prod.exists] at e
      obtain ⟨x, p, e2, e⟩ := e
      obtain ⟨h1, h2⟩ := pop_good hE h.passive e2
      cases x with
      | none => cases e; exact ⟨h.active, h1, h.final⟩
      | some s =>
        have hs := h2 s rfl
        simp only [not_impossible hE hs, Bool.false_eq_true, if_false] at e
        obtain ⟨h3, h4⟩ := activate_good hE ho (st := { st with passive := p }) ⟨h.active, h1, h.final⟩ hs e
        exact h4 (hsh s (by rw [h3]; simp))

theorem next_steps {st st' : State R} {b c : Bool} (e : st.next P b = some (st', c)) :
    ∃ ss, st'.active.steps = st.active.steps ++ ss := by
  unfold State.next at e
  split at e
  · cases e; exact ⟨[], by simp⟩
  · simp only [Option.bind_eq_bind, Option.bind_eq_some_iff, Option.pure_def] at e
    obtain ⟨x, e1, e⟩ := e
    cases x with
    | some xy => cases e; exact ⟨[], by simp⟩
    | none =>
      simp only [Option.bind_eq_some_iff, Prod.exists] at e
      obtain ⟨x, p, e2, e⟩ := e
      cases x with
      | none => cases e; exact ⟨[], by simp⟩
      | some s =>
        simp only at e
        split at e
        · cases e; exact ⟨[], by simp⟩
        · unfold State.activate at e
          simp only [Option.bind_eq_bind, Option.bind_eq_some_iff, Option.pure_def, Prod.exists] at e
          obtain ⟨p, e1, new, act, e2, r, e3, e⟩ := e
          refine ⟨[s], ?_⟩
          have hst := activate_steps e2
          cases r with
          | inl f => cases e; exact hst
          | inr ns =>
            simp only [Option.bind_eq_some_iff] at e
            obtain ⟨q, e4, e⟩ := e
            unfold conclude at e
            simp only [Option.bind_eq_bind, Option.bind_eq_some_iff, Option.pure_def] at e
            obtain ⟨x, -, e⟩ := e
            cases x with
            | some xy => cases e; exact hst
            | none =>
              simp only at e
              split at e <;> cases e <;> exact hst

theorem searches_good (hE : SoundEnv P.env M) (ho : ∀ k l, (P.order k l).Perm l) {st : State R}
    {ins : List (Step (Info R))} (h : Searches P st ins) :
    (∀ s ∈ ins, PlainClause P.env.K s.clause ∧ ClauseTrue M s.clause) →
    (∀ s ∈ st.active.steps, Sharp P.env.K s.clause) → GoodState P M st := by
  induction h with
  | new =>
    intro _ _
    exact ⟨good_new, ⟨Passive.agrees_new, Passive.scored_new,
      fun c hc => by obtain ⟨i, s, sc, h, _⟩ := hc; simp [Passive.PassiveSet.Waits, Passive.PassiveSet.new] at h,
      fun c hc => by obtain ⟨i, s, sc, h, _⟩ := hc; simp [Passive.PassiveSet.Waits, Passive.PassiveSet.new] at h⟩,
      fun f hf => by cases hf⟩
  | add steps _ e ih =>
    intro hi hs
    have hg := ih (fun s h => hi s (by simp [h])) hs
    refine ⟨hg.active, push_good hE hg.passive (fun s h => ?_) e, hg.final⟩
    have := hi s (by simp [h])
    exact ⟨this.1, fun _ => this.2⟩
  | next b c _ e ih =>
    intro hi hs
    obtain ⟨ss, hss⟩ := next_steps e
    exact next_good hE ho (ih hi fun s h => hs s (by rw [hss]; simp [h])) e hs

end Active
end Acorn
