/-
Helper lemmas for C63: a search derives nothing from the negated goal that it does not say so.
-/
import Verif.Lemmas.SearchOutcome
namespace Acorn
namespace Active
open Spec
open Passive (Step)

universe u

variable {R : Type} {P : Prover R} {M : Interp.{u}} {n : Nat}

/-! ### The passive set -/

/-- The waiting steps are true as far as they claim. -/
def WaitTrue (P : Prover R) (M : Interp.{u}) (n : Nat) (p : Passive.PassiveSet (Info R)) : Prop :=
  ∀ id s sc, p.Waits id s sc → TrueUpTo P.env.K M n s

theorem waitTrue_steps {p : Passive.PassiveSet (Info R)} :
    WaitTrue P M n p ↔ ∀ s, some s ∈ p.steps → TrueUpTo P.env.K M n s := by
  constructor
  · intro h s hs
    obtain ⟨id, hid⟩ := List.getElem?_of_mem hs
    obtain ⟨sc, hw⟩ := Passive.steps_get.1 hid
    exact h id s sc hw
  · intro h id s sc hw
    exact h s (List.mem_of_getElem? (Passive.steps_get.2 ⟨sc, hw⟩))

theorem waitTrue_append {p p' : Passive.PassiveSet (Info R)} {ss : List (Step (Info R))} (h : WaitTrue P M n p)
    (e : p'.steps = p.steps ++ ss.map some) (hs : ∀ s ∈ ss, TrueUpTo P.env.K M n s) : WaitTrue P M n p' := by
  rw [waitTrue_steps] at h ⊢
  intro s hm
  rw [e] at hm
  rcases List.mem_append.1 hm with hm | hm
  · exact h s hm
  · obtain ⟨x, hx, ex⟩ := List.mem_map.1 hm
    cases ex
    exact hs s hx

theorem push_levels {p p' : Passive.PassiveSet (Info R)} (h : Neat P p) (hw : WaitTrue P M n p)
    {ss : List (Step (Info R))} (hs : ∀ s ∈ ss, TrueUpTo P.env.K M n s)
    (e : noPanic (p.push P.setup ss) = some p') : WaitTrue P M n p' := by
  have e := noPanic_some e
  rcases Passive.push_spec h.1 h.2 ss with e' | ⟨q, e', _, _, h3, _⟩
  · rw [e'] at e; cases e
  · rw [e'] at e; cases e; exact waitTrue_append hw h3 hs

theorem pop_levels {st : State R} (h : Neat P st.passive) (hw : WaitTrue P M n st.passive) {b : Bool}
    {x : Option (Step (Info R))} {p' : Passive.PassiveSet (Info R)} (e : st.pop P b = some (x, p')) :
    WaitTrue P M n p' ∧ ∀ s, x = some s → TrueUpTo P.env.K M n s := by
  refine ⟨?_, fun s hs => ?_⟩
  · unfold State.pop at e
    split at e
    · simp only [Option.map_eq_some_iff, Prod.mk.injEq] at e
      obtain ⟨⟨z, q⟩, e, rfl, rfl⟩ := e
      have e := noPanic_some e
      rcases Passive.popShallow_spec h.1 with ⟨e', hn⟩ | ⟨w, hw', hs, e', _⟩
      · rw [e'] at e; cases e; exact hw
      · rw [e'] at e; cases e
        exact fun id s sc hx => hw id s sc ((Passive.waits_forget hw').1 hx).2
    · simp only [Option.map_eq_some_iff, Prod.mk.injEq] at e
      obtain ⟨⟨z, q⟩, e, rfl, rfl⟩ := e
      have e := noPanic_some e
      rcases Passive.pop_spec h.1 with ⟨e', hn⟩ | ⟨w, hw', e', _⟩
      · rw [e'] at e; cases e; exact hw
      · rw [e'] at e; cases e
        exact fun id s sc hx => hw id s sc ((Passive.waits_forget hw').1 hx).2
  · obtain ⟨id, sc, hx, _⟩ := (neat_pop h e).2.2.2 s hs
    exact hw id s sc hx

theorem visited_levels (hE : SoundEnv P.env M) {act : Step (Info R)} {f : Passive.Simplifier}
    (hf : level act.info.truth ≤ n → Passive.GoodSimplifier P.env.K M f) {p : Passive.PassiveSet (Info R)} {id i : Nat}
    {s : Step (Info R)} {sc : Passive.Score} {l : Literal} {t : Step (Info R)}
    (h : Passive.Visited P.setup act f p id i s sc l (some t)) (hs : TrueUpTo P.env.K M n s) :
    TrueUpTo P.env.K M n t := by
  have hr := h.result
  rcases hr with ⟨_, k⟩ | ⟨_, _, k⟩ | ⟨c, _, e, ⟨_, _, k⟩ | ⟨_, k⟩⟩
  · cases k
  · cases k
  · cases k
  · cases k
    refine ⟨?_, fun hl => ?_⟩
    · simp only [Passive.makeSimplified, Bind.bind, Except.bind] at e
      split at e
      · cases e
      · rename_i ko hk
        cases ko with
        | none => cases e
        | some ks =>
          dsimp only at e
          split at e
          · cases e
          · rename_i t ht'
            cases e
            obtain ⟨k1, _⟩ := Passive.keepLits_shorter hk
            have hpk : PlainClause P.env.K ⟨ks, s.clause.ctx⟩ :=
              ⟨hs.plain.vars, fun l hl => hs.plain.lits l (k1.subset hl), fun l hl => hs.plain.noSorts l (k1.subset hl)⟩
            exact (renewed_withTrace hE.lawful hE.inhabited hpk (Passive.orTerm_ok ht')).plain
    · have hl' : level (s.info.truth.combine act.info.truth) ≤ n := hl
      rw [level_combine, Nat.max_le] at hl'
      exact ((h.sound (S := P.setup) hE.lawful hE.inhabited (hf hl'.2) hs.plain).1 _ rfl).2.2 (hs.holds hl'.1)

theorem visits_levels (hE : SoundEnv P.env M) {act : Step (Info R)} {f : Passive.Simplifier}
    (hf : level act.info.truth ≤ n → Passive.GoodSimplifier P.env.K M f) {p p' : Passive.PassiveSet (Info R)}
    {hits : List (Nat × Nat)} {news : List (Step (Info R))} (h : Passive.Visits P.setup act f p hits p' news) :
    WaitTrue P M n p → WaitTrue P M n p' ∧ ∀ t ∈ news, TrueUpTo P.env.K M n t := by
  induction h with
  | nil p => intro hp; exact ⟨hp, by simp⟩
  | skip _ _ ih => exact ih
  | @take p id i hits p' s sc l new news hv _ ih =>
    intro hp
    obtain ⟨i1, i2⟩ := ih fun j x sx hx => hp j x sx ((Passive.waits_forget hv.waits).1 hx).2
    refine ⟨i1, fun t ht => ?_⟩
    rcases List.mem_append.1 ht with ht | ht
    · have : new = some t := by simpa using ht
      subst this
      exact visited_levels hE hf hv (hp _ _ _ hv.waits)
    · exact i2 t ht

theorem simplifyOne_levels (hE : SoundEnv P.env M) {order : List (Nat × Nat) → List (Nat × Nat)}
    (ho : ∀ l, (order l).Perm l) {act : Step (Info R)} {f : Passive.Simplifier}
    (hf : level act.info.truth ≤ n → Passive.GoodSimplifier P.env.K M f) {p p' : Passive.PassiveSet (Info R)}
    (h : Neat P p) (hw : WaitTrue P M n p) (e : p.simplifyOne P.setup order act f = .ok p') :
    WaitTrue P M n p' ∧ Neat P p' := by
  rcases Passive.simplifyOne_spec (S := P.setup) ho (act := act) (f := f) h.1 h.2 with
    e' | ⟨hits, p1, news, q, e', _, hv, _, hk, hst⟩
  · rw [e'] at e; cases e
  · rw [e'] at e; cases e
    obtain ⟨i1, i2⟩ := visits_levels hE hf hv hw
    exact ⟨waitTrue_append i1 hst i2, hk.agrees, hk.scored⟩

theorem simplifyPassive_levels (hE : SoundEnv P.env M) (ho : ∀ k l, (P.order k l).Perm l) {st : State R}
    (h : Neat P st.passive) (hw : WaitTrue P M n st.passive) {s : Step (Info R)} (hs : TrueUpTo P.env.K M n s)
    {p' : Passive.PassiveSet (Info R)} (e : simplifyPassive P st s = some p') : WaitTrue P M n p' := by
  unfold simplifyPassive at e
  split at e
  · rename_i hl
    have e := noPanic_some e
    obtain ⟨l, hl⟩ := List.length_eq_one_iff.1 hl
    have hc : s.clause = ⟨[l], s.clause.ctx⟩ := by rw [← hl]
    have hpa := hs.plain
    have hta := hs.holds
    rw [hc] at hpa hta
    rcases Passive.simplify_spec (S := P.setup) (ho st.active.steps.length) hl h.1 h.2 with
      e' | ⟨p1, e1, ⟨_, e2⟩ | ⟨right, left, Γ, ids, p2, _, en, e2, e3⟩⟩
    · rw [e'] at e; cases e
    · rw [e2] at e; cases e
      exact (simplifyOne_levels hE (ho _) (fun hn => Passive.good_forward hpa (hta hn)) h hw e1).1
    · rw [e3] at e; cases e
      obtain ⟨m1, k1⟩ := simplifyOne_levels hE (ho _) (fun hn => Passive.good_forward hpa (hta hn)) h hw e1
      exact (simplifyOne_levels hE (ho _) (fun hn => Passive.good_reversed hE.inhabited hpa (hta hn) en) k1 m1 e2).1
  · cases e; exact hw

/-! ### The ends -/

/-- A final step claims to depend on more than a level, or is a contradiction that the model cannot judge. -/
def EndsAbove (n : Nat) : Final R → Prop
  | .step s => n < level s.info.truth
  | .passive x y => n < level x.info.truth ∨ n < level y.info.truth ∨ x.clause.ctx ≠ y.clause.ctx
  | .graph => n < 2

theorem impossible_above (hE : SoundEnv P.env M) {s : Step (Info R)} (hs : TrueUpTo P.env.K M n s)
    (hi : s.clause.isImpossible = true) : n < level s.info.truth := by
  refine Classical.byContradiction fun hn => ?_
  obtain ⟨ρ, hρ⟩ := exists_models hE.inhabited hs.plain.vars fun _ => M.sym .type0
  obtain ⟨l, hl, _⟩ := hs.holds (by omega) ρ hρ fun _ => M.sym .type0
  simp only [Clause.isImpossible, List.isEmpty_iff] at hi
  rw [hi] at hl
  cases hl

theorem clash_above (hE : SoundEnv P.env M) {p : Passive.PassiveSet (Info R)} (h : Neat P p) (hw : WaitTrue P M n p)
    {a b : Step (Info R)} (e : p.getContradiction = .ok (some (a, b))) : EndsAbove n (.passive a b) := by
  refine Classical.byContradiction fun hn => ?_
  simp only [EndsAbove, not_or, Nat.not_lt, ne_eq, Classical.not_not] at hn
  obtain ⟨ha, hb, hc⟩ := hn
  unfold Passive.PassiveSet.getContradiction at e
  split at e
  · cases e
  · rename_i i j hij
    split at e
    · rename_i x y hx hy
      cases e
      obtain ⟨l, h1, h2, _⟩ := (h.1.clash i j hij).2.2 _ _ _ _ hx hy
      have ta := hw i x.1 x.2 hx
      have tb := hw j y.1 y.2 hy
      obtain ⟨ρ, hρ⟩ := exists_models hE.inhabited ta.plain.vars fun _ => M.sym .type0
      obtain ⟨u, hu, t1⟩ := ta.holds ha ρ hρ fun _ => M.sym .type0
      obtain ⟨v, hv, t2⟩ := tb.holds hb ρ (hc ▸ hρ) fun _ => M.sym .type0
      rw [h1, List.mem_singleton] at hu
      rw [h2, List.mem_singleton] at hv
      subst hu hv
      simp only [LitHolds] at t1 t2
      cases hq : u.positive <;> simp_all
    · cases e
    · cases e

theorem sift_levels (hE : SoundEnv P.env M) {a : ActiveSet R} (hg : Good P.env M n a.steps a) :
    ∀ (ss : List (Step (Info R))), (∀ s ∈ ss, TrueUpTo P.env.K M n s) → ∀ r, sift P.env a ss = some r →
      (∀ f, r = .inl f → n < level f.info.truth) ∧ ∀ ns, r = .inr ns → ∀ s ∈ ns, TrueUpTo P.env.K M n s
  | [], _, r, e => by cases e; exact ⟨(fun f h => by cases h), fun ns h => by cases h; simp⟩
  | s :: ss, hs, r, e => by
    have h1 := hs s (by simp)
    have h2 : ∀ x ∈ ss, TrueUpTo P.env.K M n x := fun x hx => hs x (by simp [hx])
    unfold sift at e
    split at e
    · rename_i hi
      cases e
      exact ⟨(fun f h => by cases h; exact impossible_above hE h1 hi), fun ns h => by cases h⟩
    · split at e
      · exact sift_levels hE hg ss h2 r e
      · simp only [Option.bind_eq_bind, Option.bind_eq_some_iff, Option.pure_def] at e
        obtain ⟨x, e1, e⟩ := e
        cases x with
        | none => exact sift_levels hE hg ss h2 r e
        | some t =>
          have ht := simplify_sound hE.lawful hE.inhabited hg h1 e1
          simp only at e
          split at e
          · rename_i hi
            cases e
            exact ⟨(fun f h => by cases h; exact impossible_above hE ht hi), fun ns h => by cases h⟩
          · simp only [Option.bind_eq_some_iff] at e
            obtain ⟨y, e2, e⟩ := e
            obtain ⟨k1, k2⟩ := sift_levels hE hg ss h2 y e2
            cases y with
            | inl f => cases e; exact ⟨(fun f' h => by cases h; exact k1 f rfl), fun ns h => by cases h⟩
            | inr ns =>
              cases e
              refine ⟨(fun f' h => by cases h), fun ns' h z hz => ?_⟩
              cases h
              rcases List.mem_cons.1 hz with rfl | hz
              · exact ht
              · exact k2 ns rfl z hz

/-! ### The search -/

/-- What holds of a state if the inputs are true as far as they claim. -/
structure LevelState (P : Prover R) (M : Interp.{u}) (n : Nat) (st : State R) : Prop where
  active : Good P.env M n st.active.steps st.active
  waits : WaitTrue P M n st.passive
  final : ∀ f, st.final = some f → EndsAbove n f

theorem conclude_levels (hE : SoundEnv P.env M) {st st' : State R} (hp : Neat P st.passive) (h : LevelState P M n st)
    {b : Bool} (e : conclude P st = some (st', b)) : LevelState P M n st' := by
  unfold conclude at e
  simp only [Option.bind_eq_bind, Option.bind_eq_some_iff, Option.pure_def] at e
  obtain ⟨x, e1, e⟩ := e
  cases x with
  | some xy =>
    cases e
    refine ⟨h.active, h.waits, fun f hf => ?_⟩
    cases hf
    exact clash_above hE hp h.waits (noPanic_some e1)
  | none =>
    simp only at e
    split at e
    · rename_i hc
      cases e
      refine ⟨h.active, h.waits, fun f hf => ?_⟩
      cases hf
      refine Classical.byContradiction fun hn => ?_
      obtain ⟨T, hT⟩ := h.active.graph (Nat.not_lt.1 hn) (fun _ => M.sym .type0) (fun _ => M.sym .type0)
      have hc' : st.active.graph.contra = false := hT.contra
      simp [hc'] at hc
    · cases e; exact h

theorem activate_levels (hE : SoundEnv P.env M) (ho : ∀ k l, (P.order k l).Perm l) {st st' : State R}
    (hp : Neat P st.passive) (h : LevelState P M n st) {s : Step (Info R)} (hs : TrueUpTo P.env.K M n s)
    (hsh : Sharp P.env.K s.clause) {b : Bool} (e : State.activate P st s = some (st', b)) : LevelState P M n st' := by
  unfold State.activate at e
  simp only [Option.bind_eq_bind, Option.bind_eq_some_iff, Option.pure_def, Prod.exists] at e
  obtain ⟨p, e1, new, act, e2, r, e3, e⟩ := e
  have hw := simplifyPassive_levels hE ho hp h.waits hs e1
  have hn := (neat_simplify ho hp e1).1
  obtain ⟨h1, h2, _⟩ := activate_sound hE (M.sym .type0) h.active hs hsh e2
  obtain ⟨k1, k2⟩ := sift_levels hE h2 new h1 _ e3
  cases r with
  | inl f =>
    cases e
    exact ⟨h2, hw, fun f' hf => by cases hf; exact k1 f rfl⟩
  | inr ns =>
    simp only [Option.bind_eq_some_iff] at e
    obtain ⟨q, e4, e⟩ := e
    refine conclude_levels hE (st := ⟨q, act, none⟩) (neat_push hn e4).1 ⟨h2, push_levels hn hw (k2 ns rfl) e4, ?_⟩ e
    intro f hf; cases hf

theorem next_levels (hE : SoundEnv P.env M) (ho : ∀ k l, (P.order k l).Perm l) {st st' : State R}
    (hp : Neat P st.passive) (h : LevelState P M n st) {b c : Bool} (e : st.next P b = some (st', c))
    (hsh : ∀ s ∈ st'.active.steps, Sharp P.env.K s.clause) : LevelState P M n st' := by
  unfold State.next at e
  split at e
  · cases e; exact h
  · simp only [Option.bind_eq_bind, Option.bind_eq_some_iff, Option.pure_def] at e
    obtain ⟨x, e1, e⟩ := e
    cases x with
    | some xy =>
      cases e
      refine ⟨h.active, h.waits, fun f hf => ?_⟩
      cases hf
      exact clash_above hE hp h.waits (noPanic_some e1)
    | none =>
      simp only [Option.bind_eq_some_iff, Prod.exists] at e
      obtain ⟨x, p, e2, e⟩ := e
      obtain ⟨h1, h2⟩ := pop_levels hp h.waits e2
      have hn := (neat_pop hp e2).1
      cases x with
      | none => cases e; exact ⟨h.active, h1, h.final⟩
      | some s =>
        have hs := h2 s rfl
        simp only at e
        split at e
        · rename_i hi
          cases e
          exact ⟨h.active, h1, fun f hf => by cases hf; exact impossible_above hE hs hi⟩
        · obtain ⟨h3, _⟩ := activate_only ho (st := { st with passive := p }) hn e
          exact activate_levels hE ho (st := { st with passive := p }) hn ⟨h.active, h1, h.final⟩ hs
            (hsh s (by rw [h3]; simp)) e

theorem searches_levels (hE : SoundEnv P.env M) (ho : ∀ k l, (P.order k l).Perm l) {st : State R}
    {ins : List (Step (Info R))} (h : Searches P st ins) :
    (∀ s ∈ ins, TrueUpTo P.env.K M n s) → (∀ s ∈ st.active.steps, Sharp P.env.K s.clause) → LevelState P M n st := by
  induction h with
  | new =>
    intro _ _
    exact ⟨good_new, fun id s sc hw => by simp [Passive.PassiveSet.Waits, Passive.PassiveSet.new] at hw, fun f hf => by cases hf⟩
  | add steps h0 e ih =>
    intro hi hs
    have hg := ih (fun s h => hi s (by simp [h])) hs
    exact ⟨hg.active, push_levels (searches_neat ho h0) hg.waits (fun s h => hi s (by simp [h])) e, hg.final⟩
  | next b c h0 e ih =>
    intro hi hs
    obtain ⟨ss, hss⟩ := next_steps e
    exact next_levels hE ho (searches_neat ho h0) (ih hi fun s h => hs s (by rw [hss]; simp [h])) e hs

end Active
end Acorn
