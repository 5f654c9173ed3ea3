/-
Simplifying the passive set.
-/
import Verif.Lemmas.PassiveRuns
namespace Acorn
namespace Passive
open Fingerprint Spec

variable {R : Type} {S : Setup R} {p p' : PassiveSet R}

theorem keepLits_error {K : KCtx} {Γ Δ : LCtx} {l r : Term} {positive : Bool} {ids : Option (List Nat)} :
    ∀ {lits : List Literal} {e : Panic}, keepLits K Γ Δ l r positive ids lits = .error e → e = .term := by
  intro lits
  induction lits with
  | nil => intro e h; simp [keepLits] at h
  | cons a as ih =>
    intro e h
    simp only [keepLits, bind, Except.bind] at h
    split at h
    · rename_i e' h'
      cases h
      exact orTerm_error h'
    · split at h
      · simp only [pure, Except.pure] at h
        split at h
        · cases h
        · split at h
          · exact ih h
          · cases h
      · split at h
        · rename_i e' h'
          cases h
          exact orTerm_error h'
        · split at h
          · split at h
            · cases h
            · split at h
              · exact ih h
              · cases h
          · split at h
            · rename_i e' h'
              cases h
              exact ih h'
            · split at h <;> cases h

theorem makeSimplified_error {K : KCtx} {Γ Δ : LCtx} {l r : Term} {positive : Bool} {ids : Option (List Nat)}
    {lits : List Literal} {e : Panic} (h : makeSimplified K Γ Δ l r positive ids lits = .error e) : e = .term := by
  simp only [makeSimplified, bind, Except.bind] at h
  split at h
  · rename_i e' h'
    cases h
    exact keepLits_error h'
  · split at h
    · cases h
    · split at h
      · rename_i e' h'
        cases h
        exact orTerm_error h'
      · cases h

/-- The new step made from a waiting one. -/
def derived (S : Setup R) (act s : Step R) (c : Clause) : Step R := ⟨c, false, s.negatedGoal, S.combine s.info act.info c⟩

/-- What happens to a clause with a literal that matches. -/
structure Visited (S : Setup R) (act : Step R) (f : Simplifier) (p : PassiveSet R) (id i : Nat) (s : Step R) (sc : Score)
    (l : Literal) (new : Option (Step R)) : Prop where
  waits : p.Waits id s sc
  lit : s.clause.lits[i]? = some l
  found : ∃ m, pairMap S.K f.ctx s.clause.ctx f.left f.right l.left l.right = some (some m)
  kept : s.assumption = true → f.positive ≠ l.positive
  result : (f.positive = l.positive ∧ new = none) ∨
    (f.positive ≠ l.positive ∧
      makeSimplified S.K f.ctx s.clause.ctx f.left f.right f.positive f.ids s.clause.lits = .ok none ∧ new = none) ∨
    ∃ c, f.positive ≠ l.positive ∧
      makeSimplified S.K f.ctx s.clause.ctx f.left f.right f.positive f.ids s.clause.lits = .ok (some c) ∧
      ((c.lits = [] ∧ ¬ (Inhabits S f.ctx ∧ Inhabits S s.clause.ctx) ∧ new = none) ∨
       ((c.lits = [] → Inhabits S f.ctx ∧ Inhabits S s.clause.ctx) ∧ new = some (derived S act s c)))

theorem visit_cases {act : Step R} {f : Simplifier} {id i : Nat} (hid : id < p.clauses.length)
    (hi : ∀ s sc, p.Waits id s sc → ∃ l, s.clause.lits[i]? = some l) :
    p.visit S act f id i = .error .term ∨
    p.visit S act f id i = .ok (p, none) ∨
    ∃ s sc l new, p.visit S act f id i = .ok (p.forget id sc, new) ∧ Visited S act f p id i s sc l new := by
  unfold PassiveSet.visit
  split
  · rename_i hn
    rw [List.getElem?_eq_getElem hid] at hn; cases hn
  · exact .inr (.inl rfl)
  · rename_i s sc hw
    have hw : p.Waits id s sc := hw
    obtain ⟨l, hl⟩ := hi s sc hw
    rw [hl]
    dsimp only
    cases e1 : pairMap S.K f.ctx s.clause.ctx f.left f.right l.left l.right with
    | none => exact .inl rfl
    | some o =>
      simp only [orTerm, bind, Except.bind]
      cases o with
      | none => exact .inr (.inl rfl)
      | some m =>
        dsimp only
        split
        · exact .inr (.inl rfl)
        · rename_i hk
          have hk : s.assumption = true → f.positive ≠ l.positive := by
            intro ha hp; simp [ha, hp] at hk
          split
          · rename_i hp
            have hp : f.positive = l.positive := by simpa using hp
            exact .inr (.inr ⟨s, sc, l, none, rfl, hw, hl, ⟨m, e1⟩, hk, .inl ⟨hp, rfl⟩⟩)
          · rename_i hp
            have hp : f.positive ≠ l.positive := by simpa using hp
            cases e2 : makeSimplified S.K f.ctx s.clause.ctx f.left f.right f.positive f.ids s.clause.lits with
            | error e => rw [makeSimplified_error e2]; exact .inl rfl
            | ok o =>
              cases o with
              | none => exact .inr (.inr ⟨s, sc, l, none, rfl, hw, hl, ⟨m, e1⟩, hk, .inr (.inl ⟨hp, e2, rfl⟩)⟩)
              | some c =>
                dsimp only
                have hc : c.isImpossible = true ↔ c.lits = [] := by
                  simp [Clause.isImpossible, List.isEmpty_iff]
                split
                · rename_i hh
                  rw [Bool.and_eq_true, hc] at hh
                  refine .inr (.inr ⟨s, sc, l, none, rfl, hw, hl, ⟨m, e1⟩, hk, .inr (.inr ⟨c, hp, e2, .inl ⟨hh.1, ?_, rfl⟩⟩)⟩)
                  intro hb
                  rw [← allInhabited_iff, ← allInhabited_iff] at hb
                  simp [hb.1, hb.2] at hh
                · rename_i hh
                  refine .inr (.inr ⟨s, sc, l, _, rfl, hw, hl, ⟨m, e1⟩, hk, .inr (.inr ⟨c, hp, e2, .inr ⟨?_, rfl⟩⟩)⟩)
                  intro he
                  rw [← allInhabited_iff, ← allInhabited_iff]
                  rw [← hc] at he
                  simpa [he] using hh

/-- Numbers of steps are not reused, and the step with a number does not change. -/
structure Later (p p' : PassiveSet R) : Prop where
  len : p.clauses.length ≤ p'.clauses.length
  old : ∀ id, id < p.clauses.length → ∀ s sc, p'.Waits id s sc → ∃ sc', p.Waits id s sc'

theorem Later.refl (p : PassiveSet R) : Later p p := ⟨Nat.le_refl _, fun _ _ _ sc h => ⟨sc, h⟩⟩

theorem Later.trans {a b c : PassiveSet R} (h : Later a b) (h' : Later b c) : Later a c := by
  refine ⟨Nat.le_trans h.len h'.len, fun id hi s sc hw => ?_⟩
  obtain ⟨sc', hw'⟩ := h'.old id (Nat.lt_of_lt_of_le hi h.len) s sc hw
  exact h.old id hi s sc' hw'

theorem later_forget {id : Nat} {s : Step R} {sc : Score} (hw : p.Waits id s sc) : Later p (p.forget id sc) :=
  ⟨by simp [PassiveSet.forget], fun _ _ _ st h => ⟨st, ((waits_forget hw).1 h).2⟩⟩

theorem later_steps {ss : List (Step R)} (e : p'.steps = p.steps ++ ss.map some) : Later p p' := by
  have hl : p'.clauses.length = p.clauses.length + ss.length := by
    have := congrArg List.length e
    simpa [PassiveSet.steps] using this
  refine ⟨by omega, fun id hi s sc hw => steps_get.1 ?_⟩
  have := steps_get.2 ⟨sc, hw⟩
  rw [e, List.getElem?_append_left (by simpa [PassiveSet.steps] using hi)] at this
  exact this

/-- A hit of the index. -/
def Hit (p : PassiveSet R) (x : Nat × Nat) : Prop :=
  x.1 < p.clauses.length ∧ ∀ s sc, p.Waits x.1 s sc → ∃ l, s.clause.lits[x.2]? = some l

theorem Hit.later {x : Nat × Nat} (h : Hit p x) (hl : Later p p') : Hit p' x := by
  refine ⟨Nat.lt_of_lt_of_le h.1 hl.len, fun s sc hw => ?_⟩
  obtain ⟨sc', hw'⟩ := hl.old _ h.1 s sc hw
  exact h.2 s sc' hw'

theorem Agrees.hits (h : Agrees S p) {Γ : LCtx} {l r : Term} {hits : List (Nat × Nat)}
    (e : findSpecializing S.K p.literals Γ l r = some hits) : ∀ x ∈ hits, Hit p x := by
  obtain ⟨es, h1, h2, _⟩ := h.index
  intro x hx
  simp only [findSpecializing, Option.bind_eq_bind, Option.bind_eq_some_iff, Option.pure_def, Option.some.injEq] at e
  obtain ⟨f, _, c, _, rfl⟩ := e
  obtain ⟨k, g, hs, _⟩ := mem_found.1 hx
  obtain ⟨Γ', l', hm, _⟩ := (addLiterals_stored es _ h1 k g x).1 hs
  obtain ⟨h3, h4⟩ := h2 Γ' l' x.1 x.2 hm
  exact ⟨h3, fun s sc hw => ⟨l', (h4 s sc hw).2⟩⟩

/-- A run of the loop. -/
inductive Visits (S : Setup R) (act : Step R) (f : Simplifier) : PassiveSet R → List (Nat × Nat) → PassiveSet R →
    List (Step R) → Prop
  | nil (p : PassiveSet R) : Visits S act f p [] p []
  | skip {p : PassiveSet R} {id i : Nat} {hits : List (Nat × Nat)} {p' : PassiveSet R} {news : List (Step R)} : Visits S act f p hits p' news → p.visit S act f id i = .ok (p, none) →
      Visits S act f p ((id, i) :: hits) p' news
  | take {p : PassiveSet R} {id i : Nat} {hits : List (Nat × Nat)} {p' : PassiveSet R} {s : Step R} {sc : Score} {l : Literal}
      {new : Option (Step R)} {news : List (Step R)} : Visited S act f p id i s sc l new →
      Visits S act f (p.forget id sc) hits p' news → Visits S act f p ((id, i) :: hits) p' (new.toList ++ news)

theorem visitAll_spec {act : Step R} {f : Simplifier} : ∀ {hits : List (Nat × Nat)} {p : PassiveSet R},
    (∀ x ∈ hits, Hit p x) → p.visitAll S act f hits = .error .term ∨
      ∃ p' news, p.visitAll S act f hits = .ok (p', news) ∧ Visits S act f p hits p' news := by
  intro hits
  induction hits with
  | nil => intro p _; exact .inr ⟨p, [], rfl, .nil p⟩
  | cons x hits ih =>
    intro p hh
    obtain ⟨id, i⟩ := x
    obtain ⟨h1, h2⟩ := hh (id, i) (List.mem_cons_self ..)
    simp only [PassiveSet.visitAll]
    rcases visit_cases (S := S) (act := act) (f := f) h1 h2 with e | e | ⟨s, sc, l, new, e, hv⟩
    · rw [e]; exact .inl rfl
    · rw [e]
      simp only [bind, Except.bind]
      rcases ih fun x hx => hh x (List.mem_cons_of_mem _ hx) with e' | ⟨p', news, e', hn⟩
      · rw [e']; exact .inl rfl
      · rw [e']; exact .inr ⟨p', news, rfl, .skip hn e⟩
    · rw [e]
      simp only [bind, Except.bind]
      rcases ih fun x hx => (hh x (List.mem_cons_of_mem _ hx)).later (later_forget hv.waits) with e' | ⟨p', news, e', hn⟩
      · rw [e']; exact .inl rfl
      · rw [e']; exact .inr ⟨p', _, rfl, .take hv hn⟩

/-- What every operation other than popping keeps. -/
structure Kept (S : Setup R) (p p' : PassiveSet R) : Prop where
  agrees : Agrees S p'
  scored : Scored S p'
  later : Later p p'
  flags : SameFlags p p'

theorem Visits.kept {act : Step R} {f : Simplifier} {p' : PassiveSet R} {hits : List (Nat × Nat)} {news : List (Step R)}
    (h : Visits S act f p hits p' news) (ha : Agrees S p) (hs : Scored S p) : Kept S p p' := by
  induction h with
  | nil p => exact ⟨ha, hs, .refl _, rfl, rfl⟩
  | skip _ _ ih => exact ih ha hs
  | take hv _ ih =>
    obtain ⟨h1, h2, h3, h4⟩ := ih (ha.forget hv.waits) (hs.forget hv.waits)
    exact ⟨h1, h2, (later_forget hv.waits).trans h3, h4⟩

theorem simplifyOne_spec {order : List (Nat × Nat) → List (Nat × Nat)} (ho : ∀ l, (order l).Perm l) {act : Step R}
    {f : Simplifier} (ha : Agrees S p) (hs : Scored S p) :
    p.simplifyOne S order act f = .error .term ∨
    ∃ hits p1 news p', p.simplifyOne S order act f = .ok p' ∧
      findSpecializing S.K p.literals f.ctx f.left f.right = some hits ∧ Visits S act f p (order hits) p1 news ∧
      Kept S p p1 ∧ Kept S p p' ∧ p'.steps = p1.steps ++ news.map some := by
  unfold PassiveSet.simplifyOne
  cases e1 : findSpecializing S.K p.literals f.ctx f.left f.right with
  | none => exact .inl rfl
  | some hits =>
    simp only [orTerm, bind, Except.bind]
    rcases visitAll_spec (S := S) (act := act) (f := f) (p := p) (hits := order hits)
      (fun x hx => ha.hits e1 x ((ho hits).mem_iff.1 hx)) with e | ⟨p1, news, e, hv⟩
    · rw [e]; exact .inl rfl
    · rw [e]
      dsimp only
      have hk := hv.kept ha hs
      rcases push_spec hk.agrees hk.scored news with e' | ⟨p', e', k1, k2, k3, _, k5⟩
      · exact .inl e'
      · exact .inr ⟨hits, p1, news, p', e', rfl, hv, hk, ⟨k1, k2, hk.later.trans (later_steps k3),
          k5.1.trans hk.flags.1, k5.2.trans hk.flags.2⟩, k3⟩

theorem simplify_spec {order : List (Nat × Nat) → List (Nat × Nat)} (ho : ∀ l, (order l).Perm l) {act : Step R}
    {l : Literal} (hl : act.clause.lits = [l]) (ha : Agrees S p) (hs : Scored S p) :
    p.simplify S order act = .error .term ∨
    ∃ p1, p.simplifyOne S order act ⟨l.left, l.right, l.positive, act.clause.ctx, none⟩ = .ok p1 ∧
      ((Pdt.strictKbo l = some true ∧ p.simplify S order act = .ok p1) ∨
       ∃ right left Γ ids p2, Pdt.strictKbo l = some false ∧
         Pdt.normalizedReversed l act.clause.ctx = some (right, left, Γ, ids) ∧
         p1.simplifyOne S order act ⟨right, left, l.positive, Γ, some ids⟩ = .ok p2 ∧
         p.simplify S order act = .ok p2) := by
  unfold PassiveSet.simplify
  rw [hl]
  simp only [bind, Except.bind]
  rcases simplifyOne_spec (S := S) ho (act := act) (f := ⟨l.left, l.right, l.positive, act.clause.ctx, none⟩) ha hs with
    e | ⟨hits, p0, news, p1, e, _, _, _, hk, _⟩
  · rw [e]; exact .inl rfl
  · rw [e]
    dsimp only
    cases e2 : Pdt.strictKbo l with
    | none => exact .inl rfl
    | some b =>
      cases b with
      | true => exact .inr ⟨p1, rfl, .inl ⟨rfl, rfl⟩⟩
      | false =>
        simp only [orTerm, Bool.false_eq_true, if_false]
        cases e3 : Pdt.normalizedReversed l act.clause.ctx with
        | none => exact .inl rfl
        | some r =>
          obtain ⟨right, left, Γ, ids⟩ := r
          dsimp only
          rcases simplifyOne_spec (S := S) ho (act := act) (f := ⟨right, left, l.positive, Γ, some ids⟩) hk.agrees hk.scored with
            e4 | ⟨_, _, _, p2, e4, _⟩
          · exact .inl e4
          · exact .inr ⟨p1, rfl, .inr ⟨right, left, Γ, ids, p2, by simp, rfl, e4, e4⟩⟩

theorem simplify_kept {order : List (Nat × Nat) → List (Nat × Nat)} (ho : ∀ l, (order l).Perm l) {act : Step R}
    (hl : act.clause.lits.length = 1) (ha : Agrees S p) (hs : Scored S p) :
    p.simplify S order act = .error .term ∨ ∃ p', p.simplify S order act = .ok p' ∧ Kept S p p' := by
  obtain ⟨l, hl⟩ := List.length_eq_one_iff.1 hl
  have one : ∀ {p p' : PassiveSet R} {f : Simplifier}, Agrees S p → Scored S p → p.simplifyOne S order act f = .ok p' →
      Kept S p p' := by
    intro p p' f ha hs e
    rcases simplifyOne_spec (S := S) ho (act := act) (f := f) ha hs with e' | ⟨_, _, _, _, e', _, _, _, hk, _⟩
    · rw [e'] at e; cases e
    · rw [e'] at e; cases e; exact hk
  rcases simplify_spec (S := S) ho hl ha hs with e | ⟨p1, e1, ⟨_, e2⟩ | ⟨_, _, _, _, p2, _, _, e2, e3⟩⟩
  · exact .inl e
  · exact .inr ⟨p1, e2, one ha hs e1⟩
  · have k1 := one ha hs e1
    have k2 := one k1.agrees k1.scored e2
    exact .inr ⟨p2, e3, k2.agrees, k2.scored, k1.later.trans k2.later, k2.flags.1.trans k1.flags.1,
      k2.flags.2.trans k1.flags.2⟩

/-! ### Histories -/

theorem Scored.flags (h : Scored S p) (b : Bool) (n : Nat) : Scored S { p with allShallow := b, popCount := n } := h

theorem op_spec (ha : Agrees S p) (hs : Scored S p) {o : Op R} (ho : o.Ok) :
    p.op S o = .error .term ∨ ∃ p' e, p.op S o = .ok (p', e) ∧ Agrees S p' ∧ Scored S p' ∧ Later p p' ∧
      ∀ x, e = some x → p.Waits x.id x.step x.score ∧ ∀ s sc, ¬ p'.Waits x.id s sc := by
  have gone : ∀ (e : Entry R), p.Waits e.id e.step e.score → ∀ s sc, ¬ (p.forget e.id e.score).Waits e.id s sc :=
    fun e hw s sc h => ((waits_forget hw).1 h).1 rfl
  cases o with
  | push steps =>
    simp only [PassiveSet.op, bind, Except.bind]
    rcases push_spec ha hs steps with e | ⟨p', e, h1, h2, h3, _⟩
    · rw [e]; exact .inl rfl
    · rw [e]; exact .inr ⟨p', none, rfl, h1, h2, later_steps h3, (fun x h => by cases h)⟩
  | pop =>
    simp only [PassiveSet.op, bind, Except.bind]
    rcases pop_spec ha with ⟨e, _⟩ | ⟨x, hw, e, _⟩
    · rw [e]
      exact .inr ⟨_, none, rfl, ha.other p.allShallow _, hs.flags p.allShallow _, ⟨Nat.le_refl _, fun _ _ _ sc h => ⟨sc, h⟩⟩,
        (fun x h => by cases h)⟩
    · rw [e]
      refine .inr ⟨_, some x, rfl, (ha.forget hw).other _ _, (hs.forget hw).flags _ _,
        ⟨(later_forget hw).len, (later_forget hw).old⟩, fun y h => ?_⟩
      cases h
      exact ⟨hw, gone x hw⟩
  | popShallow =>
    simp only [PassiveSet.op, bind, Except.bind]
    rcases popShallow_spec ha with ⟨e, _⟩ | ⟨x, hw, _, e, _⟩
    · rw [e]; exact .inr ⟨_, none, rfl, ha, hs, .refl _, (fun x h => by cases h)⟩
    · rw [e]
      refine .inr ⟨_, some x, rfl, ha.forget hw, hs.forget hw, later_forget hw, fun y h => ?_⟩
      cases h
      exact ⟨hw, gone x hw⟩
  | simplify order act =>
    simp only [PassiveSet.op, bind, Except.bind]
    rcases simplify_kept (S := S) ho.2 ho.1 ha hs with e | ⟨p', e, hk⟩
    · rw [e]; exact .inl rfl
    · rw [e]; exact .inr ⟨p', none, rfl, hk.agrees, hk.scored, hk.later, (fun x h => by cases h)⟩

theorem run_spec : ∀ (os : List (Op R)) (p : PassiveSet R), Agrees S p → Scored S p → (∀ o ∈ os, Op.Ok o) →
    p.run S os = .error .term ∨ ∃ p' es, p.run S os = .ok (p', es) ∧ Agrees S p' ∧ Scored S p' ∧ Later p p' ∧
      (es.map (·.id)).Nodup ∧ ∀ x ∈ es, x.id < p'.clauses.length ∧ (∀ s sc, ¬ p'.Waits x.id s sc) ∧
        (x.id < p.clauses.length → ∃ sc, p.Waits x.id x.step sc) := by
  intro os
  induction os with
  | nil => intro p ha hs _; exact .inr ⟨p, [], rfl, ha, hs, .refl _, by simp, by simp⟩
  | cons o os ih =>
    intro p ha hs ho
    simp only [PassiveSet.run, bind, Except.bind]
    rcases op_spec ha hs (ho o (List.mem_cons_self ..)) with e | ⟨p1, x, e, h1, h2, h3, h4⟩
    · rw [e]; exact .inl rfl
    · rw [e]
      dsimp only
      rcases ih p1 h1 h2 fun o h => ho o (List.mem_cons_of_mem _ h) with e' | ⟨p2, es, e', k1, k2, k3, k4, k5⟩
      · rw [e']; exact .inl rfl
      · rw [e']
        refine .inr ⟨p2, _, rfl, k1, k2, h3.trans k3, ?_, fun y hy => ?_⟩
        · cases x with
          | none => simpa using k4
          | some x =>
            obtain ⟨w1, w2⟩ := h4 x rfl
            simp only [Option.toList_some, List.singleton_append, List.map_cons, List.nodup_cons]
            refine ⟨fun hm => ?_, k4⟩
            obtain ⟨y, hy, ey⟩ := List.mem_map.1 hm
            obtain ⟨sc, hw⟩ := (k5 y hy).2.2 (ey ▸ Nat.lt_of_lt_of_le (waits_lt w1) h3.len)
            rw [ey] at hw
            exact w2 _ _ hw
        · rcases List.mem_append.1 hy with hy | hy
          · obtain ⟨w1, w2⟩ := h4 y (by simpa using hy)
            have hlt := Nat.lt_of_lt_of_le (waits_lt w1) h3.len
            refine ⟨Nat.lt_of_lt_of_le hlt k3.len, fun s sc hw => ?_, fun _ => ⟨_, w1⟩⟩
            obtain ⟨sc', hw'⟩ := k3.old _ hlt s sc hw
            exact w2 _ _ hw'
          · obtain ⟨w1, w2, w3⟩ := k5 y hy
            refine ⟨w1, w2, fun hlt => ?_⟩
            obtain ⟨sc, hw⟩ := w3 (Nat.lt_of_lt_of_le hlt h3.len)
            exact h3.old _ hlt _ _ hw

theorem scored_new : Scored S (PassiveSet.new S) := fun id s sc h => by
  simp [PassiveSet.Waits, PassiveSet.new] at h

theorem reachable_agrees (h : Reachable S p) : Agrees S p ∧ Scored S p := by
  obtain ⟨os, popped, ho, e⟩ := h
  rcases run_spec os _ agrees_new scored_new ho with e' | ⟨p', es, e', h1, h2, _⟩
  · rw [e'] at e; cases e
  · rw [e'] at e; cases e; exact ⟨h1, h2⟩

end Passive
end Acorn
