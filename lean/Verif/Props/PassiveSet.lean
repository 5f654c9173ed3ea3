/-
C57: the passive set keeps the clauses that wait, gives the best one, and simplifies without changing what
is known.
-/
import Verif.Lemmas.PassiveSound
import Verif.Props.Fingerprint
import Verif.Props.Checker
namespace Acorn
open Term Spec Passive

universe u

/-! ### A demo -/

namespace PassiveDemo
open Demo CheckerExample

/-- Clauses with few literals are better; every second pop goes by age; `nat` is known to be inhabited, and
the goal does not matter. -/
def setup : Setup Nat where
  K := Demo.K
  inhabited _ T := T == nat
  score _ s := ⟨s.clause.lits.isEmpty, 0, -(s.clause.lits.length : Int), s.info == 0⟩
  usesGoal := false
  period := some 2
  combine a b _ := a + b

def step (c : Clause) : Step Nat := ⟨c, false, false, 0⟩

/-- `not even(x)`, waiting with `not even(zero) or even(add(zero, zero))`. -/
def never : Clause := ⟨[⟨false, .app even (.fvar 0), .tt⟩], [some nat]⟩

/-- The numbers and the clauses of the popped steps, and the clauses that still wait. -/
def results (os : List (Passive.Op Nat)) : Option (List (Nat × Clause) × List (Option Clause)) :=
  match (PassiveSet.new setup).run setup os with
  | .ok (p, es) => some (es.map fun e => (e.id, e.step.clause), p.steps.map (Option.map (·.clause)))
  | .error _ => none

end PassiveDemo

variable {R : Type} {S : Setup R} {p p' : PassiveSet R} {M : Interp.{u}}

/-! ### The queues -/

/-- Whatever is pushed, popped and simplified, the queues and the table of the clauses stay in step: none of
the panics of the passive set itself happens.  Only computing types, fingerprints or normal forms of ill-typed
terms can fail. -/
theorem C57_in_step {os : List (Passive.Op R)} (ho : ∀ o ∈ os, Passive.Op.Ok o) {x : Panic}
    (e : (PassiveSet.new S).run S os = .error x) : x = .term := by
  rcases run_spec os _ (agrees_new (S := S)) scored_new ho with e' | ⟨_, _, e', _⟩
  · rw [e'] at e; cases e; rfl
  · rw [e'] at e; cases e

/-- No step is popped twice, and a popped step does not wait. -/
theorem C57_popped_once {os : List (Passive.Op R)} (ho : ∀ o ∈ os, Passive.Op.Ok o) {es : List (Entry R)}
    (e : (PassiveSet.new S).run S os = .ok (p, es)) :
    (es.map (·.id)).Nodup ∧ ∀ x ∈ es, ∀ s sc, ¬ p.Waits x.id s sc := by
  rcases run_spec os _ (agrees_new (S := S)) scored_new ho with e' | ⟨p1, es1, e', _, _, _, h1, h2⟩
  · rw [e'] at e; cases e
  · rw [e'] at e; cases e
    exact ⟨h1, fun x hx => (h2 x hx).2.1⟩

/-- The length is the number of waiting steps. -/
theorem C57_len (h : Reachable S p) : p.len = (p.steps.filter (·.isSome)).length :=
  waiting_count (reachable_agrees h).1

theorem not_better {a b : Score} {i j : Nat} (h : entryLt (a, i) (b, j) = false) :
    ¬ b.Better a ∧ (a.Better b ∨ j ≤ i) := by
  have h' : ¬ entryLt (a, i) (b, j) = true := by simp [h]
  rw [entryLt_iff, Score.lt_iff] at h'
  refine ⟨fun hb => h' (.inl hb), ?_⟩
  cases hl : Score.lt b a with
  | true => exact .inl (Score.lt_iff.1 hl)
  | false =>
    exact .inr (Nat.le_of_not_lt fun hij => h' (.inr ⟨hl, hij⟩))

theorem not_newer {a b : Score} {i j : Nat} (h : dfLt (dfKey a i) (dfKey b j) = false) : ¬ NewerOrHigher b j a i := by
  intro hn
  have h' : ¬ dfLt (dfKey a i) (dfKey b j) = true := by simp [h]
  exact h' (dfLt_iff.2 hn)

/-- A pop gives a step exactly if one waits.  It is the best one, the newest of the best; every so many times it
is the newest among those with the best kind of score.  The rest stays as it was, and the flag that says that
everything popped was shallow is updated. -/
theorem C57_pop (h : Reachable S p) :
    (p.pop S = .ok (none, { p with popCount := p.popCount + 1 }) ∧ ∀ id s sc, ¬ p.Waits id s sc) ∨
    ∃ e p', p.pop S = .ok (some (e, e.score.shallow), p') ∧ p.Waits e.id e.step e.score ∧
      (∀ id s sc, p'.Waits id s sc ↔ id ≠ e.id ∧ p.Waits id s sc) ∧
      p'.popCount = p.popCount + 1 ∧ p'.allShallow = (p.allShallow && e.score.shallow) ∧ p'.goal = p.goal ∧
      (¬ DepthFirst S p → ∀ id s sc, p.Waits id s sc → ¬ sc.Better e.score ∧ (e.score.Better sc ∨ id ≤ e.id)) ∧
      (DepthFirst S p → ∀ id s sc, p.Waits id s sc → ¬ NewerOrHigher sc id e.score e.id) := by
  rcases pop_spec (reachable_agrees h).1 with h' | ⟨e, hw, h1, h2⟩
  · exact .inl h'
  · refine .inr ⟨e, _, h1, hw, fun id s sc => waits_forget hw, rfl, rfl, rfl, fun hd id s sc ht => ?_, fun hd id s sc ht => ?_⟩
    · rcases h2 with ⟨_, h2⟩ | ⟨hd', _⟩
      · exact not_better (h2 id s sc ht)
      · exact absurd hd' hd
    · rcases h2 with ⟨hd', _⟩ | ⟨_, h2⟩
      · exact absurd hd hd'
      · exact not_newer (h2 id s sc ht)

/-- A shallow pop gives a step exactly if a shallow one waits; it is the best shallow one. -/
theorem C57_pop_shallow (h : Reachable S p) :
    (p.popShallow = .ok (none, p) ∧ ∀ id s sc, p.Waits id s sc → sc.shallow = false) ∨
    ∃ e p', p.popShallow = .ok (some e, p') ∧ p.Waits e.id e.step e.score ∧ e.score.shallow = true ∧
      (∀ id s sc, p'.Waits id s sc ↔ id ≠ e.id ∧ p.Waits id s sc) ∧
      p'.popCount = p.popCount ∧ p'.allShallow = p.allShallow ∧ p'.goal = p.goal ∧
      ∀ id s sc, p.Waits id s sc → sc.shallow = true → ¬ sc.Better e.score ∧ (e.score.Better sc ∨ id ≤ e.id) := by
  rcases popShallow_spec (reachable_agrees h).1 with h' | ⟨e, hw, hs, h1, h2⟩
  · exact .inl h'
  · exact .inr ⟨e, _, h1, hw, hs, fun id s sc => waits_forget hw, rfl, rfl, rfl,
      fun id s sc ht hsh => not_better (h2 id s sc ht hsh)⟩

/-- The prover may pop for verification exactly if everything popped so far was shallow and a shallow step
waits. -/
theorem C57_can_pop (h : Reachable S p) :
    p.canPopForVerification = true ↔ p.allShallow = true ∧ ∃ id s sc, p.Waits id s sc ∧ sc.shallow = true := by
  unfold PassiveSet.canPopForVerification
  rw [Bool.and_eq_true]
  refine and_congr_right fun _ => ?_
  rcases popShallow_spec (reachable_agrees h).1 with ⟨e, hn⟩ | ⟨e, hw, hs, h1, _⟩
  · have : p.nextShallow = none := by
      cases hx : p.nextShallow with
      | none => rfl
      | some x =>
        exfalso
        have hm := List.mem_filter.1 (setLast_mem hx)
        obtain ⟨id, s, sc, hw, rfl⟩ := ((reachable_agrees h).1.queue.mem x).1 hm.1
        have h1 := hn id s sc hw
        have h2 : sc.shallow = true := hm.2
        rw [h1] at h2; cases h2
    rw [this]
    constructor
    · intro h; cases h
    · rintro ⟨id, s, sc, hw, hs⟩; rw [hn id s sc hw] at hs; cases hs
  · refine ⟨fun _ => ⟨_, _, _, hw, hs⟩, fun _ => ?_⟩
    unfold PassiveSet.popShallow at h1
    cases hx : p.nextShallow with
    | some x => rfl
    | none => rw [hx] at h1; cases h1

/-- Pushing numbers the new steps after the old ones, which keep theirs; the negated goals among them are
remembered. -/
theorem C57_push (h : Reachable S p) {ss : List (Step R)} (e : p.push S ss = .ok p') :
    p'.steps = p.steps ++ ss.map some ∧ p'.goal = p.goal ++ ss.filter (·.negatedGoal) ∧
      p'.allShallow = p.allShallow ∧ p'.popCount = p.popCount := by
  obtain ⟨ha, hs⟩ := reachable_agrees h
  rcases push_spec ha hs ss with e' | ⟨q, e', _, _, h1, h2, h3, h4⟩
  · rw [e'] at e; cases e
  · rw [e'] at e; cases e; exact ⟨h1, h2, h3, h4⟩

/-- Every score is what the scorer gave the step, for some of the negated goals pushed until now; not for no goal
at all if the scorer looks at the goal and one is known. -/
theorem C57_scored (h : Reachable S p) {id : Nat} {s : Step R} {sc : Score} (hw : p.Waits id s sc) :
    ∃ g, g <+: p.goal ∧ sc = S.score g s ∧ (S.usesGoal = true → p.goal ≠ [] → g ≠ []) :=
  (reachable_agrees h).2 id s sc hw

/-! ### Contradictions -/

/-- A contradiction that is reported is between two waiting steps with opposite literals, about types that are
reported to be inhabited. -/
theorem C57_contradiction (h : Reachable S p) {a b : Step R} (e : p.getContradiction = .ok (some (a, b))) :
    (∃ i sc, p.Waits i a sc) ∧ (∃ j sc, p.Waits j b sc) ∧ Clash S a b := by
  unfold PassiveSet.getContradiction at e
  split at e
  · cases e
  · rename_i i j hij
    split at e
    · rename_i x y hx hy
      cases e
      exact ⟨⟨i, x.2, hx⟩, ⟨j, y.2, hy⟩, ((reachable_agrees h).1.clash i j hij).2.2 _ _ _ _ hx hy⟩
    · cases e
    · cases e

/-- Reporting never fails. -/
theorem C57_contradiction_safe (h : Reachable S p) : ∃ r, p.getContradiction = .ok r := by
  unfold PassiveSet.getContradiction
  split
  · exact ⟨_, rfl⟩
  · rename_i i j hij
    obtain ⟨h1, h2, _⟩ := (reachable_agrees h).1.clash i j hij
    rw [List.getElem?_eq_getElem h1, List.getElem?_eq_getElem h2]
    split <;> first | exact ⟨_, rfl⟩ | (rename_i x y; simp_all)

/-- If the reports about types are right, the two steps cannot both be true.  Missing: steps whose variables have
different types. -/
theorem C57_contradiction_partial (h : Reachable S p) (hr : ReportsHold S M) (hp : p.AllPlain S.K) {a b : Step R}
    (e : p.getContradiction = .ok (some (a, b))) (hc : a.clause.ctx = b.clause.ctx) : ¬ p.AllTrue M := by
  intro ht
  obtain ⟨⟨i, sa, ha⟩, ⟨j, sb, hb⟩, l, h1, h2, hi, _⟩ := C57_contradiction h e
  have va := (hp _ ⟨i, a, sa, ha, rfl⟩).vars
  obtain ⟨ρ, hρ⟩ := reports_model hr va hi (M.sym .type0)
  obtain ⟨x, hx, t1⟩ := ht _ ⟨i, a, sa, ha, rfl⟩ ρ hρ fun _ => M.sym .type0
  obtain ⟨y, hy, t2⟩ := ht _ ⟨j, b, sb, hb, rfl⟩ ρ (hc ▸ hρ) fun _ => M.sym .type0
  rw [h1, List.mem_singleton] at hx
  rw [h2, List.mem_singleton] at hy
  subst hx hy
  simp only [LitHolds] at t1 t2
  cases hp : x.positive <;> simp_all

/-! ### Simplifying -/

/-- Simplifying with a true clause of one literal turns well-typed clauses into well-typed ones and true ones into
true ones.  If every type is reported to be inhabited, nothing is lost: the new clauses are true exactly if the old
ones are.  Missing: types without elements, and variables for types. -/
theorem C57_simplify_partial (L : Lawful S.K M) (hN : NoEmpty S.K M) (h : Reachable S p)
    {order : List (Nat × Nat) → List (Nat × Nat)} (ho : ∀ l, (order l).Perm l) {act : Step R}
    (hl : act.clause.lits.length = 1) (hpa : PlainClause S.K act.clause) (hta : ClauseTrue M act.clause)
    (hp : p.AllPlain S.K) (e : p.simplify S order act = .ok p') :
    p'.AllPlain S.K ∧ (p.AllTrue M → p'.AllTrue M) ∧ (AllInhabited S → p'.AllTrue M → p.AllTrue M) := by
  obtain ⟨ha, hs⟩ := reachable_agrees h
  obtain ⟨h1, h2, h3⟩ := simplify_sound L hN ho hl hpa hta ha hs hp e
  exact ⟨h1, h2, h3⟩

/-- Simplifying does not touch the other steps: one that waits afterwards and has an old number waited before. -/
theorem C57_simplify_old (h : Reachable S p) {order : List (Nat × Nat) → List (Nat × Nat)}
    (ho : ∀ l, (order l).Perm l) {act : Step R} (hl : act.clause.lits.length = 1)
    (e : p.simplify S order act = .ok p') {id : Nat} {s : Step R} {sc : Score} (hw : p'.Waits id s sc)
    (hid : id < p.steps.length) : ∃ sc', p.Waits id s sc' := by
  obtain ⟨ha, hs⟩ := reachable_agrees h
  rcases simplify_kept (S := S) ho hl ha hs with e' | ⟨q, e', hk⟩
  · rw [e'] at e; cases e
  · rw [e'] at e; cases e
    exact hk.later.old id (by simpa [PassiveSet.steps] using hid) s sc hw

/-- The new steps are made from waiting ones by removing literals. -/
theorem C57_simplify_new (h : Reachable S p) {order : List (Nat × Nat) → List (Nat × Nat)}
    (ho : ∀ l, (order l).Perm l) {act : Step R} (hl : act.clause.lits.length = 1)
    (e : p.simplify S order act = .ok p') {id : Nat} {s : Step R} {sc : Score} (hw : p'.Waits id s sc)
    (hid : p.steps.length ≤ id) : ∃ o, Origin S p act o ∧ SimplifiedFrom S act o s := by
  obtain ⟨ha, hs⟩ := reachable_agrees h
  obtain ⟨l, hl⟩ := List.length_eq_one_iff.1 hl
  have hid : p.clauses.length ≤ id := by simpa [PassiveSet.steps] using hid
  rcases simplify_spec (S := S) ho hl ha hs with e' | ⟨p1, e1, ⟨_, e2⟩ | ⟨right, left, Γ, ids, p2, _, _, e2, e3⟩⟩
  · rw [e'] at e; cases e
  · rw [e2] at e; cases e
    exact (simplifyOne_from ho ha hs e1 fun id s sc h => .waits h).2 id s sc hw hid
  · rw [e3] at e; cases e
    obtain ⟨k1, n1⟩ := simplifyOne_from ho ha hs e1 (p0 := p) fun id s sc h => .waits h
    have old : ∀ id s sc, p1.Waits id s sc → Origin S p act s := by
      intro id s sc h
      by_cases hlt : id < p.clauses.length
      · obtain ⟨sc', h'⟩ := k1.later.old id hlt s sc h
        exact .waits h'
      · obtain ⟨o, h1, h2⟩ := n1 id s sc h (Nat.le_of_not_lt hlt)
        exact .simp h1 h2
    obtain ⟨k2, n2⟩ := simplifyOne_from ho k1.agrees k1.scored e2 old
    by_cases hlt : id < p1.clauses.length
    · obtain ⟨sc', h'⟩ := k2.later.old id hlt s sc hw
      exact n1 id s sc' h' hid
    · exact n2 id s sc hw (Nat.le_of_not_lt hlt)

/-- After simplifying, no old clause that waits has a literal that is an instance of the activated one, unless it
is an assumption and the literal has the same sign. -/
theorem C57_simplified (h : Reachable S p) {order : List (Nat × Nat) → List (Nat × Nat)}
    (ho : ∀ l, (order l).Perm l) {act : Step R} {l : Literal} (hl : act.clause.lits = [l])
    (e : p.simplify S order act = .ok p') {id : Nat} {s : Step R} {sc : Score} (hw : p'.Waits id s sc)
    (hid : id < p.steps.length) {i : Nat} {lit : Literal} (hi : s.clause.lits[i]? = some lit)
    {A B : Term} {φ : Nat → Term} {m : VMap} (hΓ : ContextOk act.clause.ctx) (hΔ : ContextOk s.clause.ctx)
    (hA : HasType S.K act.clause.ctx l.left A) (hB : HasType S.K act.clause.ctx l.right B) (kA : isKind A = false)
    (hφ : WellTypedSubst S.K φ act.clause.ctx s.clause.ctx) (el : lit.left = sub φ bid l.left)
    (er : lit.right = sub φ bid l.right) (al : HeadsAtomic l.left) (ar : HeadsAtomic l.right)
    (al' : HeadsAtomic lit.left) (ar' : HeadsAtomic lit.right)
    (hm : VMap.andThen (VMap.matchTerms S.K act.clause.ctx s.clause.ctx [] l.left lit.left)
      (fun m => VMap.matchTerms S.K act.clause.ctx s.clause.ctx m l.right lit.right) = some (some m)) :
    s.assumption = true ∧ lit.positive = l.positive := by
  obtain ⟨ha, hs⟩ := reachable_agrees h
  have hid : id < p.clauses.length := by simpa [PassiveSet.steps] using hid
  have fin : ∀ p1, p.simplifyOne S order act ⟨l.left, l.right, l.positive, act.clause.ctx, none⟩ = .ok p1 →
      ∀ sc, p1.Waits id s sc → s.assumption = true ∧ lit.positive = l.positive := by
    intro p1 e1 sc hw
    refine simplifyOne_left ho ha hs e1 hw hid hi hm fun sc hw' hits hf => ?_
    obtain ⟨es, h1, h2⟩ := ha.hit hw' hi
    obtain ⟨found, hf', hv⟩ := C29_lookup_literal h1 h2 hΓ hΔ hA hB kA hφ el er al ar al' ar'
    dsimp only at hf
    rw [hf'] at hf
    cases hf
    exact hv
  rcases simplify_spec (S := S) ho hl ha hs with e' | ⟨p1, e1, ⟨_, e2⟩ | ⟨right, left, Γ, ids, p2, _, _, e2, e3⟩⟩
  · rw [e'] at e; cases e
  · rw [e2] at e; cases e
    exact fin _ e1 sc hw
  · rw [e3] at e; cases e
    rcases simplifyOne_spec (S := S) ho (act := act) (f := ⟨l.left, l.right, l.positive, act.clause.ctx, none⟩) ha hs with
      e4 | ⟨_, _, _, q, e4, _, _, _, k1, _⟩
    · rw [e4] at e1; cases e1
    · rw [e4] at e1; cases e1
      rcases simplifyOne_spec (S := S) ho (act := act) (f := ⟨right, left, l.positive, Γ, some ids⟩) k1.agrees k1.scored with
        e5 | ⟨_, _, _, q', e5, _, _, _, k2, _⟩
      · rw [e5] at e2; cases e2
      · rw [e5] at e2; cases e2
        obtain ⟨sc', hw'⟩ := k2.later.old id (Nat.lt_of_lt_of_le hid k1.later.len) s sc hw
        exact fin _ e4 sc' hw'

/-- The same with the sides of the activated literal exchanged, which happens if they are not ordered. -/
theorem C57_simplified_reversed (h : Reachable S p) {order : List (Nat × Nat) → List (Nat × Nat)}
    (ho : ∀ l, (order l).Perm l) {act : Step R} {l : Literal} (hl : act.clause.lits = [l])
    (e : p.simplify S order act = .ok p') {right left : Term} {Γ : LCtx} {ids : List Nat}
    (hk : Pdt.strictKbo l = some false) (hn : Pdt.normalizedReversed l act.clause.ctx = some (right, left, Γ, ids))
    {id : Nat} {s : Step R} {sc : Score} (hw : p'.Waits id s sc)
    (hid : id < p.steps.length) {i : Nat} {lit : Literal} (hi : s.clause.lits[i]? = some lit)
    {A B : Term} {φ : Nat → Term} {m : VMap} (hΓ : ContextOk Γ) (hΔ : ContextOk s.clause.ctx)
    (hA : HasType S.K Γ right A) (hB : HasType S.K Γ left B) (kA : isKind A = false)
    (hφ : WellTypedSubst S.K φ Γ s.clause.ctx) (el : lit.left = sub φ bid right)
    (er : lit.right = sub φ bid left) (al : HeadsAtomic right) (ar : HeadsAtomic left)
    (al' : HeadsAtomic lit.left) (ar' : HeadsAtomic lit.right)
    (hm : VMap.andThen (VMap.matchTerms S.K Γ s.clause.ctx [] right lit.left)
      (fun m => VMap.matchTerms S.K Γ s.clause.ctx m left lit.right) = some (some m)) :
    s.assumption = true ∧ lit.positive = l.positive := by
  obtain ⟨ha, hs⟩ := reachable_agrees h
  have hid : id < p.clauses.length := by simpa [PassiveSet.steps] using hid
  rcases simplify_spec (S := S) ho hl ha hs with e' | ⟨p1, e1, ⟨hk', _⟩ | ⟨right', left', Γ', ids', p2, _, hn', e2, e3⟩⟩
  · rw [e'] at e; cases e
  · rw [hk'] at hk; cases hk
  · rw [e3] at e; cases e
    rw [hn'] at hn; cases hn
    obtain ⟨k1, _⟩ := simplifyOne_from ho ha hs e1 (p0 := p) fun id s sc h => .waits h
    refine simplifyOne_left ho k1.agrees k1.scored e2 hw (Nat.lt_of_lt_of_le hid k1.later.len) hi hm
      fun sc hw' hits hf => ?_
    obtain ⟨es, h1, h2⟩ := k1.agrees.hit hw' hi
    obtain ⟨found, hf', hv⟩ := C29_lookup_literal h1 h2 hΓ hΔ hA hB kA hφ el er al ar al' ar'
    dsimp only at hf
    rw [hf'] at hf
    cases hf
    exact hv

/-- Over a whole run: if all the clauses that are pushed and all that are used to simplify are well typed and
true, so are all that wait and all that are popped. -/
theorem C57_run_partial (L : Lawful S.K M) (hN : NoEmpty S.K M) {os : List (Passive.Op R)} (ho : ∀ o ∈ os, Passive.Op.Ok o)
    (hu : ∀ o ∈ os, ∀ c, o.Uses c → PlainClause S.K c ∧ ClauseTrue M c) {es : List (Entry R)}
    (e : (PassiveSet.new S).run S os = .ok (p, es)) :
    (p.AllPlain S.K ∧ p.AllTrue M) ∧ ∀ x ∈ es, PlainClause S.K x.step.clause ∧ ClauseTrue M x.step.clause := by
  have none_waits : ∀ c, ¬ (PassiveSet.new S).Has c := by
    rintro c ⟨id, s, sc, hw, _⟩
    simp [PassiveSet.Waits, PassiveSet.new] at hw
  obtain ⟨h1, h2, h3⟩ := run_sound L hN os agrees_new scored_new (fun c hc => absurd hc (none_waits c))
    (fun c hc => absurd hc (none_waits c)) ho hu e
  exact ⟨⟨h1, h2⟩, h3⟩

/-! ### Examples -/

namespace PassiveDemo
open Demo CheckerExample

def history : List (Passive.Op Nat) :=
  [.push [step c2, step c5, step c4], .pop, .simplify id (step c1), .pop]

/-- `even(add(zero, zero))` comes first, as it has one literal.  Then `even(zero)` turns
`not even(zero) or even(add(zero, zero))` into `even(add(zero, zero))` again, which is the newest. -/
theorem history_results : results history = some ([(2, c4), (3, c4)], [some c2, none, none, none]) := by
  decide +kernel

theorem plain_step {cs : List Clause} (h : ∀ c ∈ cs, PlainClause Demo.K c ∧ ClauseTrue Full c) :
    ∀ c, (Passive.Op.push (cs.map step)).Uses c → PlainClause Demo.K c ∧ ClauseTrue Full c := by
  rintro c ⟨s, hs, rfl⟩
  obtain ⟨c, hc, rfl⟩ := List.mem_map.1 hs
  exact h c hc

theorem full4 : ClauseTrue Full c4 := fun ρ _ β => ⟨_, List.mem_cons_self, by
  show Full.app (Full.sym (.global 0 2)) (Full.app (Full.app (Full.sym (.global 0 3)) (∅ : ZFSet)) (∅ : ZFSet)) = SetModel.tt
  rw [add_full ZFSet.omega_zero ZFSet.omega_zero]
  exact (even_full ZFSet.omega_zero).trans (SetModel.ofProp_tt.2 rfl)⟩

theorem history_ok : ∀ o ∈ history, Passive.Op.Ok o := by
  intro o ho
  simp only [history, List.mem_cons, List.not_mem_nil, or_false] at ho
  rcases ho with rfl | rfl | rfl | rfl
  · trivial
  · trivial
  · exact ⟨rfl, fun _ => .refl _⟩
  · trivial

theorem history_uses : ∀ o ∈ history, ∀ c, o.Uses c → PlainClause Demo.K c ∧ ClauseTrue Full c := by
  intro o ho
  simp only [history, List.mem_cons, List.not_mem_nil, or_false] at ho
  rcases ho with rfl | rfl | rfl | rfl
  · refine plain_step (cs := [c2, c5, c4]) fun c hc => ?_
    simp only [List.mem_cons, List.not_mem_nil, or_false] at hc
    rcases hc with rfl | rfl | rfl
    · exact ⟨plain2, full2⟩
    · exact ⟨plain5, full5⟩
    · exact ⟨plain4, full4⟩
  · intro c h; cases h
  · rintro c rfl; exact ⟨plain1, full1⟩
  · intro c h; cases h

/-- The hypotheses of `C57_run_partial` can be met, by a run with a simplification, which pops two steps. -/
example : ∃ p es, (PassiveSet.new setup).run setup history = .ok (p, es) ∧ es.length = 2 ∧ p.AllTrue Full ∧
    ∀ x ∈ es, ClauseTrue Full x.step.clause := by
  have h := history_results
  unfold results at h
  split at h
  · rename_i p es e
    obtain ⟨h1, h2⟩ := C57_run_partial (S := setup) full_lawful full_noEmpty history_ok history_uses e
    refine ⟨p, es, e, ?_, h1.2, fun x hx => (h2 x hx).2⟩
    have h := congrArg (Option.map fun r => r.1.length) h
    simpa using h
  · cases h

/-- A state with a contradiction: `even(zero)` and `not even(zero)` wait. -/
example : ∃ p a b, Reachable setup p ∧ p.getContradiction = .ok (some (a, b)) ∧ a.clause.ctx = b.clause.ctx := by
  have h : (match (PassiveSet.new setup).run setup [.push [step c1, step c3]] with
    | .ok (p, _) => (match p.getContradiction with
      | .ok (some (a, b)) => decide (a.clause.ctx = b.clause.ctx)
      | _ => false)
    | .error _ => false) = true := by decide +kernel
  split at h
  · rename_i p es e
    split at h
    · rename_i a b e'
      refine ⟨p, a, b, ⟨_, es, fun o ho => ?_, e⟩, e', of_decide_eq_true h⟩
      rw [List.mem_singleton.1 ho]; trivial
    · cases h
  · cases h

/-! #### Empty types -/

/-- `exists(y: void) { y = x0 }`. -/
def some7 : Term := .ex void (.eq void (.bvar 0) (.fvar 0))
/-- `not exists(y: void) { y = x0 }`. -/
def not7 : Clause := ⟨[⟨false, some7, .tt⟩], [some void]⟩
/-- `exists(y: void) { y = x0 } or suc(zero) = zero`. -/
def or7 : Clause := ⟨[⟨true, some7, .tt⟩, ⟨true, .app suc zero, zero⟩], [some void]⟩
/-- `suc(zero) = zero`. -/
def bad : Clause := ⟨[⟨true, .app suc zero, zero⟩], []⟩

theorem plain_not7 : PlainClause Demo.K not7 := plain_lit plain7 (List.mem_singleton_self _) false
theorem plain_or7 : PlainClause Demo.K or7 := plainClause_iff.2 ⟨plain7.vars, fun l hl => by
  simp only [or7, List.mem_cons, List.not_mem_nil, or_false] at hl
  rcases hl with rfl | rfl
  · exact plain7.neat (List.mem_singleton_self _)
  · exact neat_lit s_nat (s_suc s_zero) s_zero rfl rfl⟩

theorem not_bad : ¬ ClauseTrue Demo.M bad := by
  intro h
  obtain ⟨l, hl, hh⟩ := h (fun _ => (∅ : ZFSet)) (models_nil _) (fun _ => (∅ : ZFSet))
  rw [List.mem_singleton.1 hl] at hh
  have h1 : Demo.M.app (Demo.M.sym (.global 0 1)) (∅ : ZFSet) = (∅ : ZFSet) := hh
  have h2 : Demo.M.app (Demo.M.sym (.global 0 1)) (∅ : ZFSet) = insert (∅ : ZFSet) (∅ : ZFSet) :=
    SetModel.app_lam ZFSet.omega_zero
  rw [h2] at h1
  have : (∅ : ZFSet) ∈ (∅ : ZFSet) := by
    have h3 := ZFSet.mem_insert (∅ : ZFSet) (∅ : ZFSet)
    rwa [h1] at h3
  exact ZFSet.notMem_empty _ this

theorem body7 {Γ : LCtx} {Δ : BCtx} (h : Γ.get 0 = some void) :
    STyped Demo.K Γ (BCtx.cons void Δ) (.eq void (.bvar 0) (.fvar 0)) (.ty .boolTy) :=
  .appVal (B := .boolTy) (.appVal (B := .pi void .boolTy) (.appTy (B := .pi (.bvar 0) (.pi (.bvar 1) .boolTy))
    (s_sym rfl rfl) s_void rfl) (.bvar rfl) rfl rfl) (.fvar h rfl) rfl rfl

theorem true_c7 : ClauseTrue Full c7 := by
  intro ρ hρ β
  refine ⟨_, List.mem_singleton_self _, ?_⟩
  show Tr Full ρ β some7
  rw [some7, tr_ex full_lawful hρ (body7 rfl) bmodels_nil]
  refine ⟨ρ 0, hρ 0 void rfl β, ?_⟩
  rw [tr_eq full_lawful hρ (body7 rfl) (BModels.cons bmodels_nil (hρ 0 void rfl β))]
  rfl

theorem false_not7 : ¬ ClauseTrue Full not7 := by
  intro h
  have hρ : Models Full [some void] (fun _ => (∅ : ZFSet)) := by
    intro i T h β
    match i, h with
    | 0, h => cases h; exact ZFSet.omega_zero
  obtain ⟨a, ha, h1⟩ := h _ hρ (fun _ => (∅ : ZFSet))
  obtain ⟨b, hb, h2⟩ := true_c7 _ hρ (fun _ => (∅ : ZFSet))
  rw [List.mem_singleton.1 ha] at h1
  rw [List.mem_singleton.1 hb] at h2
  exact h1 h2

/-- What waits after pushing one clause and simplifying with another. -/
def simplified (c a : Clause) : Option (List (Option Clause)) :=
  match (PassiveSet.new setup).push setup [step c] with
  | .ok p => match p.simplify setup id (step a) with
    | .ok p' => some (p'.steps.map (Option.map (·.clause)))
    | .error _ => none
  | .error _ => none

theorem simplified_spec {c a : Clause} {r : List (Option Clause)} (h : simplified c a = some r) :
    ∃ p p', Reachable setup p ∧ (∀ x, p.Has x ↔ x = c) ∧ p.simplify setup id (step a) = .ok p' ∧
      ∀ x, p'.Has x ↔ some x ∈ r := by
  unfold simplified at h
  split at h
  · rename_i p e
    split at h
    · rename_i p' e'
      cases h
      have h0 : Reachable setup (PassiveSet.new setup) := ⟨[], [], by simp, rfl⟩
      have hr : Reachable setup p := by
        refine ⟨[.push [step c]], [], fun o ho => ?_, ?_⟩
        · rw [List.mem_singleton.1 ho]; trivial
        · simp only [PassiveSet.run, PassiveSet.op, e, Bind.bind, Except.bind]; rfl
      have hs : p.steps = [some (step c)] := (C57_push h0 e).1
      refine ⟨p, p', hr, fun x => ?_, e', fun x => ?_⟩
      · rw [has_steps, hs]
        constructor
        · rintro ⟨s, hs, rfl⟩
          cases List.mem_singleton.1 hs; rfl
        · rintro rfl; exact ⟨_, List.mem_singleton_self _, rfl⟩
      · rw [has_steps, List.mem_map]
        constructor
        · rintro ⟨s, hs, rfl⟩; exact ⟨_, hs, rfl⟩
        · rintro ⟨o, ho, e⟩
          cases o with
          | none => cases e
          | some s => cases e; exact ⟨s, ho, rfl⟩
    · cases h
  · cases h

/-- The hypotheses of `C57_simplify_partial` can be met: `even(zero)` turns
`not even(zero) or even(add(zero, zero))` into `even(add(zero, zero))`. -/
example : ∃ p p', Reachable setup p ∧ p.simplify setup id (step c1) = .ok p' ∧ p.Has c5 ∧ ¬ p'.Has c5 ∧ p'.Has c4 ∧
    p'.AllTrue Full := by
  obtain ⟨p, p', hr, h1, e, h2⟩ := simplified_spec (c := c5) (a := c1) (r := [none, some c4]) (by decide +kernel)
  refine ⟨p, p', hr, e, (h1 _).2 rfl, fun h => ?_, (h2 _).2 (by simp), ?_⟩
  · have := (h2 _).1 h
    revert this; decide +kernel
  · refine (C57_simplify_partial (S := setup) (act := step c1) full_lawful full_noEmpty hr (fun _ => .refl _) rfl plain1 full1 (fun c hc => ?_) e).2.1
      fun c hc => ?_
    · rw [(h1 c).1 hc]; exact plain5
    · rw [(h1 c).1 hc]; exact full5

/-- `even(x0)`. -/
def always : Clause := ⟨[⟨true, .app even (.fvar 0), .tt⟩], [some nat]⟩

/-- Does the assumption stay when a clause is activated? -/
def stays (c a : Clause) : Bool :=
  match (PassiveSet.new setup).run setup [.push [⟨c, true, false, 0⟩]] with
  | .ok (p, _) => decide (0 < p.steps.length) && (match p.simplify setup id (step a) with
    | .ok p' => decide (p'.clauses.map (Option.map fun x => (x.1.clause, x.1.assumption, x.1.negatedGoal, x.1.info)) =
        [some (c, true, false, 0)])
    | .error _ => false)
  | .error _ => false

theorem stays_spec {c a : Clause} (h : stays c a = true) : ∃ (p p' : PassiveSet Nat) (sc : Score), Reachable setup p ∧
    p.simplify setup id (step a) = .ok p' ∧ p'.Waits 0 ⟨c, true, false, 0⟩ sc ∧ 0 < p.steps.length := by
  unfold stays at h
  split at h
  · rename_i p es e
    rw [Bool.and_eq_true] at h
    obtain ⟨h0, h⟩ := h
    split at h
    · rename_i p' e'
      have h := of_decide_eq_true h
      have h' := congrArg (·[0]?) h
      simp only [List.getElem?_map, List.getElem?_cons_zero, Option.map_eq_some_iff] at h'
      obtain ⟨o, ho, ⟨⟨c, a, g, n⟩, sc⟩, rfl, hx⟩ := h'
      cases hx
      refine ⟨p, p', sc, ⟨_, es, fun o ho => ?_, e⟩, e', ho, of_decide_eq_true h0⟩
      rw [List.mem_singleton.1 ho]; trivial
    · cases h
  · cases h

/-- The hypotheses of `C57_simplified` can be met: the assumption `even(zero)` stays when `even(x0)` is activated. -/
example : ∃ (p p' : PassiveSet Nat) (sc : Score), Reachable setup p ∧ p.simplify setup id (step always) = .ok p' ∧
    p'.Waits 0 ⟨c1, true, false, 0⟩ sc ∧ 0 < p.steps.length ∧
    VMap.andThen (VMap.matchTerms Demo.K always.ctx [] [] (.app even (.fvar 0)) (.app even zero))
      (fun m => VMap.matchTerms Demo.K always.ctx [] m .tt .tt) = some (some [some zero]) ∧
    ContextOk always.ctx ∧ WellTypedSubst Demo.K (fun _ => zero) always.ctx [] := by
  obtain ⟨p, p', sc, h1, h2, h3, h4⟩ := stays_spec (c := c1) (a := always) (by decide +kernel)
  refine ⟨p, p', sc, h1, h2, h3, h4, by decide +kernel, fun i T hT => ?_, fun i T hT => ?_, fun _ => rfl⟩
  · match i, hT with
    | 0, hT => cases hT; exact ⟨rfl, fun j hj => by simp [hasVar, atoms] at hj⟩
  · match i, hT with
    | 0, hT => cases hT; exact Demo.s_zero.typed

/-- `add(x0, x1) = add(x1, x0)`. -/
def comm : Literal := ⟨true, .app (.app add (.fvar 0)) (.fvar 1), .app (.app add (.fvar 1)) (.fvar 0)⟩

/-- The hypotheses of `C57_simplified_reversed` can be met: the assumption `add(zero, suc(zero)) = add(suc(zero), zero)`
stays when `add(x0, x1) = add(x1, x0)` is activated, whose sides are not ordered. -/
example : ∃ (p p' : PassiveSet Nat) (sc : Score) (c : Clause), Reachable setup p ∧
    p.simplify setup id (step ⟨[comm], [some nat, some nat]⟩) = .ok p' ∧ p'.Waits 0 ⟨c, true, false, 0⟩ sc ∧
    0 < p.steps.length ∧ Pdt.strictKbo comm = some false ∧
    Pdt.normalizedReversed comm [some nat, some nat] = some (comm.left, comm.right, [some nat, some nat], [1, 0]) ∧
    ∃ m, VMap.andThen (VMap.matchTerms Demo.K [some nat, some nat] c.ctx [] comm.left (.app (.app add zero) (.app suc zero)))
      (fun m => VMap.matchTerms Demo.K [some nat, some nat] c.ctx m comm.right (.app (.app add (.app suc zero)) zero)) =
        some (some m) ∧ c.lits = [⟨true, .app (.app add zero) (.app suc zero), .app (.app add (.app suc zero)) zero⟩] := by
  obtain ⟨p, p', sc, h1, h2, h3, h4⟩ := stays_spec
    (c := ⟨[⟨true, .app (.app add zero) (.app suc zero), .app (.app add (.app suc zero)) zero⟩], []⟩)
    (a := ⟨[comm], [some nat, some nat]⟩) (by decide +kernel)
  exact ⟨p, p', sc, _, h1, h2, h3, h4, by decide +kernel, by decide +kernel, [some zero, some (.app suc zero)], by decide +kernel, rfl⟩

end PassiveDemo

/-- With empty types, simplifying does not keep the clauses true: `not exists(y: void) { y = x0 }` turns
`exists(y: void) { y = x0 } or suc(zero) = zero` into `suc(zero) = zero`. -/
theorem C57_disagreement_empty_type : ∃ (S : Setup Nat) (p p' : PassiveSet Nat) (act : Step Nat),
    S.K = Demo.K ∧ Reachable S p ∧ act.clause.lits.length = 1 ∧ PlainClause Demo.K act.clause ∧
    ClauseTrue Demo.M act.clause ∧ Lawful Demo.K Demo.M ∧ p.AllPlain Demo.K ∧ p.AllTrue Demo.M ∧
    p.simplify S id act = .ok p' ∧ ¬ p'.AllTrue Demo.M := by
  open PassiveDemo in
  obtain ⟨p, p', hr, h1, e, h2⟩ := simplified_spec (c := or7) (a := not7) (r := [none, some bad]) (by decide +kernel)
  refine ⟨setup, p, p', step not7, rfl, hr, rfl, plain_not7, fun ρ hρ => absurd hρ (CheckerExample.no_void ρ), Demo.lawful,
    fun c hc => ?_, fun c hc => ?_, e, fun ht => not_bad (ht _ ((h2 bad).2 (by simp)))⟩
  · rw [(h1 c).1 hc]; exact plain_or7
  · rw [(h1 c).1 hc]; exact fun ρ hρ => absurd hρ (CheckerExample.no_void ρ)

/-- A false clause can be dropped: if its contradiction with the activated clause is about a type that is not known
to be inhabited, the clause is removed and nothing replaces it. -/
theorem C57_disagreement_dropped : ∃ (S : Setup Nat) (p p' : PassiveSet Nat) (act : Step Nat),
    S.K = Demo.K ∧ Reachable S p ∧ act.clause.lits.length = 1 ∧ PlainClause Demo.K act.clause ∧
    ClauseTrue Demo.Full act.clause ∧ Lawful Demo.K Demo.Full ∧ NoEmpty Demo.K Demo.Full ∧ p.AllPlain Demo.K ∧
    p.simplify S id act = .ok p' ∧ p'.AllTrue Demo.Full ∧ ¬ p.AllTrue Demo.Full := by
  open PassiveDemo in
  obtain ⟨p, p', hr, h1, e, h2⟩ := simplified_spec (c := not7) (a := CheckerExample.c7) (r := [none]) (by decide +kernel)
  refine ⟨setup, p, p', step CheckerExample.c7, rfl, hr, rfl, CheckerExample.plain7, true_c7, Demo.full_lawful,
    Demo.full_noEmpty, fun c hc => ?_, e, fun c hc => ?_, fun ht => false_not7 (ht _ ((h1 _).2 rfl))⟩
  · rw [(h1 c).1 hc]; exact plain_not7
  · have := (h2 c).1 hc
    simp at this

end Acorn
