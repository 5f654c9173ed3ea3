/-
C12: unification produces a common instance.
-/
import Verif.Lemmas.Unifier
import Verif.Spec.DemoSimple
namespace Acorn

open Spec Term

universe u

/-- After a successful unification, applying the unifier to the two terms gives the same term, up to the
sides of equality terms and typeclasses standing for the sort of types.  The unifier may have any
history. -/
theorem C12_common_instance {K : KCtx} {st st' st1 st2 : UState} {n k l s1 s2 : Nat} {t1 t2 u1 u2 : Term}
    (hr : UReach K st) (e : Unifier.unify K n st s1 t1 s2 t2 = some (true, st'))
    (a1 : Unifier.apply k st' s1 t1 = some (u1, st1)) (a2 : Unifier.apply l st1 s2 t2 = some (u2, st2)) :
    Unified u1 u2 := by
  obtain ⟨-, q⟩ := (Unifier.correct K n).unify (Unifier.solved_of_reach hr) e
  obtain ⟨rfl, rfl⟩ := Unifier.apply_covered (q rfl).cov1 a1
  obtain ⟨rfl, rfl⟩ := Unifier.apply_covered (q rfl).cov2 a2
  exact (q rfl).unified

/-- Applying the unifier after a successful unification does return, and it creates no new variables: the
instances are determined. -/
theorem C12_instance_exists {K : KCtx} {st st' : UState} {n k s1 s2 : Nat} {t1 t2 : Term}
    (hr : UReach K st) (e : Unifier.unify K n st s1 t1 s2 t2 = some (true, st'))
    (h1 : t1.size ≤ k) (h2 : t2.size ≤ k) :
    ∃ u1 u2, Unifier.apply k st' s1 t1 = some (u1, st') ∧ Unifier.apply k st' s2 t2 = some (u2, st') ∧
      Unified u1 u2 := by
  obtain ⟨-, q⟩ := (Unifier.correct K n).unify (Unifier.solved_of_reach hr) e
  exact ⟨_, _, Unifier.apply_total (q rfl).cov1 h1, Unifier.apply_total (q rfl).cov2 h2, (q rfl).unified⟩

/-- The two terms keep a common instance, whatever is done with the unifier later, including unifications
that fail half way. -/
theorem C12_kept {K : KCtx} {st st' st'' : UState} {n k s1 s2 : Nat} {t1 t2 : Term}
    (hr : UReach K st) (e : Unifier.unify K n st s1 t1 s2 t2 = some (true, st')) (hl : ULater K st' st'')
    (h1 : t1.size ≤ k) (h2 : t2.size ≤ k) :
    ∃ u1 u2, Unifier.apply k st'' s1 t1 = some (u1, st'') ∧ Unifier.apply k st'' s2 t2 = some (u2, st'') ∧
      Unified u1 u2 := by
  obtain ⟨p, q⟩ := (Unifier.correct K n).unify (Unifier.solved_of_reach hr) e
  obtain ⟨-, g⟩ := Unifier.later_spec p.solved hl
  have := g.same (q rfl)
  exact ⟨_, _, Unifier.apply_total this.cov1 h1, Unifier.apply_total this.cov2 h2, this.unified⟩

/-- No variable is ever bound to a term that contains it: the terms that variables of any scope are bound
to contain no bound output variable at all.  They have no dangling bound variables either. -/
theorem C12_no_cycle {K : KCtx} {st : UState} (hr : UReach K st) {s i : Nat} {t : Term}
    (e : (st.maps s).get i = some t) :
    t.escapes = false ∧ (∀ j, t.hasVar j = true → (st.maps 0).get j = none) ∧
      (s = 0 → t.hasVar i = false) := by
  obtain ⟨h1, h2⟩ := Unifier.solved_of_reach hr s i t e
  refine ⟨h1, h2, ?_⟩
  rintro rfl
  cases hv : t.hasVar i with
  | false => rfl
  | true => rw [h2 i hv] at e; cases e

/-- Without equality terms to swap and sorts to confuse, the two instances are literally the same. -/
theorem C12_same_term {s t : Term} (h : Unified s t) (hs : ∀ a ∈ s.atoms, a ≠ .sym .eq_ ∧ a ≠ .sym .type0 ∧
    ∀ m l, a ≠ .sym (.typeclass m l)) : s = t := by
  induction h with
  | atom a => rfl
  | classType m l => exact absurd rfl ((hs _ (by simp [atoms])).2.2 m l)
  | typeClass m l => exact absurd rfl (hs _ (by simp [atoms])).2.1
  | app _ _ h1 h2 =>
    rw [h1 (fun a ha => hs a (by simp [atoms, ha])), h2 (fun a ha => hs a (by simp [atoms, ha]))]
  | bind c _ _ h1 h2 =>
    rw [h1 (fun a ha => hs a (by simp [atoms, ha])), h2 (fun a ha => hs a (by simp [atoms, ha]))]
  | swap _ _ _ h1 h2 h3 => exact absurd rfl (hs (.sym .eq_) (by simp [atoms])).1

/-- The two instances mean the same: if one of them is well typed, so is the other one, with the same
type, and they have the same value. -/
theorem C12_same_value {K : KCtx} {M : Interp.{u}} (L : Lawful K M) {st st' : UState} {n k s1 s2 : Nat}
    {t1 t2 u1 u2 T : Term} (hr : UReach K st) (e : Unifier.unify K n st s1 t1 s2 t2 = some (true, st'))
    (a1 : Unifier.apply k st' s1 t1 = some (u1, st')) (a2 : Unifier.apply k st' s2 t2 = some (u2, st'))
    {Γ : LCtx} (h : SHasType K Γ u1 T)
    (hs : ∀ a ∈ u1.atoms, a ≠ .sym .type0 ∧ ∀ m l, a ≠ .sym (.typeclass m l))
    {ρ : Nat → M.D} (hρ : Models M Γ ρ) (β : Nat → M.D) :
    SHasType K Γ u2 T ∧ eval M ρ β u2 = eval M ρ β u1 := by
  have hu := C12_common_instance hr e a1 a2
  have h1 := (EqSwap.keeps L hρ (hu.eqSwap hs) BCtx.nil _ h).1
  exact ⟨h1.typed, h1.eval β bmodels_nil⟩

/-- Unifying literals makes their sides equal, in the order that was asked for. -/
theorem C12_literals {K : KCtx} {st st' : UState} {n k s1 s2 : Nat} {l1 l2 : Literal} {flipped : Bool}
    (hr : UReach K st) (e : Unifier.unifyLits K n st s1 l1 s2 l2 flipped = some (true, st'))
    (hk : l1.left.size + l1.right.size + l2.left.size + l2.right.size ≤ k) :
    ∃ a b c d, Unifier.apply k st' s1 l1.left = some (a, st') ∧
      Unifier.apply k st' s1 l1.right = some (b, st') ∧
      Unifier.apply k st' s2 l2.left = some (c, st') ∧ Unifier.apply k st' s2 l2.right = some (d, st') ∧
      if flipped then Unified a d ∧ Unified b c else Unified a c ∧ Unified b d := by
  have hs := Unifier.solved_of_reach hr
  unfold Unifier.unifyLits at e
  split at e
  · rename_i hf
    rcases Unifier.andThen_some e with ⟨-, h⟩ | ⟨st1, e1, e2⟩
    · cases h
    · obtain ⟨p1, q1⟩ := (Unifier.correct K n).unify hs e1
      obtain ⟨p2, q2⟩ := (Unifier.correct K n).unify p1.solved e2
      have r1 := (q1 rfl).mono p2.refines
      have r2 := q2 rfl
      refine ⟨_, _, _, _, Unifier.apply_total r2.cov1 (by omega), Unifier.apply_total r1.cov1 (by omega),
        Unifier.apply_total r1.cov2 (by omega), Unifier.apply_total r2.cov2 (by omega), ?_⟩
      rw [if_pos hf]; exact ⟨r2.unified, r1.unified⟩
  · rename_i hf
    rcases Unifier.andThen_some e with ⟨-, h⟩ | ⟨st1, e1, e2⟩
    · cases h
    · obtain ⟨p1, q1⟩ := (Unifier.correct K n).unify hs e1
      obtain ⟨p2, q2⟩ := (Unifier.correct K n).unify p1.solved e2
      have r1 := (q1 rfl).mono p2.refines
      have r2 := q2 rfl
      refine ⟨_, _, _, _, Unifier.apply_total r1.cov1 (by omega), Unifier.apply_total r2.cov1 (by omega),
        Unifier.apply_total r1.cov2 (by omega), Unifier.apply_total r2.cov2 (by omega), ?_⟩
      rw [if_neg hf]; exact ⟨r1.unified, r2.unified⟩

/-- Instance matching: on success the second term is the instance of the pattern, and no variable of the
output scope was bound, so the variables of the second term stay rigid. -/
theorem C12_match_instance {K : KCtx} {st st' : UState} {n k s1 s2 : Nat} {t1 t2 : Term} (hr : UReach K st)
    (hs : s1 ≠ 0) (e : Unifier.matchInst K n st s1 t1 s2 t2 = some (true, st'))
    (h1 : t1.size ≤ k) (h2 : t2.size ≤ k) :
    (∃ u1 u2, Unifier.apply k st' s1 t1 = some (u1, st') ∧ Unifier.apply k st' s2 t2 = some (u2, st') ∧
      InstanceOf u1 u2) ∧ ∀ j, (st'.maps 0).get j = (st.maps 0).get j := by
  obtain ⟨p, q⟩ := (Unifier.mcorrect K n).inst (Unifier.solved_of_reach hr) hs e
  exact ⟨⟨_, _, Unifier.apply_total (q rfl).cov1 h1, Unifier.apply_total (q rfl).cov2 h2, (q rfl).inst⟩,
    p.rigid⟩

/-- A unifier for two clauses over `nat`. -/
def demoUnifier : UState := Unifier.init fun s =>
  if s = 1 ∨ s = 2 then some [some Demo.nat, some Demo.nat] else none

/-- `add(x0, suc(x1))` and `add(suc(y0), y0)` have the common instance `add(suc(suc(z)), suc(z))`. -/
example : UReach Demo.K demoUnifier ∧ ∃ st', Unifier.unify Demo.K 20 demoUnifier 1
    (.app (.app Demo.add (.fvar 0)) (.app Demo.suc (.fvar 1))) 2
    (.app (.app Demo.add (.app Demo.suc (.fvar 0))) (.fvar 0)) = some (true, st') ∧
    (st'.maps 1).apply (.app (.app Demo.add (.fvar 0)) (.app Demo.suc (.fvar 1))) =
      .app (.app Demo.add (.app Demo.suc (.app Demo.suc (.fvar 1)))) (.app Demo.suc (.fvar 1)) := by
  refine ⟨.init _, ?_⟩
  have h : (Unifier.unify Demo.K 20 demoUnifier 1
    (.app (.app Demo.add (.fvar 0)) (.app Demo.suc (.fvar 1))) 2
    (.app (.app Demo.add (.app Demo.suc (.fvar 0))) (.fvar 0))).map (fun p => (p.1,
      (p.2.maps 1).apply (.app (.app Demo.add (.fvar 0)) (.app Demo.suc (.fvar 1))))) = some (true,
      .app (.app Demo.add (.app Demo.suc (.app Demo.suc (.fvar 1)))) (.app Demo.suc (.fvar 1))) := by
    decide +kernel
  cases e : Unifier.unify Demo.K 20 demoUnifier 1
    (.app (.app Demo.add (.fvar 0)) (.app Demo.suc (.fvar 1))) 2
    (.app (.app Demo.add (.app Demo.suc (.fvar 0))) (.fvar 0)) with
  | none => rw [e] at h; cases h
  | some p =>
    rw [e] at h
    simp only [Option.map_some, Option.some.injEq, Prod.mk.injEq] at h
    exact ⟨p.2, by rw [← h.1], h.2⟩

/-- `add(x0, x0)` and `add(y0, suc(y0))` do not unify: the occurs check fails. -/
example : (Unifier.unify Demo.K 20 demoUnifier 1 (.app (.app Demo.add (.fvar 0)) (.fvar 0)) 2
    (.app (.app Demo.add (.fvar 0)) (.app Demo.suc (.fvar 0)))).map Prod.fst = some false := by
  decide +kernel

end Acorn
