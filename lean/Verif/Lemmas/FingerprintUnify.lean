/-
A successful run of the unifier gives a common instance.
-/
import Verif.Lemmas.Fingerprint
import Verif.Lemmas.Resolution
import Verif.Spec.Monomorphic
namespace Acorn
namespace Fingerprint

open Spec Term

theorem get_append_left {Γ Γ' : LCtx} {i : Nat} {T : Term} (h : Γ.get i = some T) :
    (Γ ++ Γ').get i = some T := by
  simp only [LCtx.get] at h ⊢
  have hi : i < Γ.length := by
    rcases Nat.lt_or_ge i Γ.length with hi | hi
    · exact hi
    · rw [List.getElem?_eq_none hi] at h; cases h
  rw [List.getElem?_append_left hi]; exact h

theorem get_append_right (Γ Γ' : LCtx) (i : Nat) : (Γ ++ Γ').get (Γ.length + i) = Γ'.get i := by
  simp [LCtx.get, List.getElem?_append_right]

/-- Replace mapped variables by their terms and the others by fresh ones. -/
def fill (m : VMap) (k : Nat) : Nat → Term := fun i => (m.get i).getD (.fvar (k + i))

theorem fill_apply {m : VMap} (hm : MapClosed m) {t : Term} (hc : Covered m t) (k : Nat) :
    sub (fill m k) bid t = m.apply t := by
  rw [VMap.apply_eq_sub hm]
  refine sub_fvars t _ _ _ fun i hi => ?_
  obtain ⟨u, hu⟩ := Option.isSome_iff_exists.1 (hc i hi)
  simp [fill, VMap.toSub, hu]

theorem fill_ok {K : KCtx} {Γ Γ' : LCtx} {m : VMap} {k : Nat} (hΓ : ValueVars K Γ)
    (hm : ∀ i t, m.get i = some t → ∃ T, Γ.get i = some T ∧ SHasType K Γ' t T)
    (hk : ∀ i T, Γ.get i = some T → Γ'.get (k + i) = some T) : WellTypedSubst K (fill m k) Γ Γ' := by
  have nv : ∀ i T, Γ.get i = some T → Term.sub (fill m k) bid T = T := by
    intro i T hT
    have hn := Small.noVars (hΓ i T hT)
    rw [sub_fvars T (fill m k) fid bid (fun j hj => by rw [hn j] at hj; cases hj), sub_id]
  constructor
  · intro i T hT
    rw [nv i T hT]
    cases e : m.get i with
    | some u =>
      obtain ⟨T', hT', hu⟩ := hm i u e
      rw [hT] at hT'; cases hT'
      simp only [fill, e, Option.getD_some]
      exact hu.typed
    | none =>
      simp only [fill, e, Option.getD_none]
      exact .fvar (hk i T hT) (Small.closed (hΓ i T hT))
  · intro i
    cases e : m.get i with
    | some u =>
      obtain ⟨T', hT', hu⟩ := hm i u e
      simp only [fill, e, Option.getD_some]
      exact hu.typed.not_kind _ rfl
    | none => simp only [fill, e, Option.getD_none]; rfl

/-- After a successful unification of terms over value variables, without equality and sort symbols, the
terms have a common well-typed instance. -/
theorem unifiable_of_unify {K : KCtx} {inputs : Nat → Option LCtx} {st' : UState} {n s1 s2 : Nat}
    {t1 t2 T1 T2 : Term} {Γ1 Γ2 : LCtx} (h0 : s1 ≠ 0) (h0' : s2 ≠ 0)
    (hin : ∀ s Γ, inputs s = some Γ → ValueVars K Γ) (i1 : inputs s1 = some Γ1) (i2 : inputs s2 = some Γ2)
    (h1 : SHasType K Γ1 t1 T1) (h2 : SHasType K Γ2 t2 T2)
    (p1 : ∀ a ∈ t1.atoms, a ≠ .sym .eq_ ∧ a ≠ .sym .type0 ∧ ∀ m l, a ≠ .sym (.typeclass m l))
    (p2 : ∀ a ∈ t2.atoms, a ≠ .sym .eq_ ∧ a ≠ .sym .type0 ∧ ∀ m l, a ≠ .sym (.typeclass m l))
    (e : Unifier.unify K n (Unifier.init inputs) s1 t1 s2 t2 = some (true, st')) :
    Unifiable K Γ1 t1 Γ2 t2 := by
  let Q : Atom → Prop := fun a => a ≠ .sym .eq_ ∧ a ≠ .sym .type0 ∧ ∀ m l, a ≠ .sym (.typeclass m l)
  have hs : Unifier.Solved (Unifier.init inputs) := Unifier.solved_of_reach (.init _) (K := K)
  have hm : Unifier.Mono K Q (Unifier.init inputs) := by
    refine ⟨hin, fun i T e => ?_, fun i T e => ?_, fun s i t e => ?_, fun _ => ?_⟩
    · simp [Unifier.init, LCtx.get] at e
    · simp [Unifier.init, LCtx.get] at e
    · rw [show (Unifier.init inputs).maps s = [] from rfl, get_nil] at e; cases e
    · simp [Q]
  obtain ⟨m, o⟩ := (Unifier.monoOk K Q n).unify hs hm
    (Unifier.Tm.of_nil (by simp [Unifier.ctxOf, h0, Unifier.init, i1]) h1 p1)
    (Unifier.Tm.of_nil (by simp [Unifier.ctxOf, h0', Unifier.init, i2]) h2 p2) e
  obtain ⟨post, q⟩ := (Unifier.correct K n).unify hs e
  have q := q rfl
  have vals : ∀ s Γ, s ≠ 0 → inputs s = some Γ → ∀ i t, (st'.maps s).get i = some t →
      ∃ T, Γ.get i = some T ∧ SHasType K st'.out t T := by
    intro s Γ h0 hi i t hg
    obtain ⟨⟨Γ', T, a, c, d⟩, -⟩ := m.vals s i t hg
    simp only [Unifier.ctxOf, h0, if_false] at a
    rw [o.inputs, show (Unifier.init inputs).inputs s = some Γ from hi] at a
    cases a
    exact ⟨T, c, d⟩
  have same : (st'.maps s1).apply t1 = (st'.maps s2).apply t2 := by
    refine q.unified.plain fun a ha => ?_
    rcases atoms_apply ha with h | ⟨i, u, hu, h⟩
    · exact p1 a h
    · exact (m.vals s1 i u hu).2 a h
  have wk : ∀ {t T : Term}, SHasType K st'.out t T → SHasType K (st'.out ++ (Γ1 ++ Γ2)) t T :=
    fun h => h.weaken fun i T hT => get_append_left hT
  refine ⟨st'.out ++ (Γ1 ++ Γ2), fill (st'.maps s1) st'.out.length,
    fill (st'.maps s2) (st'.out.length + Γ1.length), ?_, ?_, ?_⟩
  · refine fill_ok (hin _ _ i1) (fun i t hg => ?_) fun i T hT => ?_
    · obtain ⟨T, a, b⟩ := vals s1 Γ1 h0 i1 i t hg
      exact ⟨T, a, wk b⟩
    · rw [get_append_right]; exact get_append_left hT
  · refine fill_ok (hin _ _ i2) (fun i t hg => ?_) fun i T hT => ?_
    · obtain ⟨T, a, b⟩ := vals s2 Γ2 h0' i2 i t hg
      exact ⟨T, a, wk b⟩
    · rw [Nat.add_assoc, get_append_right, get_append_right]; exact hT
  · rw [fill_apply (post.solved.closed s1) (q.cov1 h0), fill_apply (post.solved.closed s2) (q.cov2 h0')]
    exact same

end Fingerprint
end Acorn
