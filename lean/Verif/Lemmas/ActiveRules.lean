/-
The steps that the rules of the active set make are right.
-/
import Verif.Spec.ActiveSet
import Verif.Lemmas.ActiveLiterals
import Verif.Lemmas.CheckerSound
namespace Acorn
namespace Active
open Spec Term
open Passive (Step)

universe u

variable {R : Type} {E : Env R} {M : Interp.{u}} {K : KCtx} {n : Nat}

theorem level_combine (a b : Truthiness) : level (a.combine b) = max (level a) (level b) := by
  cases a <;> cases b <;> rfl

theorem level_le_two (a : Truthiness) : level a ≤ 2 := by cases a <;> decide

theorem trueUpTo_direct {s : Step (Info R)} (h : TrueUpTo K M n s) {rule : RuleName} {id : Nat} {c : Clause}
    (hc : PlainClause K c ∧ (ClauseTrue M s.clause → ClauseTrue M c)) : TrueUpTo K M n (direct E rule id s c) :=
  ⟨hc.1, fun hl => hc.2 (h.holds hl)⟩

theorem level_foldl (xs : List (Nat × Step (Info R))) : ∀ t : Truthiness,
    level t ≤ level (xs.foldl (fun t x => t.combine x.2.info.truth) t) := by
  induction xs with
  | nil => intro t; exact Nat.le_refl _
  | cons x xs ih =>
    intro t
    refine Nat.le_trans ?_ (ih _)
    rw [level_combine]
    exact Nat.le_max_left ..

theorem level_foldl_mem (xs : List (Nat × Step (Info R))) : ∀ t : Truthiness, ∀ x ∈ xs,
    level x.2.info.truth ≤ level (xs.foldl (fun t x => t.combine x.2.info.truth) t) := by
  induction xs with
  | nil => intro t x hx; cases hx
  | cons y xs ih =>
    intro t x hx
    rcases List.mem_cons.1 hx with rfl | hx
    · refine Nat.le_trans ?_ (level_foldl xs _)
      rw [level_combine]
      exact Nat.le_max_right ..
    · exact ih _ x hx

theorem trueUpTo_directWith {s : Step (Info R)} (h : TrueUpTo K M n s) {rule : RuleName} {id : Nat} {c : Clause}
    {extra : List (Nat × Step (Info R))}
    (hc : PlainClause K c ∧ (ClauseTrue M s.clause → ClauseTrue M c)) : TrueUpTo K M n (directWith E rule id s extra c) :=
  ⟨hc.1, fun hl => hc.2 (h.holds (Nat.le_trans (level_foldl extra _) hl))⟩

theorem crisp_of_sharp {c : Clause} (h : Sharp K c) : ∀ l ∈ c.lits, Crisp l := fun l hl =>
  ⟨(h l hl).1, (h l hl).2.1⟩

/-! ### One premise -/

theorem equalityResolution_sound (L : Lawful E.K M) (hN : NoEmpty E.K M) {s : Step (Info R)} (h : TrueUpTo E.K M n s)
    {id : Nat} {out : List (Step (Info R))} (e : equalityResolution E id s = some out) : ∀ x ∈ out, TrueUpTo E.K M n x := by
  simp only [equalityResolution, Option.bind_eq_bind, Option.bind_eq_some_iff, Option.pure_def, Option.some.injEq] at e
  obtain ⟨fs, e1, ts, e2, rfl⟩ := e
  intro x hx
  obtain ⟨t, ht, rfl⟩ := List.mem_map.1 hx
  obtain ⟨f, hf, e3⟩ := mapM_mem e2 t (List.mem_filter.1 ht).1
  obtain ⟨h1, h2⟩ := resolution_keeps L hN h.plain e1 f hf
  have rn := renewed_withTrace L hN h1 e3
  exact trueUpTo_direct h ⟨rn.plain, fun k => rn.truth.2 (h2 k)⟩

theorem equalityFactoring_sound (L : Lawful E.K M) (hN : NoEmpty E.K M) {s : Step (Info R)} (h : TrueUpTo E.K M n s)
    {id : Nat} {out : List (Step (Info R))} (e : equalityFactoring E id s = some out) : ∀ x ∈ out, TrueUpTo E.K M n x := by
  simp only [equalityFactoring, Option.bind_eq_bind, Option.bind_eq_some_iff, Option.pure_def, Option.some.injEq] at e
  obtain ⟨fs, e1, ts, e2, rfl⟩ := e
  intro x hx
  obtain ⟨t, ht, rfl⟩ := List.mem_map.1 hx
  obtain ⟨f, hf, e3⟩ := mapM_mem e2 t (List.mem_filter.1 ht).1
  obtain ⟨h1, h2⟩ := factoring_keeps L hN h.plain e1 f hf
  have rn := renewed_withTrace L hN h1 e3
  exact trueUpTo_direct h ⟨rn.plain, fun k => rn.truth.2 (h2 k)⟩

theorem injectivity_sound (L : Lawful E.K M) (hN : NoEmpty E.K M) (hK : PlainSignature E.K) {s : Step (Info R)}
    (h : TrueUpTo E.K M n s) (hs : Sharp E.K s.clause)
    {id : Nat} {out : List (Step (Info R))} (e : injectivity E id s = some out) : ∀ x ∈ out, TrueUpTo E.K M n x := by
  simp only [injectivity, Option.bind_eq_bind, Option.bind_eq_some_iff, Option.pure_def, Option.some.injEq] at e
  obtain ⟨fs, e1, ts, e2, rfl⟩ := e
  intro x hx
  obtain ⟨t, ht, rfl⟩ := List.mem_map.1 hx
  obtain ⟨f, hf, e3⟩ := mapM_mem e2 t (List.mem_filter.1 ht).1
  obtain ⟨h1, h2⟩ := injectivity_true (M := M) hK h.plain (crisp_of_sharp hs) e1 f hf
  have rn := renewed_withTrace L hN h1 e3
  exact trueUpTo_direct h ⟨rn.plain, fun k => rn.truth.2 (h2 k)⟩

theorem extensionality_sound (L : Lawful E.K M) (hN : NoEmpty E.K M) (hK : PlainSignature E.K) {s : Step (Info R)}
    (h : TrueUpTo E.K M n s) (hs : Sharp E.K s.clause)
    {id : Nat} {out : List (Step (Info R))} (e : extensionality E id s = some out) : ∀ x ∈ out, TrueUpTo E.K M n x := by
  unfold extensionality at e
  split at e
  · cases e; intro x hx; cases hx
  · rename_i ls P e1
    simp only [Option.bind_eq_bind, Option.bind_eq_some_iff, Option.pure_def, Option.some.injEq] at e
    obtain ⟨t, e3, rfl⟩ := e
    intro x hx
    rw [List.mem_singleton] at hx
    subst hx
    obtain ⟨h1, -, h2⟩ := extensionality_true L hK h.plain (crisp_of_sharp hs) e1
    have rn := renewed_withTrace L hN h1 e3
    exact trueUpTo_direct h ⟨rn.plain, fun k => rn.truth.2 (h2 k)⟩

/-! ### Boolean reduction -/

theorem reductionSteps_sound (L : Lawful E.K M) (hN : NoEmpty E.K M) {a : ActiveSet R} {s : Step (Info R)}
    (h : TrueUpTo E.K M n s) {id : Nat} {extra : Option ((Term × LCtx) × Nat × Step (Info R))}
    {out : List (Step (Info R))} (e : reductionSteps E a id s extra = some out) : ∀ x ∈ out, TrueUpTo E.K M n x := by
  simp only [reductionSteps, Option.bind_eq_bind, Option.bind_eq_some_iff, Option.pure_def, Option.some.injEq] at e
  obtain ⟨rs, e1, steps, e2, rfl⟩ := e
  intro x hx
  obtain ⟨l, hl, hx⟩ := List.mem_flatten.1 hx
  obtain ⟨⟨k, i, t⟩, hr, e3⟩ := mapM_mem e2 l hl
  simp only [reductionStep, Option.bind_eq_bind, Option.bind_eq_some_iff, Option.pure_def] at e3
  obtain ⟨ids, e4, e3⟩ := e3
  split at e3
  · cases e3; cases hx
  · rw [Option.bind_eq_some_iff] at e3
    obtain ⟨more, e5, e3⟩ := e3
    cases e3
    rw [List.mem_singleton] at hx
    subst hx
    exact trueUpTo_directWith h (boolReduction_true L hN h.plain ((findBoolReductions_spec e1).2 k i t hr))

theorem booleanReduction_sound (L : Lawful E.K M) (hN : NoEmpty E.K M) (hO : OpensWell E M) {a : ActiveSet R}
    {s : Step (Info R)} (ha : ∀ x ∈ a.steps, TrueUpTo E.K M n x)
    (h : TrueUpTo E.K M n s) {id : Nat} {out : List (Step (Info R))} (e : booleanReduction E a id s = some out) :
    ∀ x ∈ out, TrueUpTo E.K M n x := by
  simp only [booleanReduction, Option.bind_eq_bind, Option.bind_eq_some_iff, Option.pure_def] at e
  obtain ⟨own, e1, key, e2, e3⟩ := e
  have h1 : ∀ x ∈ own, TrueUpTo E.K M n x := reductionSteps_sound L hN h e1
  have h3 : ∀ {opened}, openExistsStep E id s = some opened → ∀ x ∈ opened, TrueUpTo E.K M n x := by
    intro opened e4 x hx
    unfold openExistsStep at e4
    split at e4
    · cases e4
    · cases e4; cases hx
    · split at e4
      · cases e4
      · rename_i t ht
        cases e4
        split at hx
        · rw [List.mem_singleton] at hx
          subst hx
          exact trueUpTo_direct h (hO _ _ _ ht h.plain)
        · cases hx
  cases key with
  | none =>
    simp only [Option.bind_some, Option.bind_eq_some_iff, Option.some.injEq] at e3
    obtain ⟨opened, e4, rfl⟩ := e3
    intro x hx
    rcases List.mem_append.1 hx with hx | hx
    · simp only [List.append_nil] at hx
      exact h1 x hx
    · exact h3 e4 x hx
  | some key =>
    simp only [Option.bind_eq_some_iff, Option.map_eq_some_iff, Option.some.injEq] at e3
    obtain ⟨others, ⟨l, e5, rfl⟩, opened, e4, rfl⟩ := e3
    intro x hx
    rcases List.mem_append.1 hx with hx | hx
    · rcases List.mem_append.1 hx with hx | hx
      · exact h1 x hx
      · obtain ⟨ys, hy, hx⟩ := List.mem_flatten.1 hx
        obtain ⟨z, hz, e6⟩ := mapM_mem e5 ys hy
        exact reductionSteps_sound L hN (ha z.2 (List.of_mem_zip hz).2) e6 x hx
    · exact h3 e4 x hx

/-! ### Resolution -/

theorem trueUpTo_two {x p q : Step (Info R)} (hp : TrueUpTo K M n p) (hq : TrueUpTo K M n q)
    (h : PlainClause K x.clause ∧ (ClauseTrue M p.clause → ClauseTrue M q.clause → ClauseTrue M x.clause) ∧
      x.info.truth = p.info.truth.combine q.info.truth) : TrueUpTo K M n x := by
  obtain ⟨h1, h2, h3⟩ := h
  refine ⟨h1, fun hl => ?_⟩
  rw [h3, level_combine, Nat.max_le] at hl
  exact h2 (hp.holds hl.1) (hq.holds hl.2)

theorem findAllResolutions_sound (L : Lawful E.K M) (hN : NoEmpty E.K M) {a : ActiveSet R} {s : Step (Info R)}
    (ha : ∀ x ∈ a.steps, TrueUpTo E.K M n x) (h : TrueUpTo E.K M n s) {out : List (Step (Info R))}
    (e : findAllResolutions E a s = some out) : ∀ x ∈ out, TrueUpTo E.K M n x := by
  simp only [findAllResolutions, Option.bind_eq_bind, Option.bind_eq_some_iff, Option.pure_def, Option.some.injEq] at e
  obtain ⟨l, e1, rfl⟩ := e
  intro x hx
  obtain ⟨ys, hy, hx⟩ := List.mem_flatten.1 hx
  obtain ⟨z, hz, e2⟩ := mapM_mem e1 ys hy
  simp only [literalResolutions, Option.bind_eq_bind, Option.bind_eq_some_iff, Option.pure_def, Option.some.injEq] at e2
  obtain ⟨xs, e3, found, e4, rfl⟩ := e2
  obtain ⟨o, ho, hx⟩ := List.mem_filterMap.1 hx
  change o = some x at hx
  subst hx
  obtain ⟨tg, htg, e5⟩ := mapM_mem e4 _ ho
  unfold resolveTarget at e5
  split at e5
  · cases e5
  · rename_i old hold
    have go := ha old (List.mem_of_getElem? hold)
    split at e5
    · cases e5
    · split at e5
      · exact trueUpTo_two h go (tryResolution_sound L hN h.plain go.plain e5)
      · exact trueUpTo_two go h (tryResolution_sound L hN go.plain h.plain e5)

end Active
end Acorn
