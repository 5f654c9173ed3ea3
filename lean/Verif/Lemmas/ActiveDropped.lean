/-
Simplification loses nothing.
-/
import Verif.Lemmas.ActiveSimplify
namespace Acorn
namespace Active
open Spec Term
open Passive (Step)

universe u

variable {R : Type} {E : Env R} {M : Interp.{u}} {n : Nat}

theorem withTrace_negFirst {c : Clause} {t : Trace} (e : c.normalizeWithTrace = some t) : NegFirst t.clause.lits := by
  simp only [Clause.normalizeWithTrace, normalizePrefilled, Option.bind_eq_bind, Option.bind_eq_some_iff, Prod.exists,
    Option.pure_def, Option.some.injEq, Prod.mk.injEq] at e
  obtain ⟨_, _, ⟨_, _, -, _, -, rfl, rfl⟩, rfl⟩ := e
  exact dedupSort_negFirst _

theorem clauseTrue_sub {c : Clause} {ls : List Literal} (hs : ∀ l ∈ ls, l ∈ c.lits) (h : ClauseTrue M ⟨ls, c.ctx⟩) :
    ClauseTrue M c := fun ρ hρ β => by
  obtain ⟨l, hl, hh⟩ := h ρ hρ β
  exact ⟨l, hs l hl, hh⟩

theorem known_true {a : ActiveSet R} (hg : Good E M n a.steps a) (ht : ∀ x ∈ a.steps, ClauseTrue M x.clause) {c : Clause}
    (hn : NegFirst c.lits) (h : (c.isTautology || knownLong a c) = true) : ClauseTrue M c := by
  rw [Bool.or_eq_true] at h
  rcases h with h | h
  · exact fun ρ _ β => tautology_holds hn h ρ β
  · simp only [knownLong, Bool.and_eq_true, List.contains_iff_mem] at h
    obtain ⟨s, hs, rfl⟩ := hg.long c h.2
    exact ht s hs

/-- A clause that simplification drops is known, or has a variable whose type is not known to be inhabited. -/
theorem simplify_dropped (L : Lawful E.K M) (hN : NoEmpty E.K M) {a : ActiveSet R} (hg : Good E M n a.steps a)
    (ht : ∀ x ∈ a.steps, ClauseTrue M x.clause) {s : Step (Info R)} (hp : PlainClause E.K s.clause)
    (hn : NegFirst s.clause.lits) (e : a.simplify E s = some none) :
    ClauseTrue M s.clause ∨ ∃ i T, s.clause.ctx.get i = some T ∧ E.inh s.clause.ctx T = false := by
  unfold ActiveSet.simplify at e
  split at e
  · rename_i h
    exact .inl (known_true hg ht hn h)
  · simp only [Option.bind_eq_bind, Option.bind_eq_some_iff, Option.pure_def] at e
    obtain ⟨r, e1, e⟩ := e
    have ok := filterLits_sound L hN hg hp.vars (fun l hl => hp.neat hl) e1
    split at e
    · exact .inl fun ρ hρ β => ok ht ρ β hρ
    · rename_i ls by_
      obtain ⟨h1, h2, h3⟩ := ok
      split at e
      · rename_i hg
        right
        simp only [Bool.not_eq_true', goneInhabited, List.all_eq_false, Bool.or_eq_true, not_or, Bool.not_eq_true] at hg
        obtain ⟨i, -, -, hi⟩ := hg
        split at hi
        · cases hi
        · rename_i T hT
          exact ⟨i, T, hT, hi⟩
      · split at e
        · cases e
        · simp only [Option.bind_eq_some_iff] at e
          obtain ⟨t', e2, e⟩ := e
          split at e
          · rename_i h
            have rn := renewed_withTrace L hN (plain_sub hp (ls := ls) fun l hl => h1.subset hl) e2
            exact .inl (clauseTrue_sub (fun l hl => h1.subset hl)
              (rn.truth.1 (known_true hg ht (withTrace_negFirst e2) h)))
          · cases e

/-- If the simplified clause is true, so is the clause. -/
theorem simplify_back (L : Lawful E.K M) (hN : NoEmpty E.K M) {a : ActiveSet R} (hg : Good E M n a.steps a)
    {s t : Step (Info R)} (hp : PlainClause E.K s.clause) (e : a.simplify E s = some (some t))
    (ht : ClauseTrue M t.clause) : ClauseTrue M s.clause := by
  unfold ActiveSet.simplify at e
  split at e
  · cases e
  · simp only [Option.bind_eq_bind, Option.bind_eq_some_iff, Option.pure_def] at e
    obtain ⟨r, e1, e⟩ := e
    have ok := filterLits_sound L hN hg hp.vars (fun l hl => hp.neat hl) e1
    split at e
    · cases e
    · rename_i ls by_
      obtain ⟨h1, -, -⟩ := ok
      split at e
      · cases e
      · split at e
        · cases e
          exact clauseTrue_sub (fun l hl => h1.subset hl) ht
        · simp only [Option.bind_eq_some_iff] at e
          obtain ⟨t', e2, e⟩ := e
          split at e
          · cases e
          · cases e
            have rn := renewed_withTrace L hN (plain_sub hp (ls := ls) fun l hl => h1.subset hl) e2
            exact clauseTrue_sub (fun l hl => h1.subset hl) (rn.truth.1 ht)

end Active
end Acorn
