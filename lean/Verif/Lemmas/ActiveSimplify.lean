/-
What the active set keeps true, and simplification with it.
-/
import Verif.Lemmas.ActiveRules
namespace Acorn
namespace Active
open Spec Term
open Passive (Step)

universe u

variable {R : Type} {E : Env R} {M : Interp.{u}} {K : KCtx} {n : Nat}

/-- A term without variables, with a type. -/
structure Concrete (K : KCtx) (u : Term) : Prop where
  type : ∃ U, SHasType K [] u U
  noVars : NoVars u
  sortFree : SortFree u

/-- The active set is right about the steps: those it has and the one being activated. -/
structure Good (E : Env R) (M : Interp.{u}) (n : Nat) (ss : List (Step (Info R))) (a : ActiveSet R) : Prop where
  all : ∀ s ∈ ss, TrueUpTo E.K M n s
  steps : ∀ (i : Nat) s, a.steps[i]? = some s → ss[i]? = some s
  literals : ∃ h, LiteralTree a.literals h ∧ ∀ e ∈ h, Stored e.1 e.2.2 ∧
    ∃ s : Step (Info R), ss[e.2.1]? = some s ∧ s.clause = ⟨[e.1], e.2.2⟩
  patterns : ∀ i ∈ a.patterns, ∃ s : Step (Info R), ss[i]? = some s ∧ IsPattern E.K s.clause
  subterms : ∀ x ∈ a.subterms, Concrete E.K x.term ∧
    (∀ p ∈ x.places, ∃ s : Step (Info R), ss[p.1]? = some s ∧ PlaceIn s.clause p.2.1 p.2.2 x.term) ∧
    ∀ r ∈ x.rewrites, ∃ s : Step (Info R), ss[r.1]? = some s ∧ IsPattern E.K s.clause
  graph : 2 ≤ n → ∀ ρ β, ∃ T, EGraph.Sound (eval M ρ β) M.app (fun t => ∃ T, SHasType E.K [] t T) T a.graph
  long : ∀ c ∈ a.long, ∃ s ∈ ss, s.clause = c

theorem plain_sub {c : Clause} (h : PlainClause K c) {ls : List Literal} (hs : ∀ l ∈ ls, l ∈ c.lits) :
    PlainClause K ⟨ls, c.ctx⟩ := plainClause_iff.2 ⟨h.vars, fun l hl => h.neat (hs l hl)⟩

/-- What the loop of simplification says. -/
def FilterOk (M : Interp.{u}) (a : ActiveSet R) (Γ : LCtx) (ls : List Literal) : Filtered R → Prop
  | .known => (∀ s ∈ a.steps, ClauseTrue M s.clause) → ∀ ρ β, Models M Γ ρ → LitsHold M ρ β ls
  | .kept ks by_ => List.Sublist ks ls ∧ (∀ x ∈ by_, x.2 ∈ a.steps) ∧
      ((∀ x ∈ by_, ClauseTrue M x.2.clause) → ∀ ρ β, Models M Γ ρ → LitsHold M ρ β ls → LitsHold M ρ β ks)

theorem litsHold_cons {ρ β : Nat → M.D} {l : Literal} {ls : List Literal} :
    LitsHold M ρ β (l :: ls) ↔ LitHolds M ρ β l ∨ LitsHold M ρ β ls := by
  simp [LitsHold]

theorem filterOk_cons {a : ActiveSet R} {Γ : LCtx} {l : Literal} {ls : List Literal} {r : Filtered R}
    (h : FilterOk M a Γ ls r) : FilterOk M a Γ (l :: ls) (r.cons l) := by
  cases r with
  | known => exact fun hs ρ β hρ => litsHold_cons.2 (.inr (h hs ρ β hρ))
  | kept ks by_ =>
    obtain ⟨h1, h2, h3⟩ := h
    exact ⟨h1.cons_cons l, h2, fun hs ρ β hρ hh => litsHold_cons.2 ((litsHold_cons.1 hh).imp_right (h3 hs ρ β hρ))⟩

theorem filterOk_drop {a : ActiveSet R} {Γ : LCtx} {l : Literal} {ls : List Literal} {r : Filtered R}
    (h : FilterOk M a Γ ls r) (hl : ∀ ρ β, Models M Γ ρ → ¬ LitHolds M ρ β l) : FilterOk M a Γ (l :: ls) r := by
  cases r with
  | known => exact fun hs ρ β hρ => litsHold_cons.2 (.inr (h hs ρ β hρ))
  | kept ks by_ =>
    obtain ⟨h1, h2, h3⟩ := h
    exact ⟨h1.cons l, h2, fun hs ρ β hρ hh => h3 hs ρ β hρ
      ((litsHold_cons.1 hh).resolve_left (hl ρ β hρ))⟩

theorem filterOk_via {a : ActiveSet R} {Γ : LCtx} {l : Literal} {ls : List Literal} {r : Filtered R}
    {x : Nat × Step (Info R)} (h : FilterOk M a Γ ls r) (hx : x.2 ∈ a.steps)
    (hl : ClauseTrue M x.2.clause → ∀ ρ β, Models M Γ ρ → ¬ LitHolds M ρ β l) : FilterOk M a Γ (l :: ls) (r.via x) := by
  cases r with
  | known => exact fun hs ρ β hρ => litsHold_cons.2 (.inr (h hs ρ β hρ))
  | kept ks by_ =>
    obtain ⟨h1, h2, h3⟩ := h
    refine ⟨h1.cons l, fun y hy => ?_, fun hs ρ β hρ hh => h3 (fun y hy => hs y (by simp [hy])) ρ β hρ
      ((litsHold_cons.1 hh).resolve_left (hl (hs x (by simp)) ρ β hρ))⟩
    rcases List.mem_cons.1 hy with rfl | hy
    · exact hx
    · exact h2 y hy

/-- The loop of simplification. -/
theorem filterLits_sound (L : Lawful E.K M) (hN : NoEmpty E.K M) {a : ActiveSet R} (hg : Good E M n a.steps a) {Γ : LCtx}
    (hv : ValueVars E.K Γ) {keep : Bool} : ∀ {ls : List Literal} {r : Filtered R}, (∀ l ∈ ls, Neat E.K Γ l) →
    filterLits E a Γ keep ls = some r → FilterOk M a Γ ls r := by
  intro ls
  induction ls with
  | nil =>
    intro r _ e
    simp only [filterLits, Option.some.injEq] at e
    subst e
    exact ⟨List.Sublist.refl _, fun x hx => (by cases hx), fun _ ρ β _ h => h⟩
  | cons l ls ih =>
    intro r hn e
    have hl := hn l (by simp)
    have hn' : ∀ l ∈ ls, Neat E.K Γ l := fun l hl => hn l (by simp [hl])
    obtain ⟨h, ht, hh⟩ := hg.literals
    simp only [filterLits, Option.bind_eq_bind, Option.bind_eq_some_iff, Option.pure_def] at e
    obtain ⟨o, e0, e⟩ := e
    have val : ∀ {value by_}, o = some (value, by_) →
        (by_ = none ∧ ∀ ρ β, LitHolds M ρ β l ↔ value = true) ∨
        ∃ s : Step (Info R), (∃ id, by_ = some id ∧ a.steps[id]? = some s) ∧
          (ClauseTrue M s.clause → ∀ ρ β, Models M Γ ρ → (LitHolds M ρ β l ↔ value = true)) := by
      intro value by_ ho
      subst ho
      rcases evaluate_sound L hN ht (fun e he => (hh e he).1) hv hl e0 with h | ⟨l', id, P, h1, h2, h3⟩
      · exact .inl h
      · obtain ⟨s, hs, hc⟩ := (hh _ h2).2
        refine .inr ⟨s, ⟨id, h1, hs⟩, fun hs' => h3 ?_ ?_⟩
        · rw [← hc]
          exact (hg.all s (List.mem_of_getElem? hs)).plain
        · rw [← hc]
          exact hs'
    split at e
    · simp only [Option.bind_eq_some_iff, Option.some.injEq] at e
      obtain ⟨r', e1, rfl⟩ := e
      exact filterOk_cons (ih hn' e1)
    · cases e
      rcases val rfl with ⟨-, h⟩ | ⟨s, ⟨id, hid, -⟩, -⟩
      · exact fun _ ρ β _ => ⟨l, by simp, (h ρ β).2 rfl⟩
      · cases hid
    · rename_i id
      simp only [Option.bind_eq_some_iff] at e
      obtain ⟨s, es, e⟩ := e
      split at e
      · simp only [Option.bind_eq_some_iff, Option.some.injEq] at e
        obtain ⟨r', e1, rfl⟩ := e
        exact filterOk_cons (ih hn' e1)
      · cases e
        rcases val rfl with ⟨h, -⟩ | ⟨s', ⟨id', hid, hs'⟩, h⟩
        · cases h
        · exact fun hs ρ β hρ => ⟨l, by simp, (h (hs s' (List.mem_of_getElem? hs')) ρ β hρ).2 rfl⟩
    · rcases val rfl with ⟨-, h⟩ | ⟨s, ⟨id, hid, -⟩, -⟩
      · refine filterOk_drop (ih hn' e) fun ρ β _ hh => ?_
        have := (h ρ β).1 hh
        cases this
      · cases hid
    · rename_i id
      simp only [Option.bind_eq_some_iff, Option.some.injEq] at e
      obtain ⟨s, es, r', e1, rfl⟩ := e
      rcases val rfl with ⟨h, -⟩ | ⟨s', ⟨id', hid, hs'⟩, h⟩
      · cases h
      · cases hid
        rw [es] at hs'
        cases hs'
        refine filterOk_via (ih hn' e1) (List.mem_of_getElem? es) fun ht ρ β hρ hh => ?_
        have := (h ht ρ β hρ).1 hh
        cases this

/-- Simplification. -/
theorem simplify_sound (L : Lawful E.K M) (hN : NoEmpty E.K M) {a : ActiveSet R} (hg : Good E M n a.steps a)
    {s t : Step (Info R)} (hs : TrueUpTo E.K M n s) (e : a.simplify E s = some (some t)) : TrueUpTo E.K M n t := by
  unfold ActiveSet.simplify at e
  split at e
  · cases e
  · simp only [Option.bind_eq_bind, Option.bind_eq_some_iff, Option.pure_def] at e
    obtain ⟨r, e1, e⟩ := e
    have ok := filterLits_sound L hN hg hs.plain.vars (fun l hl => hs.plain.neat hl) e1
    split at e
    · cases e
    · rename_i ls by_
      obtain ⟨h1, h2, h3⟩ := ok
      split at e
      · cases e
      · split at e
        · rename_i hlen
          cases e
          have : ls = s.clause.lits := h1.eq_of_length hlen
          subst this
          exact ⟨hs.plain, hs.holds⟩
        · simp only [Option.bind_eq_some_iff] at e
          obtain ⟨t', e2, e⟩ := e
          split at e
          · cases e
          · cases e
            have hp := plain_sub hs.plain (ls := ls) fun l hl => h1.subset hl
            have rn := renewed_withTrace L hN hp e2
            refine ⟨rn.plain, fun hl => rn.truth.2 fun ρ hρ β => ?_⟩
            dsimp only at hl
            exact h3 (fun x hx => (hg.all x.2 (h2 x hx)).holds (Nat.le_trans (level_foldl_mem _ _ x hx) hl)) ρ β hρ
              (hs.holds (Nat.le_trans (level_foldl _ _) hl) ρ hρ β)

end Active
end Acorn
