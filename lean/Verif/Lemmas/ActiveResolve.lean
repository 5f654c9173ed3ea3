/-
Resolution of two clauses.
-/
import Verif.Lemmas.ActiveUnify
import Verif.Lemmas.CheckerSound
namespace Acorn
namespace Active
open Spec Term Unifier
open Passive (Step)

universe u

variable {R : Type} {E : Env R} {M : Interp.{u}}

theorem worthTrying_rest {short long : Clause} {i j : Nat} (h : worthTrying short i long j = true) :
    ∀ l ∈ short.lits.eraseIdx i, l.hasAnyVar = false ∧ l ∈ long.lits.eraseIdx j := by
  intro l hl
  unfold worthTrying at h
  rw [Bool.and_eq_true] at h
  have := List.all_eq_true.1 h.2 l hl
  rw [Bool.and_eq_true] at this
  refine ⟨by simpa using this.1, ?_⟩
  have h2 := this.2
  split at h2
  · rename_i k hk
    have hkj : k ≠ j := by simpa using h2
    obtain ⟨hlt, hk1, -⟩ := List.findIdx?_eq_some_iff_getElem.1 hk
    have hk2 : long.lits[k] = l := by simpa using hk1
    rw [List.mem_eraseIdx_iff_getElem?]
    exact ⟨k, hkj, by rw [List.getElem?_eq_getElem hlt, hk2]⟩
  · cases h2

/-- A literal without variables has a value of its own. -/
theorem lit_const {l : Literal} (h : l.hasAnyVar = false) {ρ ρ' β : Nat → M.D} (hl : LitHolds M ρ β l) :
    LitHolds M ρ' β l := by
  rw [Literal.hasAnyVar, Bool.or_eq_false_iff] at h
  have e : ∀ {t : Term}, t.hasAnyVar = false → eval M ρ β t = eval M ρ' β t := fun ht =>
    eval_fvars M _ ρ ρ' β fun j hj => by rw [noVars_of_any ht j] at hj; cases hj
  unfold LitHolds at hl ⊢
  rw [← e h.1, ← e h.2]
  exact hl

/-- The sides of a literal, possibly exchanged. -/
theorem neat_sides {K : KCtx} {Γ : LCtx} {l : Literal} (h : Neat K Γ l) (flipped : Bool) :
    ∃ T, SHasType K Γ (if flipped then (l.right, l.left) else (l.left, l.right)).1 T ∧
      SHasType K Γ (if flipped then (l.right, l.left) else (l.left, l.right)).2 T ∧
      SortFree (if flipped then (l.right, l.left) else (l.left, l.right)).1 ∧
      SortFree (if flipped then (l.right, l.left) else (l.left, l.right)).2 := by
  obtain ⟨⟨T, hT, h1, h2⟩, s1, s2⟩ := h
  cases flipped
  · exact ⟨T, h1, h2, s1, s2⟩
  · exact ⟨T, h2, h1, s2, s1⟩

theorem lit_flip {l : Literal} (flipped : Bool) {ρ β : Nat → M.D} : LitHolds M ρ β l ↔
    (l.positive = true ↔ eval M ρ β (if flipped then (l.right, l.left) else (l.left, l.right)).1 =
      eval M ρ β (if flipped then (l.right, l.left) else (l.left, l.right)).2) := by
  unfold LitHolds
  cases hp : l.positive <;> cases flipped <;> simp [eq_comm]

/-- A resolvent of two true plain clauses. -/
theorem resolve_sound (L : Lawful E.K M) (hN : NoEmpty E.K M) {short long c : Clause} {i j : Nat} {flipped : Bool}
    (ps : PlainClause E.K short) (pl : PlainClause E.K long) (hw : worthTrying short i long j = true)
    (hd : ∀ l k, short.lits[i]? = some l → long.lits[j]? = some k → l.positive ≠ k.positive)
    (e : resolve E short i long j flipped = some (some c)) :
    PlainClause E.K c ∧ (ClauseTrue M short → ClauseTrue M long → ClauseTrue M c) := by
  unfold resolve at e
  split at e
  · rename_i l k hl hk
    have hll := List.mem_of_getElem? hl
    have hkk := List.mem_of_getElem? hk
    obtain ⟨T, t1, t2, q1, q2⟩ : ∃ T, SHasType E.K short.ctx l.left T ∧ SHasType E.K short.ctx l.right T ∧
        SortFree l.left ∧ SortFree l.right := neat_sides (ps.neat hll) false
    obtain ⟨U, u1, u2, r1, r2⟩ := neat_sides (pl.neat hkk) flipped
    have flip := fun ρ β => lit_flip (M := M) (l := k) flipped (ρ := ρ) (β := β)
    generalize (if flipped then (k.right, k.left) else (k.left, k.right)) = cd at e u1 u2 r1 r2 flip
    obtain ⟨x, y⟩ := cd
    dsimp only at e u1 u2 r1 r2 flip
    split at e
    · cases e
    · cases e
    rename_i st1 e1
    split at e
    · cases e
    · cases e
    rename_i st2 e2
    split at e
    · cases e
    rename_i ls st3 e3
    split at e
    · cases e
    rename_i t e4
    obtain ⟨s1, m1, i1, -, same1⟩ := unify_step (pairUnifier_solved _ _) (pairUnifier_mono ps.vars pl.vars notSort_fvar)
      (Γ := short.ctx) (Δ := long.ctx) rfl rfl t1 u1 q1 r1 e1
    obtain ⟨s2, m2, i2, f2, same2⟩ := unify_step s1 m1 (Γ := short.ctx) (Δ := long.ctx) (by rw [i1]; rfl) (by rw [i1]; rfl)
      t2 u2 q2 r2 e2
    have same1 := same1.mono f2
    obtain ⟨sb, cov, rfl⟩ := applyRight_spec s2 m2 e3
    have hst : ∀ {s t : Term}, Unifier.Same st2 1 s 2 t → Unifier.Same st3 1 s 2 t := fun same =>
      ⟨sb.cov _ _ same.cov1, sb.cov _ _ same.cov2, by
        rw [sb.ap _ _ same.cov1, sb.ap _ _ same.cov2]; exact same.unified⟩
    have same1 := hst same1
    have same2 := hst same2
    have in1 : st3.inputs 1 = some short.ctx := by rw [sb.ext.inputs, i2, i1]; rfl
    have in2 : st3.inputs 2 = some long.ctx := by rw [sb.ext.inputs, i2, i1]; rfl
    have hp : PlainClause E.K ⟨(long.lits.eraseIdx j).map (litApAt st3 2), st3.out⟩ :=
      plainClause_iff.2 ⟨sb.mono.out, fun a ha => by
        obtain ⟨a0, ha0, rfl⟩ := List.mem_map.1 ha
        exact neat_litApAt (by decide) sb.mono in2 (pl.neat (List.mem_of_mem_eraseIdx ha0)) (cov a0 ha0)⟩
    have rn := renewed_withTrace L hN hp e4
    have hc : c = t.clause := by
      simp only [Option.some.injEq] at e
      split at e
      · cases e; rfl
      · cases e
    subst hc
    refine ⟨rn.plain, fun hs hl' => rn.truth.2 fun ρ' hρ β => ?_⟩
    obtain ⟨ρ1, a1, b1⟩ := assignmentAt L (by decide : 1 ≠ 0) sb.solved sb.mono in1
      (fun i T h => .inr (hN T (ps.vars i T h))) hρ
    obtain ⟨ρ2, a2, b2⟩ := assignmentAt L (by decide : 2 ≠ 0) sb.solved sb.mono in2
      (fun i T h => .inr (hN T (pl.vars i T h))) hρ
    have v1 := same_valueAt L (by decide : 1 ≠ 0) sb.mono in1 t1 q1 same1 hρ β
    have v2 := same_valueAt L (by decide : 1 ≠ 0) sb.mono in1 t2 q2 same2 hρ β
    rw [← b1 _ _ same1.cov1, ← b2 _ _ same1.cov2] at v1
    rw [← b1 _ _ same2.cov1, ← b2 _ _ same2.cov2] at v2
    have put : ∀ a ∈ long.lits.eraseIdx j, LitHolds M ρ2 β a →
        LitsHold M ρ' β ((long.lits.eraseIdx j).map (litApAt st3 2)) := fun a ha hh =>
      ⟨_, List.mem_map_of_mem ha, (litApAt_holds b2 (cov a ha)).2 hh⟩
    obtain ⟨a, ha, hh⟩ := hs ρ1 a1 β
    rcases mem_eraseIdx_or hl ha with rfl | ha
    · obtain ⟨b, hb, hh'⟩ := hl' ρ2 a2 β
      rcases mem_eraseIdx_or hk hb with rfl | hb
      · have p1 := (lit_flip (M := M) (l := a) false (ρ := ρ1) (β := β)).1 hh
        have p2 := (flip ρ2 β).1 hh'
        simp only [Bool.false_eq_true, if_false] at p1
        rw [v1, v2] at p1
        have := hd a b hl hk
        cases hx : a.positive <;> cases hy : b.positive <;> rw [hx] at p1 this <;> rw [hy] at p2 this <;> simp_all
      · exact put b hb hh'
    · obtain ⟨nv, ha⟩ := worthTrying_rest hw a ha
      exact put a ha (lit_const nv hh)
  · cases e

/-- A resolution step: where it comes from. -/
theorem tryResolution_sound (L : Lawful E.K M) (hN : NoEmpty E.K M) {pos neg n : Step (Info R)} {posId i negId j : Nat}
    {flipped : Bool} (pp : PlainClause E.K pos.clause) (pn : PlainClause E.K neg.clause)
    (e : tryResolution E posId pos i negId neg j flipped = some (some n)) :
    PlainClause E.K n.clause ∧ (ClauseTrue M pos.clause → ClauseTrue M neg.clause → ClauseTrue M n.clause) ∧
      n.info.truth = pos.info.truth.combine neg.info.truth := by
  have comm : ∀ a b : Truthiness, a.combine b = b.combine a := by
    intro a b; cases a <;> cases b <;> rfl
  unfold tryResolution at e
  split at e
  · rename_i l k hl hk
    split at e
    · cases e
    · rename_i hs
      have hs' : l.positive = true ∧ k.positive = false := by
        simpa [Bool.or_eq_true] using hs
      split at e
      · split at e
        · rename_i hw
          rw [Option.map_eq_some_iff] at e
          obtain ⟨o, eo, e⟩ := e
          rw [Option.map_eq_some_iff] at e
          obtain ⟨c, rfl, rfl⟩ := e
          obtain ⟨h1, h2⟩ := resolve_sound L hN pp pn hw (fun a b ha hb => by
            rw [hl] at ha; rw [hk] at hb; cases ha; cases hb; rw [hs'.1, hs'.2]; decide) eo
          exact ⟨h1, h2, rfl⟩
        · cases e
      · split at e
        · rename_i hw
          rw [Option.map_eq_some_iff] at e
          obtain ⟨o, eo, e⟩ := e
          rw [Option.map_eq_some_iff] at e
          obtain ⟨c, rfl, rfl⟩ := e
          obtain ⟨h1, h2⟩ := resolve_sound L hN pn pp hw (fun a b ha hb => by
            rw [hk] at ha; rw [hl] at hb; cases ha; cases hb; rw [hs'.1, hs'.2]; decide) eo
          exact ⟨h1, fun a b => h2 b a, comm _ _⟩
        · cases e
  · cases e

end Active
end Acorn
