/-
The checks of the parser accept the partial expressions of a printed tree.
-/
import Verif.Lemmas.ExpressionTree
namespace Acorn.Parse

open Scan Spec

theorem spine_head : ∀ e : Expr, ∃ x xs, spine e = x :: xs ∧ ∀ op, x ≠ .binary op
  | .single _ | .group _ _ | .binder _ _ _ _ _ | .ite _ _ _ | .cases _ _ => ⟨_, _, rfl, by simp⟩
  | .unary op e => by
    rw [spine]
    split
    · obtain ⟨x, xs, h, hx⟩ := spine_head e
      exact ⟨x, xs ++ [.postfix op], by rw [h]; rfl, hx⟩
    · exact ⟨_, _, rfl, by simp⟩
  | .binary l op r => by
    obtain ⟨x, xs, h, hx⟩ := spine_head l
    rw [spine]
    exact ⟨x, _, by rw [h]; rfl, hx⟩
  | .concat l r => by
    obtain ⟨x, xs, h, hx⟩ := spine_head l
    rw [spine]
    exact ⟨x, _, by rw [h]; rfl, hx⟩

theorem checkPartials_skip {x : Partial} {ps : List Partial} (h : ∀ y ys, ps = y :: ys → ∀ op, y ≠ .binary op) :
    checkPartials (x :: ps) = checkPartials ps := by
  rw [checkPartials]
  · intro a b ps' _ e; exact h _ _ e _ rfl
  · intro a b ps' _ e; exact h _ _ e _ rfl

theorem checkPartials_other {x : Partial} {ps : List Partial} (h1 : ∀ op, x ≠ .binary op) (h2 : ∀ op, x ≠ .unary op) :
    checkPartials (x :: ps) = checkPartials ps := by
  rw [checkPartials]
  · intro a b ps' e _; exact h1 _ e
  · intro a b ps' e _; exact h2 _ e

theorem checkPartials_spine : ∀ (e : Expr) (rest : List Partial), checkPartials rest = true →
    checkPartials (spine e ++ rest) = true
  | .single _, rest, h | .group _ _, rest, h | .binder _ _ _ _ _, rest, h | .ite _ _ _, rest, h | .cases _ _, rest, h => by
    rw [spine]
    · rw [List.singleton_append, checkPartials_other (by simp) (by simp)]
      exact h
    all_goals simp
  | .unary op e, rest, h => by
    rw [spine]
    split
    · rw [List.append_assoc]
      exact checkPartials_spine e _ (by rw [List.singleton_append, checkPartials_other (by simp) (by simp)]; exact h)
    · rw [List.cons_append, checkPartials_skip]
      · exact checkPartials_spine e _ h
      · obtain ⟨x, xs, hx, hn⟩ := spine_head e
        intro y ys hy
        rw [hx, List.cons_append] at hy
        injection hy with hy
        subst hy
        exact hn
  | .binary l op r, rest, h => by
    rw [spine, List.append_assoc]
    refine checkPartials_spine l _ ?_
    rw [List.cons_append, checkPartials_skip]
    · exact checkPartials_spine r _ h
    · obtain ⟨x, xs, hx, hn⟩ := spine_head r
      intro y ys hy
      rw [hx, List.cons_append] at hy
      injection hy with hy
      subst hy
      exact hn
  | .concat l r, rest, h => by
    rw [spine, List.append_assoc]
    refine checkPartials_spine l _ ?_
    rw [List.cons_append, checkPartials_other (by simp) (by simp), List.cons_append,
      checkPartials_other (by simp) (by simp)]
    exact h

/-- The infix operators and applications among partial expressions. -/
def opsOf : List Partial → List Opr
  | [] => []
  | .binary op :: ps => .infix op :: opsOf ps
  | .implicit :: ps => .apply :: opsOf ps
  | .expr _ :: ps => opsOf ps
  | .unary _ :: ps => opsOf ps
  | .postfix _ :: ps => opsOf ps

theorem opsOf_append (a b : List Partial) : opsOf (a ++ b) = opsOf a ++ opsOf b := by
  induction a with
  | nil => rfl
  | cons x a ih => cases x <;> simp [opsOf, ih]

theorem opsOf_spine : ∀ e : Expr, opsOf (spine e) = openOps e
  | .single _ | .group _ _ | .binder _ _ _ _ _ | .ite _ _ _ | .cases _ _ => rfl
  | .unary op e => by
    rw [spine, openOps]
    split
    · rw [opsOf_append, opsOf_spine e]; simp [opsOf]
    · rw [opsOf, opsOf_spine e]
  | .binary l op r => by
    rw [spine, openOps, opsOf_append, opsOf_spine l, opsOf, opsOf_spine r]
  | .concat l r => by
    rw [spine, openOps, opsOf_append, opsOf_spine l]; rfl

theorem checkImplies_ok : ∀ (ps : List Partial) (saw : Bool),
    (saw = true → ∀ b c, opsOf ps = b ++ .infix (.keyword "implies") :: c → .infix .comma ∈ b) → OneImplies (opsOf ps) →
    checkImplies saw ps = true
  | [], _, _, _ => rfl
  | .binary op :: ps, saw, h1, h2 => by
    rw [opsOf] at h1 h2
    have tail : OneImplies (opsOf ps) := fun a b c e => h2 (.infix op :: a) b c (by rw [e]; rfl)
    rw [checkImplies]
    split
    · exact checkImplies_ok ps false (by simp) tail
    · next hc =>
      split
      · next hi =>
        subst hi
        have hs : saw = false := by
          cases saw with
          | false => rfl
          | true =>
            have := h1 rfl [] (opsOf ps) rfl
            simp at this
        rw [hs]
        exact checkImplies_ok ps true (fun _ b c e => h2 [] b c (by rw [e]; rfl)) tail
      · next hi =>
        refine checkImplies_ok ps saw (fun hs b c e => ?_) tail
        have := h1 hs (.infix op :: b) c (by rw [e]; rfl)
        rcases List.mem_cons.1 this with h | h
        · exact absurd (Opr.infix.inj h).symm hc
        · exact h
  | .implicit :: ps, saw, h1, h2 => by
    rw [opsOf] at h1 h2
    rw [checkImplies]
    · refine checkImplies_ok ps saw (fun hs b c e => ?_) (fun a b c e => h2 (.apply :: a) b c (by rw [e]; rfl))
      have := h1 hs (.apply :: b) c (by rw [e]; rfl)
      simpa using this
    · simp
  | .expr _ :: ps, saw, h1, h2 | .unary _ :: ps, saw, h1, h2 | .postfix _ :: ps, saw, h1, h2 => by
    rw [opsOf] at h1 h2
    rw [checkImplies]
    · exact checkImplies_ok ps saw h1 h2
    · simp

theorem looksLikeParams_ops : ∀ (ps : List Partial) {r : List Partial × List Partial}, looksLikeParams ps = some r →
    ∃ b c, opsOf ps = b ++ .infix .greaterThan :: c ∧
      ∀ o ∈ b, o ∈ [Opr.infix .comma, .infix .rightArrow, .infix .dot, .infix .colon]
  | [], _, h => by cases h
  | .binary op :: ps, r, h => by
    rw [looksLikeParams] at h
    split at h
    · next hop =>
      cases hr : looksLikeParams ps with
      | none => rw [hr] at h; cases h
      | some r' =>
        obtain ⟨b, c, e1, e2⟩ := looksLikeParams_ops ps hr
        refine ⟨.infix op :: b, c, by rw [opsOf, e1]; rfl, ?_⟩
        intro o ho
        rcases List.mem_cons.1 ho with rfl | ho
        · rcases hop with rfl | rfl | rfl | rfl <;> decide
        · exact e2 o ho
    · split at h
      · next hg => exact ⟨[], opsOf ps, by rw [opsOf, hg]; rfl, by simp⟩
      · cases h
  | .expr e :: ps, r, h => by
    rw [looksLikeParams] at h
    split at h
    · cases hr : looksLikeParams ps with
      | none => rw [hr] at h; cases h
      | some r' =>
        obtain ⟨b, c, e1, e2⟩ := looksLikeParams_ops ps hr
        exact ⟨b, c, by rw [opsOf, e1], e2⟩
    · cases h
  | .unary op :: ps, r, h => by simp [looksLikeParams] at h
  | .postfix op :: ps, r, h => by simp [looksLikeParams] at h
  | .implicit :: ps, r, h => by simp [looksLikeParams] at h

theorem findParams_none : ∀ (ps : List Partial), NoTypeList (opsOf ps) → findParams ps = none
  | [], _ => rfl
  | .binary op :: ps, h => by
    rw [opsOf] at h
    have ih := findParams_none ps fun a b c e => h (.infix op :: a) b c (by rw [e]; rfl)
    rw [findParams]
    split
    · next hop =>
      cases hr : looksLikeParams ps with
      | none => dsimp only; rw [ih]; rfl
      | some r =>
        obtain ⟨b, c, e1, e2⟩ := looksLikeParams_ops ps hr
        obtain ⟨o, ho, hn⟩ := h [] b c (by rw [hop, e1]; rfl)
        exact absurd (e2 o ho) hn
    · rw [ih]; rfl
  | .implicit :: ps, h => by
    rw [opsOf] at h
    have ih := findParams_none ps fun a b c e => h (.apply :: a) b c (by rw [e]; rfl)
    simp [findParams, ih]
  | .expr _ :: ps, h => by
    have ih := findParams_none ps h
    simp [findParams, ih]
  | .unary _ :: ps, h => by
    have ih := findParams_none ps h
    simp [findParams, ih]
  | .postfix _ :: ps, h => by
    have ih := findParams_none ps h
    simp [findParams, ih]

theorem noTypeList {m : Mode} {dot : Bool} {e : Expr} (hc : Clear m dot e) (h : OpsOk m (openOps e)) : NoTypeList (openOps e) := by
  by_cases hm : m = .value
  · exact h.2 hm
  · intro a b c he
    rcases hc.ops e (.infix .lessThan) (by rw [he]; simp) with h' | ⟨t, ht, hi⟩
    · cases h'
    · injection ht with ht
      subst ht
      exact absurd ((infix_isBinary hi).2.2.2.2.1 rfl) hm

theorem finish_spine {m : Mode} {e : Expr} (h : Written m e) : finish m (spine e) = .ok e := by
  obtain ⟨hc, ho⟩ := h
  unfold finish
  have hf : findParams (spine e) = none := findParams_none _ (by rw [opsOf_spine]; exact noTypeList hc ho)
  rw [groupParams, hf]
  simp only [bind, Except.bind]
  have h1 : ¬ (m ≠ .type ∧ (!checkImplies false (spine e)) = true) := by
    rintro ⟨hm, hi⟩
    rw [checkImplies_ok (spine e) false (by simp) (by rw [opsOf_spine]; exact ho.1 hm)] at hi
    cases hi
  rw [if_neg h1]
  have h2 := checkPartials_spine e [] rfl
  rw [List.append_nil] at h2
  rw [h2]
  exact combine_spine e hc _ (Nat.le_succ _)

end Acorn.Parse
