/-
Local `satisfy` with an equality.
-/
import Verif.Model.LocalSatisfy
import Verif.Lemmas.ValueStatements
namespace Acorn
namespace Elab

open Spec Classical

universe u

variable {F : Frame.{u}} {C : String → List F.T → F.D}

mutual

theorem bindValues_size {first : Nat} {vals : List Value}
    (hv : ∀ v ∈ vals, ∀ k, v.insertStack first k = v) : ∀ (v : Value) (n m : Nat),
    v.bindValues first n vals = v.bindValues first m vals
  | .var i t, n, m => by
    unfold Value.bindValues
    split
    · rfl
    · split
      · rename_i h
        rw [hv _ (List.getElem_mem h), hv _ (List.getElem_mem h)]
      · rfl
  | .const _ _ _, _, _ => rfl
  | .app f as, n, m => by
    simp only [Value.bindValues, bindValues_size hv f n m, bindValuesAll_size hv as n m]
  | .tapp f _ _, n, m => by simp only [Value.bindValues, bindValues_size hv f n m]
  | .lam ts b, n, m => by
    simp only [Value.bindValues, bindValues_size hv b (n + ts.length) (m + ts.length)]
  | .bin _ a b, n, m => by simp only [Value.bindValues, bindValues_size hv a n m, bindValues_size hv b n m]
  | .not a, n, m => by simp only [Value.bindValues, bindValues_size hv a n m]
  | .try_ a _, n, m => by simp only [Value.bindValues, bindValues_size hv a n m]
  | .all ts b, n, m => by
    simp only [Value.bindValues, bindValues_size hv b (n + ts.length) (m + ts.length)]
  | .ex ts b, n, m => by
    simp only [Value.bindValues, bindValues_size hv b (n + ts.length) (m + ts.length)]
  | .group a, n, m => by simp only [Value.bindValues, bindValues_size hv a n m]
  | .bool _, _, _ => rfl
  | .ite c a b, n, m => by
    simp only [Value.bindValues, bindValues_size hv c n m, bindValues_size hv a n m,
      bindValues_size hv b n m]
  | .match_ s cs, n, m => by
    simp only [Value.bindValues, bindValues_size hv s n m, bindValuesCases_size hv cs n m]

theorem bindValuesAll_size {first : Nat} {vals : List Value}
    (hv : ∀ v ∈ vals, ∀ k, v.insertStack first k = v) : ∀ (vs : List Value) (n m : Nat),
    Value.bindValuesAll first n vals vs = Value.bindValuesAll first m vals vs
  | [], _, _ => rfl
  | v :: vs, n, m => by
    simp only [Value.bindValuesAll, bindValues_size hv v n m, bindValuesAll_size hv vs n m]

theorem bindValuesCases_size {first : Nat} {vals : List Value}
    (hv : ∀ v ∈ vals, ∀ k, v.insertStack first k = v) : ∀ (cs : List Case) (n m : Nat),
    Value.bindValuesCases first n vals cs = Value.bindValuesCases first m vals cs
  | [], _, _ => rfl
  | .mk ts p r _ _ :: cs, n, m => by
    simp only [Value.bindValuesCases, bindValues_size hv p (n + ts.length) (m + ts.length),
      bindValues_size hv r (n + ts.length) (m + ts.length), bindValuesCases_size hv cs n m]

end

mutual

theorem insertStack_plain (s : Nat) : ∀ (v : Value), PlainOn (s + 1) v → v.refersTo s = false →
    ∀ k, v.insertStack s k = v
  | .var i t, h, hr, k => by
    have h : i < s + 1 := h
    have hr : (i == s) = false := hr
    have : i ≠ s := by simpa using hr
    unfold Value.insertStack
    rw [if_pos (by omega)]
  | .const _ _ _, _, _, _ => rfl
  | .app f as, h, hr, k => by
    simp only [Value.refersTo, Bool.or_eq_false_iff] at hr
    simp only [Value.insertStack, insertStack_plain s f h.1 hr.1 k, insertStackAll_plain s as h.2 hr.2 k]
  | .tapp f _ _, h, hr, k => by simp only [Value.insertStack, insertStack_plain s f h hr k]
  | .lam _ b, h, _, _ => h.elim
  | .bin _ a b, h, hr, k => by
    simp only [Value.refersTo, Bool.or_eq_false_iff] at hr
    simp only [Value.insertStack, insertStack_plain s a h.1 hr.1 k, insertStack_plain s b h.2 hr.2 k]
  | .not a, h, hr, k => by simp only [Value.insertStack, insertStack_plain s a h hr k]
  | .try_ a _, h, hr, k => by simp only [Value.insertStack, insertStack_plain s a h hr k]
  | .all _ _, h, _, _ => h.elim
  | .ex _ _, h, _, _ => h.elim
  | .group a, h, hr, k => by simp only [Value.insertStack, insertStack_plain s a h hr k]
  | .bool _, _, _, _ => rfl
  | .ite c a b, h, hr, k => by
    simp only [Value.refersTo, Bool.or_eq_false_iff] at hr
    simp only [Value.insertStack, insertStack_plain s c h.1 hr.1.1 k, insertStack_plain s a h.2.1 hr.1.2 k,
      insertStack_plain s b h.2.2 hr.2 k]
  | .match_ _ _, h, _, _ => h.elim

theorem insertStackAll_plain (s : Nat) : ∀ (vs : List Value), PlainOnAll (s + 1) vs →
    Value.refersToAll s vs = false → ∀ k, Value.insertStackAll s k vs = vs
  | [], _, _, _ => rfl
  | v :: vs, h, hr, k => by
    simp only [Value.refersToAll, Bool.or_eq_false_iff] at hr
    simp only [Value.insertStackAll, insertStack_plain s v h.1 hr.1 k, insertStackAll_plain s vs h.2 hr.2 k]

end

theorem isVar_spec {i : Nat} {t : Ty} {v : Value} (h : v.isVar i t = true) : ∃ u, v = .var i u := by
  unfold Value.isVar at h
  split at h
  · simp only [Bool.and_eq_true, beq_iff_eq] at h
    exact ⟨_, by rw [h.1]⟩
  · simp at h

/-- The witness is one side of an equality that the condition contains. -/
theorem satisfyWitness_spec (θ : String → F.T) (env : List F.D) (x : F.D) (t : Ty) :
    ∀ (v w : Value), v.satisfyWitness env.length t = some w → w.refersTo env.length = false ∧
      (F.Holds C θ (env ++ [x]) v → x = F.den C θ (env ++ [x]) w) := by
  have hx : ∀ u, F.den C θ (env ++ [x]) (.var env.length u) = x := by
    intro u
    simp [Frame.den, List.getD_eq_getElem?_getD]
  intro v
  induction v using Value.satisfyWitness.induct (i := env.length) (t := t) with
  | case1 l r h =>
    intro w e
    simp only [Value.satisfyWitness, h, if_true, Option.some.injEq] at e
    subst e
    simp only [Bool.and_eq_true, Bool.not_eq_true'] at h
    obtain ⟨u, rfl⟩ := isVar_spec h.1
    refine ⟨h.2, fun hh => ?_⟩
    rw [holds_bin] at hh
    simp only [Frame.binary, hx] at hh
    exact hh
  | case2 l r h1 h =>
    intro w e
    simp only [Value.satisfyWitness, h1, h, if_true, Option.some.injEq] at e
    have e : l = w := by simpa using e
    subst e
    simp only [Bool.and_eq_true, Bool.not_eq_true'] at h
    obtain ⟨u, rfl⟩ := isVar_spec h.1
    refine ⟨h.2, fun hh => ?_⟩
    rw [holds_bin] at hh
    simp only [Frame.binary, hx] at hh
    exact hh.symm
  | case3 l r h1 h2 =>
    intro w e
    simp only [Value.satisfyWitness, h1, h2] at e
    simp at e
  | case4 l r ih1 ih2 =>
    intro w e
    simp only [Value.satisfyWitness, Option.or_eq_some_iff] at e
    rcases e with e | ⟨_, e⟩
    · obtain ⟨h1, h2⟩ := ih1 w e
      refine ⟨h1, fun hh => h2 ?_⟩
      rw [holds_bin] at hh
      exact hh.1
    · obtain ⟨h1, h2⟩ := ih2 w e
      refine ⟨h1, fun hh => h2 ?_⟩
      rw [holds_bin] at hh
      exact hh.2
  | case5 v ih =>
    intro w e
    exact ih w (by simpa only [Value.satisfyWitness] using e)
  | case6 v =>
    intro w e
    rw [Value.satisfyWitness] at e
    · cases e
    all_goals assumption

theorem plain_den (θ : String → F.T) (env : List F.D) (x : F.D) : ∀ (w : Value) ,
    PlainOn (env.length + 1) w → w.refersTo env.length = false →
    F.den C θ (env ++ [x]) w = F.den C θ env w := by
  intro w h hr
  have e := den_insertStack (C := C) θ env [x] [] w
  rw [List.append_nil, List.append_nil, insertStack_plain _ w h hr] at e
  exact e

end Elab
end Acorn
