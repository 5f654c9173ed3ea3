/-
C30: recursive definitions accepted by the termination check terminate.
-/
import Verif.Spec.Termination
import Verif.Lemmas.Termination
namespace Acorn
open Spec Termination

universe u
variable {D : Type u} {lt : D → D → Prop} {ev : List D → Val → D}

/-- C30, for definitions whose arguments are numbered from 0, that is, all definitions except methods
of datatypes with value parameters: if the definition is accepted, there is one argument position whose argument is strictly
smaller, in every recursive call that evaluating the body can make, than the argument the function
was called with. -/
theorem C30_shrinks_partial (hev : ∀ env (j : Nat) (x : D), env[j]? = some x → ev env (.var j) = x)
    {name n : Nat} {body : Val} (h : check name n body = some true) :
    ∃ i < n, ∀ xs : List D, xs.length = n → ∀ ys, Calls lt ev name xs body [] ys →
      ∃ y x, ys[i]? = some y ∧ xs[i]? = some x ∧ lt y x := by
  simp only [check, Option.map_eq_some_iff] at h
  obtain ⟨strict, ht, hc⟩ := h
  obtain ⟨⟨hlen, _⟩, hs⟩ := (sound_all (lt := lt) hev n _).1 body (Nat.le_refl _) _ _ _ ht
  have hmem : true ∈ strict := by simpa using hc
  obtain ⟨i, hi⟩ := List.getElem?_of_mem hmem
  have hin : i < n := by
    have := (List.getElem?_eq_some_iff.mp hi).1
    rw [hlen] at this
    simpa using this
  refine ⟨i, hin, fun xs hx ys hcall => ?_⟩
  refine hs (by simp) xs ⟨by simp [hx], by omega, ?_⟩ [] ys hcall i hi
  intro j s hj hsn hjs
  simp only [List.getElem?_map, Option.map_eq_some_iff] at hj
  obtain ⟨a, ha, hb⟩ := hj
  obtain ⟨h1, h2⟩ := List.getElem?_eq_some_iff.mp ha
  simp at h2 hb
  omega

/-- C30: therefore the recursion is well founded, if the data is: no argument list starts an infinite
chain of recursive calls. -/
theorem C30_well_founded_partial (hwf : WellFounded lt)
    (hev : ∀ env (j : Nat) (x : D), env[j]? = some x → ev env (.var j) = x)
    {name n : Nat} {body : Val} (h : check name n body = some true) :
    WellFounded fun xs' xs : List D => xs.length = n ∧ CallsOn lt ev name body xs' xs := by
  obtain ⟨i, hin, hi⟩ := C30_shrinks_partial (lt := lt) hev h
  have key : ∀ x : D, ∀ xs : List D, xs[i]? = some x →
      Acc (fun xs' xs : List D => xs.length = n ∧ CallsOn lt ev name body xs' xs) xs := by
    intro x
    induction x using hwf.induction with
    | h x ih =>
      intro xs hx
      refine ⟨_, ?_⟩
      rintro xs' ⟨hl, ys, hc, zs, rfl⟩
      obtain ⟨y, x', h1, h2, h3⟩ := hi xs hl ys hc
      rw [hx] at h2
      cases h2
      refine ih y h3 _ ?_
      rw [List.getElem?_append_left (List.getElem?_eq_some_iff.mp h1).1]
      exact h1
  refine ⟨fun xs => ⟨_, ?_⟩⟩
  rintro xs' ⟨hl, ys, hc, zs, rfl⟩
  obtain ⟨y, x', h1, h2, h3⟩ := hi xs hl ys hc
  refine key y _ ?_
  rw [List.getElem?_append_left (List.getElem?_eq_some_iff.mp h1).1]
  exact h1

/-- C30: on a definition whose variables are numbered from its own arguments on, the check does not
panic. -/
theorem C30_total (name n : Nat) {body : Val} (h : Scoped n body) : ∃ b, check name n body = some b := by
  obtain ⟨s, hs⟩ := (total_all _).1 body (Nat.le_refl _) ((List.range n).map some) (List.replicate n true)
    (by simpa using h)
  exact ⟨_, by rw [check, hs, Option.map_some]⟩

/-! ### Concrete cases -/

namespace TerminationDemo

/-- `add(x, y) = match x { 0 → y, suc(p) → suc(add(p, y)) }`; names: 0 = add, 1 = zero, 2 = suc. -/
def add : Val :=
  .match_ (.var 0)
    [(0, .const 1, .var 1),
     (1, .app (.const 2) [.var 2], .app (.const 2) [.app (.const 0) [.var 2, .var 1]])]

theorem add_accepted : check 0 2 add = some true := by
  simp [check, add, traverse, traverseAll, traverseCases, checkArgs, strictSub, Val.asName, Val.asVar,
    List.range, List.range.loop, List.replicate]

/-- Values of variables; everything else is irrelevant here. -/
def value (env : List Nat) : Val → Nat
  | .var j => env.getD j 0
  | _ => 0

theorem value_var (env : List Nat) (j x : Nat) (h : env[j]? = some x) : value env (.var j) = x := by
  simp [value, h]

/-- Evaluating `add(3, 5)` calls `add(2, 5)`. -/
example : Calls (· < ·) value 0 [3, 5] add [] [2, 5] :=
  .result (k := 1) (ds := [2]) (List.mem_cons_of_mem _ (List.mem_singleton.mpr rfl)) rfl (by simp [value])
    (.arg (List.mem_singleton.mpr rfl) (.fn Calls.call))

example : WellFounded fun xs' xs : List Nat => xs.length = 2 ∧ CallsOn (· < ·) value 0 add xs' xs :=
  C30_well_founded_partial Nat.lt_wfRel.wf value_var add_accepted

/-- `loop(x) = match x { 0 → 0, suc(p) → loop(x) }` is rejected. -/
example : check 0 1 (.match_ (.var 0) [(0, .const 1, .const 1),
    (1, .app (.const 2) [.var 1], .app (.const 0) [.var 0])]) = some false := by
  simp [check, traverse, traverseAll, traverseCases, checkArgs, strictSub, Val.asName, Val.asVar,
    List.range, List.range.loop, List.replicate]

/-- `f(self, x) = match self { mk(p) → f(self, x) }`, a method of a datatype with one value parameter:
the parameter has level 0, `self` level 1, `x` level 2 and `p` level 3. -/
def method : Val :=
  .match_ (.var 1) [(1, .app (.const 1) [.var 3], .app (.const 0) [.var 1, .var 2])]

end TerminationDemo

/-- C30 fails for methods of datatypes with value parameters (binding_map.rs:2365-2368,2446): the
arguments are numbered after the value parameters, but the checker numbers them from 0.  It accepts a
definition of `f(self, x)` whose evaluation calls `f(self, x)` again, whatever the data. -/
theorem C30_value_params_unsound :
    ∃ body : Val, Scoped 3 body ∧ check 0 2 body = some true ∧
      ∀ (D : Type u) (lt : D → D → Prop) (ev : List D → Val → D),
        (∀ env (j : Nat) (x : D), env[j]? = some x → ev env (.var j) = x) →
        ∀ param self x component : D, lt component self →
          Calls lt ev 0 [param, self, x] body [] [self, x] := by
  refine ⟨TerminationDemo.method, ?_, ?_, ?_⟩
  · simp [TerminationDemo.method, Scoped, ScopedAll, ScopedCases]
  · simp [check, TerminationDemo.method, traverse, traverseAll, traverseCases, checkArgs, strictSub,
      Val.asName, Val.asVar, List.range, List.range.loop, List.replicate]
  · intro D lt ev hev param self x c hc
    refine .result (k := 1) (ds := [c]) (List.mem_singleton.mpr rfl) rfl ?_ (.fn ?_)
    · intro d hd
      rw [hev _ 1 self rfl]
      rw [List.mem_singleton.mp hd]
      exact hc
    · have h1 := hev ([param, self, x] ++ [c]) 1 self rfl
      have h2 := hev ([param, self, x] ++ [c]) 2 x rfl
      have e : List.map (ev ([param, self, x] ++ [c])) [.var 1, .var 2] ++ [] = [self, x] := by
        simp only [List.map_cons, List.map_nil, h1, h2, List.append_nil]
      rw [e]
      exact .call

end Acorn
