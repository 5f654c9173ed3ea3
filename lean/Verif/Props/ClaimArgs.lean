/-
C65: the arguments of a claim mean the same after they are renumbered.
-/
import Verif.Lemmas.ClaimArgs
namespace Acorn
open Elab Elab.ClaimArgs Spec Spec.ClaimArgs

universe u

section
variable {F : Frame.{u}}

/-- An argument without variables of the claim is written where the claim's variables come first.  It means there what
it meant alone, whatever the claim's variables are. -/
theorem C65_shift_keeps_meaning (C : String → List F.T → F.D) (θ : String → F.T) (vars env : List F.D) {v : Value}
    (h : Tidy v) : F.den C θ (vars ++ env) (v.shift vars.length) = F.den C θ env v := by
  rw [shift_eq h]
  exact den_insertStack θ [] vars env v

/-- It refers to none of the claim's variables: its own are those of before, moved up. -/
theorem C65_shift_no_capture {v : Value} (h : Tidy v) (n j : Nat) : Mentions j (v.shift n) ↔ n ≤ j ∧ Mentions (j - n) v := by
  rw [shift_eq h]; exact mentions_insert

/-- An argument with variables of the claim is written where there are no numbers for the type parameters.  It means
there what it meant where the type parameters came first, if it does not use one of them as a value. -/
theorem C65_rebase_keeps_meaning (C : String → List F.T → F.D) (θ : String → F.T) (params env : List F.D) {v : Value}
    (h : Tidy v) (hm : ∀ i, Mentions i v → params.length ≤ i) :
    F.den C θ env (v.rebase params.length) = F.den C θ (params ++ env) v := by
  obtain ⟨w, hw, rfl⟩ := lowered h hm
  rw [rebase_insert hw]
  exact (den_insertStack θ [] params env w).symm

/-- So each argument means the same, whichever way it is written.  Missing: that quoting a term gives a value as the
constructors build it, which does not use a type parameter as a value; and values indexed by types that mention
variables, in which the code renumbers nothing. -/
theorem C65_argument_partial (C : String → List F.T → F.D) (θ : String → F.T) (params vars env : List F.D) {quoted : Value}
    (h : Tidy quoted) (hm : ∀ i, Mentions i quoted → params.length ≤ i) :
    F.den C θ (vars ++ env) (quoted.claimArg true params.length vars.length) = F.den C θ (params ++ (vars ++ env)) quoted ∧
    F.den C θ (vars ++ env) (quoted.claimArg false params.length vars.length) = F.den C θ env quoted :=
  ⟨C65_rebase_keeps_meaning C θ params (vars ++ env) h hm, C65_shift_keeps_meaning C θ vars env h⟩

/-- An argument that is said to have no variable means the same everywhere: no names need to be given when it is
written. -/
theorem C65_closed (C : String → List F.T → F.D) (θ : String → F.T) {v : Value} (h : v.hasVariable = false)
    (env env' : List F.D) : F.den C θ env v = F.den C θ env' v := by
  refine den_closed θ env env' v fun i k => ?_
  rw [hasVariable_iff.2 ⟨i, k⟩] at h; cases h

/-- Without the condition on the type parameters this is false: the numbers below are kept, so that two variables become
one. -/
theorem C65_collision (C : String → List F.T → F.D) (θ : String → F.T) (t : Ty) :
    (Value.var 0 t).rebase 1 = (Value.var 1 t).rebase 1 ∧
    F.den C θ [F.ff] ((Value.var 0 t).rebase 1) ≠ F.den C θ ([F.tt] ++ [F.ff]) (Value.var 0 t) :=
  ⟨rfl, fun h => F.tt_ne_ff h.symm⟩

end

/-- It is said to have one exactly if it mentions one, free or bound. -/
theorem C65_has_variable (v : Value) : v.hasVariable = true ↔ ∃ i, Mentions i v := hasVariable_iff

/-- Taking away what was added gives the value back, exactly. -/
theorem C65_round_trip {v : Value} (h : Tidy v) (n : Nat) : (v.shift n).rebase n = v := by
  rw [shift_eq h]; exact rebase_insert h

/-- And the other way round, if there is nothing below. -/
theorem C65_round_trip_back {v : Value} (h : Tidy v) {n : Nat} (hm : ∀ i, Mentions i v → n ≤ i) :
    (v.rebase n).shift n = v := by
  obtain ⟨w, hw, rfl⟩ := lowered h hm
  rw [rebase_insert hw, shift_eq hw]

namespace ClaimArgsDemo

/-- `function(y: Nat) { y = x }`, on a stack with a type parameter and a variable `x`. -/
def v : Value :=
  .lam [.data "Nat" []] (.bin .equals (.var 2 (.data "Nat" [])) (.app (.const "id" [] .bool) [.var 1 (.data "Nat" [])]))

example : Tidy v := by simp [v, Tidy, AllTidy]

example : ∀ i, Mentions i v → 1 ≤ i := by
  intro i h
  simp only [v, Mentions, SomeMentions, or_false, false_or] at h
  omega

/-- The number of the type parameter is taken away, from the bound variable as well. -/
example : v.rebase 1 = .lam [.data "Nat" []] (.bin .equals (.var 1 (.data "Nat" []))
    (.app (.const "id" [] .bool) [.var 0 (.data "Nat" [])])) := rfl

/-- A closed argument of a claim with two variables: only its bound variable is renumbered. -/
example : (Value.lam [.bool] (.var 0 .bool)).claimArg false 1 2 = .lam [.bool] (.var 2 .bool) := rfl

example : (Value.lam [.bool] (.bool true)).hasVariable = false := rfl

example : v.hasVariable = true := rfl

end ClaimArgsDemo

end Acorn
