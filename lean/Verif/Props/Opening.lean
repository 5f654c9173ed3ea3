/-
C04: opening a binder is substitution.
-/
import Verif.Lemmas.Bound
namespace Acorn
open Term

/-- Opening a body never panics. -/
theorem C04_open_total (body r : Term) : ∃ t, openBound body r = some t :=
  ⟨_, openBound_eq body r⟩

/-- The value of the opened body is the value of the body with the bound variable set to the value
of the replacement, in every interpretation and environment. -/
theorem C04_open_value (body r t : Term) (h : openBound body r = some t)
    (M : Interp.{u}) (ρ β : Nat → M.D) :
    eval M ρ β t = eval M ρ (push (eval M ρ β r) β) body :=
  eval_openBound M ρ β r body t h

/-- Shifting up and then down again is the identity and does not panic. -/
theorem C04_shift_down_up (t : Term) :
    (shift 0 1 t).bind (shift 0 (-1)) = some t := by
  have h := shift_nonneg 0 1 t
  rw [show (((1 : Nat) : Int)) = 1 from rfl] at h
  rw [h]
  have h2 := shift_down_up 0 0 t
  simpa [up_zero] using h2

/-- Substituting for an index without removing it changes exactly that bound variable. -/
theorem C04_subst_value (index : Nat) (r t t' : Term) (h : substBound index r t = some t')
    (M : Interp.{u}) (ρ β : Nat → M.D) :
    eval M ρ β t' = eval M ρ (fun i => if i = index then eval M ρ β r else β i) t :=
  eval_substBound M ρ β index r t t' h

/-- The escaping check is exact: a term that passes has a value independent of the environment of
bound variables. -/
theorem C04_not_escaping (t : Term) (h : t.escapes = false) (M : Interp.{u}) (ρ β γ : Nat → M.D) :
    eval M ρ β t = eval M ρ γ t :=
  eval_closed M ρ β γ t h

/-- Abstracting a free variable and then opening with that variable gives the term back. -/
theorem C04_open_abstract (x : Nat) (t : Term) : openBound (abstractVar x 0 t) (.fvar x) = some t := by
  rw [openBound_eq, inst_abstract]

/-- Opening with a fresh variable and abstracting it again gives the body back. -/
theorem C04_abstract_open (x : Nat) (body t : Term) (hx : body.hasVar x = false)
    (h : openBound body (.fvar x) = some t) : abstractVar x 0 t = body := by
  rw [openBound_eq] at h
  cases h
  exact abstract_inst x body 0 hx

/-- Opening under a binder: `λ. b0 b1 b2` opened with `b0 x3`; the replacement is shifted when it
goes under the inner binder and the outer index goes down. -/
example : openBound (.lam .boolTy (.app (.app (.bvar 0) (.bvar 1)) (.bvar 2))) (.app (.bvar 0) (.fvar 3))
    = some (.lam .boolTy (.app (.app (.bvar 0) (.app (.bvar 1) (.fvar 3))) (.bvar 1))) := by decide

end Acorn
