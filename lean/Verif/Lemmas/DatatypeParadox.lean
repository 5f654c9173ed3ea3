/-
No type has room for its own predicates, in any frame.
-/
import Verif.Lemmas.DatatypeFacts
import Verif.Lemmas.StructFacts
namespace Acorn
namespace Elab

open Spec

universe u

variable {F : Frame.{u}} {C : String → List F.T → F.D}

/-- The predicates over a type do not embed into the type. -/
theorem no_power (t : F.T) (i : F.D → F.D) (hi : ∀ p, F.mem p (F.fn t F.bool) → F.mem (i p) t)
    (inj : ∀ p q, F.mem p (F.fn t F.bool) → F.mem q (F.fn t F.bool) → i p = i q → p = q) : False := by
  let Q : F.D → Prop := fun x => ∃ p, F.mem p (F.fn t F.bool) ∧ x = i p ∧ F.app p x ≠ F.tt
  let r := F.lam t fun x => F.ofProp (Q x)
  have hr : F.mem r (F.fn t F.bool) := F.mem_lam _ _ _ fun x _ => mem_ofProp _
  have e : F.app r (i r) = F.ofProp (Q (i r)) := F.beta _ _ _ (hi r hr)
  by_cases h : F.app r (i r) = F.tt
  · obtain ⟨p, hp, e1, h1⟩ := ofProp_tt.1 (e.symm.trans h)
    cases inj _ _ hr hp e1
    exact h1 h
  · exact h (e.trans (ofProp_tt.2 ⟨r, hr, rfl, h⟩))

/-- The predicates over predicates over a type do not embed into the type. -/
theorem no_double_power (t : F.T) (i : F.D → F.D) (hi : ∀ p, F.mem p (F.fn (F.fn t F.bool) F.bool) → F.mem (i p) t)
    (inj : ∀ p q, F.mem p (F.fn (F.fn t F.bool) F.bool) → F.mem q (F.fn (F.fn t F.bool) F.bool) → i p = i q → p = q) :
    False := by
  have hs : ∀ p, F.mem (F.lam (F.fn t F.bool) fun q => F.ofProp (q = p)) (F.fn (F.fn t F.bool) F.bool) :=
    fun p => F.mem_lam _ _ _ fun x _ => mem_ofProp _
  refine no_power t (fun p => i (F.lam (F.fn t F.bool) fun q => F.ofProp (q = p))) (fun p _ => hi _ (hs p))
    fun p q hp hq e => ?_
  have h := congrArg (fun f => F.app f p) (inj _ _ (hs p) (hs q) e)
  simp only [F.beta _ _ _ hp] at h
  refine ofProp_tt.1 (h.symm.trans (ofProp_tt.2 ?_))
  trivial

end Elab
end Acorn
