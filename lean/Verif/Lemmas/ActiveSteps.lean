/-
Activating a step adds that step and no other.
-/
import Verif.Lemmas.ActiveActivate
namespace Acorn
namespace Active
open Spec Term
open Passive (Step)

variable {R : Type} {E : Env R}

/-- The steps and the resolution targets are the same. -/
structure SameTargets (a a' : ActiveSet R) : Prop where
  steps : a'.steps = a.steps
  positive : a'.positive = a.positive
  negative : a'.negative = a.negative

theorem SameTargets.rfl' {a : ActiveSet R} : SameTargets a a := ⟨rfl, rfl, rfl⟩

theorem SameTargets.trans {a b c : ActiveSet R} (h : SameTargets b c) (h' : SameTargets a b) : SameTargets a c :=
  ⟨h.1.trans h'.1, h.2.trans h'.2, h.3.trans h'.3⟩

theorem targetSubterms_steps {id : Nat} {s : Step (Info R)} {left : Bool} :
    ∀ {us : List (List PathStep × Term)} {a a' : ActiveSet R} {out : List (Step (Info R))},
      targetSubterms E id s left us a = some (out, a') → SameTargets a a' := by
  intro us
  induction us with
  | nil => intro a a' out e; cases e; exact .rfl'
  | cons pu us ih =>
    obtain ⟨p, u⟩ := pu
    intro a a' out e
    simp only [targetSubterms, Option.bind_eq_bind, Option.bind_eq_some_iff] at e
    obtain ⟨T, -, e⟩ := e
    split at e
    · exact ih e
    · simp only [Option.bind_eq_bind, Option.bind_eq_some_iff, Option.pure_def, Option.some.injEq, Prod.exists,
        Prod.mk.injEq] at e
      obtain ⟨k, a1, e1, sub, -, ns, g, -, ms, a2, e2, -, rfl⟩ := e
      have h1 : SameTargets a a1 := by
        unfold enterSubterm at e1
        split at e1
        · cases e1; exact .rfl'
        · simp only [Option.bind_eq_bind, Option.bind_eq_some_iff, Option.pure_def, Option.some.injEq,
            Prod.mk.injEq] at e1
          obtain ⟨ix, -, -, rfl⟩ := e1
          exact ⟨rfl, rfl, rfl⟩
      have h2 := ih e2
      exact SameTargets.trans (b := a1) ⟨h2.1, h2.2, h2.3⟩ h1

theorem rewriteTarget_steps {id : Nat} {s : Step (Info R)} {l : Literal} {a a' : ActiveSet R}
    {out : List (Step (Info R))} (e : rewriteTarget E a id s l = some (out, a')) : SameTargets a a' := by
  simp only [rewriteTarget, Option.bind_eq_bind, Option.bind_eq_some_iff, Option.pure_def, Option.some.injEq, Prod.exists,
    Prod.mk.injEq] at e
  obtain ⟨us, -, ns, a1, e1, vs, -, ms, a2, e2, -, rfl⟩ := e
  exact (targetSubterms_steps e2).trans (targetSubterms_steps e1)

theorem rewriteKnowns_steps {id : Nat} {s : Step (Info R)} {f : Bool} {p t : Term} :
    ∀ {ks : List Nat} {a a' : ActiveSet R} {out : List (Step (Info R))},
      rewriteKnowns E id s f p t ks a = some (out, a') → SameTargets a a' := by
  intro ks
  induction ks with
  | nil => intro a a' out e; cases e; exact .rfl'
  | cons k ks ih =>
    intro a a' out e
    simp only [rewriteKnowns, Option.bind_eq_bind, Option.bind_eq_some_iff, Option.pure_def, Option.some.injEq, Prod.exists,
      Prod.mk.injEq] at e
    obtain ⟨ns, a1, e1, ms, a2, e2, -, rfl⟩ := e
    refine (ih e2).trans ?_
    simp only [rewriteKnown, Option.bind_eq_bind, Option.bind_eq_some_iff] at e1
    obtain ⟨sub, -, r, -, e1⟩ := e1
    cases r with
    | none => cases e1; exact .rfl'
    | some r =>
      simp only [Option.bind_eq_some_iff, Option.pure_def] at e1
      obtain ⟨_, -, e1⟩ := e1
      split at e1 <;> simp only [Option.bind_eq_some_iff, Option.some.injEq, Prod.mk.injEq] at e1 <;>
        obtain ⟨g, -, -, rfl⟩ := e1 <;> exact ⟨rfl, rfl, rfl⟩

theorem patternOneWay_steps {id : Nat} {s : Step (Info R)} {x : Bool × Term × Term} {a a' : ActiveSet R}
    {out : List (Step (Info R))} (e : patternOneWay E a id s x = some (out, a')) : SameTargets a a' := by
  unfold patternOneWay at e
  split at e
  · cases e; exact .rfl'
  · simp only [Option.bind_eq_bind, Option.bind_eq_some_iff] at e
    obtain ⟨ks, -, e⟩ := e
    exact rewriteKnowns_steps e

theorem activateLiteral_steps {s : Step (Info R)} {l : Literal} {a a' : ActiveSet R} {out : List (Step (Info R))}
    (e : activateLiteral E a s l = some (out, a')) : SameTargets a a' := by
  simp only [activateLiteral, Option.bind_eq_bind, Option.bind_eq_some_iff, Option.pure_def, Prod.exists] at e
  obtain ⟨ns, a1, e1, ms, a2, e2, e⟩ := e
  have e : ∃ ls, a' = { a2 with literals := ls } := by
    split at e
    · simp only [Option.bind_eq_some_iff, Option.some.injEq, Prod.mk.injEq] at e
      obtain ⟨ls, -, -, rfl⟩ := e
      exact ⟨ls, rfl⟩
    · cases e
  obtain ⟨ls, rfl⟩ := e
  have h1 : SameTargets a a1 := by
    unfold asTarget at e1
    split at e1
    · cases e1; exact .rfl'
    · simp only [Option.bind_eq_bind, Option.bind_eq_some_iff] at e1
      obtain ⟨g, -, e1⟩ := e1
      have h := rewriteTarget_steps e1
      exact ⟨h.1, h.2, h.3⟩
  refine SameTargets.trans (b := a1) ?_ h1
  suffices h : SameTargets a1 a2 from ⟨h.1, h.2, h.3⟩
  unfold asPattern at e2
  split at e2
  · simp only [Option.bind_eq_bind, Option.bind_eq_some_iff, Option.pure_def, Option.some.injEq, Prod.exists,
      Prod.mk.injEq, rewritePattern] at e2
    obtain ⟨_, a3, ⟨_, a4, e3, _, a5, e4, -, rfl⟩, -, rfl⟩ := e2
    have h := (patternOneWay_steps e4).trans (patternOneWay_steps e3)
    exact ⟨h.1, h.2, h.3⟩
  · cases e2; exact .rfl'

theorem activate_parts {s : Step (Info R)} {a a' : ActiveSet R} {out : List (Step (Info R))}
    (e : a.activate E s = some (out, a')) : ∃ o1 a1, findAllResolutions E a s = some o1 ∧ (∀ x ∈ o1, x ∈ out) ∧
      SameTargets a a1 ∧ a1.insert E s = some a' := by
  simp only [ActiveSet.activate, Option.bind_eq_bind, Option.bind_eq_some_iff, Option.pure_def] at e
  obtain ⟨o1, -, o2, -, o3, -, o4, -, o5, -, o6, e6, e⟩ := e
  split at e
  · simp only [Option.bind_eq_some_iff, Option.some.injEq, Prod.exists, Prod.mk.injEq] at e
    obtain ⟨o7, a1, e7, a2, e8, rfl, rfl⟩ := e
    exact ⟨o6, a1, e6, fun x hx => by simp [hx], activateLiteral_steps e7, e8⟩
  · simp only [Option.bind_some, Option.bind_eq_some_iff, Option.some.injEq, Prod.mk.injEq] at e
    obtain ⟨a2, e8, rfl, rfl⟩ := e
    exact ⟨o6, a, e6, fun x hx => by simp [hx], .rfl', e8⟩

theorem insert_parts {s : Step (Info R)} {a a' : ActiveSet R} (e : a.insert E s = some a') :
    ∃ a1 a2 : ActiveSet R, SameTargets a a1 ∧ addTargets E.K s.clause.ctx a.steps.length 0 s.clause.lits a1 = some a2 ∧
      a'.positive = a2.positive ∧ a'.negative = a2.negative ∧ a'.steps = a.steps ++ [s] := by
  simp only [ActiveSet.insert, Option.bind_eq_bind, Option.bind_eq_some_iff, Option.pure_def] at e
  obtain ⟨k, -, e⟩ := e
  cases k <;> simp only [Option.bind_eq_some_iff, Option.some.injEq] at e <;> obtain ⟨a2, e2, rfl⟩ := e <;>
    (refine ⟨_, a2, ?_, e2, rfl, rfl, by simp only [(addTargets_same e2).1]⟩; exact ⟨rfl, rfl, rfl⟩)

theorem activate_steps {s : Step (Info R)} {a a' : ActiveSet R} {out : List (Step (Info R))}
    (e : a.activate E s = some (out, a')) : a'.steps = a.steps ++ [s] := by
  obtain ⟨_, a1, -, -, h1, h2⟩ := activate_parts e
  obtain ⟨_, _, -, -, -, -, h3⟩ := insert_parts h2
  rw [h3, h1.steps]

end Active
end Acorn
