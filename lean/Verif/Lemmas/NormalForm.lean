/-
Normal forms: what the normalizer returns is left alone by the normalizer, and the amount of fuel does
not matter.
-/
import Verif.Model.Normalize
import Verif.Lemmas.Order
namespace Acorn
namespace Term

/-- No rewrite of the normalizer applies anywhere in the term. -/
def Normal : Term → Prop
  | atom _ => True
  | app f a => Normal f ∧ Normal a ∧ betaHead (app f a) = none ∧ cancelNotNot (app f a) = none ∧
      orientEq (app f a) = none
  | bind b ty body => Normal ty ∧ Normal body ∧ etaHead (bind b ty body) = none

theorem Normal.args {t : Term} (h : t.Normal) : ∀ a ∈ t.args, a.Normal := by
  induction t with
  | atom a => intro a h; simp [Term.args] at h
  | app f a ihf _ =>
    intro x hx
    simp only [Term.args, List.mem_append, List.mem_singleton] at hx
    rcases hx with hx | rfl
    · exact ihf h.1 x hx
    · exact h.2.1
  | bind b A B _ _ => intro a h; simp [Term.args] at h

theorem args_of_splitSym {t : Term} {s : Symbol} {n : Nat} {as : List Term}
    (h : splitSym t s n = some as) : as = t.args := by
  cases t with
  | atom _ => simp [splitSym] at h
  | bind _ _ _ => simp [splitSym] at h
  | app f x =>
    simp only [splitSym] at h
    split at h
    · cases h; rfl
    · cases h

theorem Normal.cancel_none {t : Term} (h : t.Normal) : cancelNotNot t = none := by
  cases t with
  | atom a => rfl
  | app f a => exact h.2.2.2.1
  | bind b A B => rfl

theorem Normal.orient_none {t : Term} (h : t.Normal) : orientEq t = none := by
  cases t with
  | atom a => rfl
  | app f a => exact h.2.2.2.2
  | bind b A B => rfl

theorem Normal.beta_none {t : Term} (h : t.Normal) : betaHead t = none := by
  cases t with
  | atom a => rfl
  | app f a => exact h.2.2.1
  | bind b A B => rfl

theorem Normal.eta_none {t : Term} (h : t.Normal) : etaHead t = none := by
  cases t with
  | atom a => rfl
  | app f a => rfl
  | bind b A B => exact h.2.2

/-- The flat order is total. -/
theorem flatLe_total (s t : Term) (h : flatLe s t = false) : flatLe t s = true := by
  simp only [flatLe] at *
  rw [Std.OrientedCmp.eq_swap (cmp := (compare : List (List Nat) → List (List Nat) → Ordering))]
  revert h
  cases compare s.flatCode t.flatCode <;> simp

theorem eqOrdered_total (s t : Term) (h : eqOrdered s t = false) : eqOrdered t s = true := by
  simp only [eqOrdered] at *
  cases e1 : s.atomicVariable with
  | none =>
    rw [e1] at h
    cases e2 : t.atomicVariable with
    | none => rw [e2] at h; exact flatLe_total _ _ h
    | some j => rw [e2] at h; exact flatLe_total _ _ h
  | some i =>
    rw [e1] at h
    cases e2 : t.atomicVariable with
    | none => rw [e2] at h; exact flatLe_total _ _ h
    | some j =>
      rw [e2] at h
      simp only [decide_eq_false_iff_not, decide_eq_true_eq] at *
      omega

theorem Normal.of_children_app {f a : Term} (hf : f.Normal) (ha : a.Normal)
    (hb : betaHead (app f a) = none) :
    Normal ((orientEq ((cancelNotNot (app f a)).getD (app f a))).getD
      ((cancelNotNot (app f a)).getD (app f a))) := by
  cases ec : cancelNotNot (app f a) with
  | some y =>
    simp only [Option.getD_some]
    have hy : y.Normal := by
      simp only [cancelNotNot] at ec
      split at ec
      · rename_i x ex
        split at ec
        · rename_i y' ey
          cases ec
          have h1 := args_of_splitSym ex
          have h2 := args_of_splitSym ey
          have hx : x.Normal := by
            have hm : x ∈ (app f a).args := by rw [← h1]; simp
            simp only [Term.args, List.mem_append, List.mem_singleton] at hm
            rcases hm with hm | rfl
            · exact hf.args x hm
            · exact ha
          exact hx.args y (by rw [← h2]; simp)
        · cases ec
      · cases ec
    rw [hy.orient_none]
    exact hy
  | none =>
    simp only [Option.getD_none]
    cases eo : orientEq (app f a) with
    | none => exact ⟨hf, ha, hb, ec, eo⟩
    | some y =>
      simp only [Option.getD_some]
      simp only [orientEq] at eo
      split at eo
      · rename_i ty l r ex
        split at eo
        · cases eo
        · rename_i ho
          cases eo
          have h1 := args_of_splitSym ex
          have hm : ∀ x ∈ [ty, l, r], x.Normal := by
            intro x hx
            rw [h1] at hx
            simp only [Term.args, List.mem_append, List.mem_singleton] at hx
            rcases hx with hx | rfl
            · exact hf.args x hx
            · exact ha
          have hty := hm ty (by simp)
          have hl := hm l (by simp)
          have hr := hm r (by simp)
          have hto := eqOrdered_total _ _ (by simpa using ho)
          refine ⟨⟨⟨trivial, hty, rfl, ?_, ?_⟩, hr, rfl, ?_, ?_⟩, hl, rfl, ?_, ?_⟩
          · simp [cancelNotNot, splitSym, spineHead, headAtom]
          · simp [orientEq, splitSym, Term.args]
          · simp [cancelNotNot, splitSym, Term.args]
          · simp [orientEq, splitSym, Term.args]
          · simp [cancelNotNot, splitSym, Term.args]
          · simp [orientEq, splitSym, Term.args, spineHead, headAtom, hto]
      · cases eo

/-- The normalizer returns normal forms. -/
theorem normalizeTerm_normal : ∀ (n : Nat) {t t' : Term}, normalizeTerm n t = some t' → t'.Normal := by
  intro n
  induction n with
  | zero => intro t t' h; cases h
  | succ n ih =>
    intro t t' e
    match t, e with
    | .atom a, e =>
      simp only [normalizeTerm, mapChildren, Option.bind_eq_bind, Option.bind_some, betaHead, etaHead,
        cancelNotNot, splitSym, orientEq, Option.getD_none, Option.some.injEq] at e
      subst e; trivial
    | .app f a, e =>
      simp only [normalizeTerm, mapChildren, Option.bind_eq_bind, Option.pure_def,
        Option.bind_eq_some_iff] at e
      obtain ⟨s, ⟨f', ef, a', ea, es⟩, e⟩ := e
      cases es
      split at e
      · rename_i r er
        simp only [Option.bind_eq_some_iff] at e
        obtain ⟨s, _, e⟩ := e
        exact ih e
      · rename_i hb
        split at e
        · rename_i r er; cases er
        · cases e
          exact Normal.of_children_app (ih ef) (ih ea) hb
    | .bind b A B, e =>
      simp only [normalizeTerm, mapChildren, Option.bind_eq_bind, Option.pure_def,
        Option.bind_eq_some_iff] at e
      obtain ⟨s, ⟨f', ef, a', ea, es⟩, e⟩ := e
      cases es
      split at e
      · rename_i r er; cases er
      · split at e
        · rename_i r er
          simp only [Option.bind_eq_some_iff] at e
          obtain ⟨s, _, e⟩ := e
          exact ih e
        · rename_i he
          cases e
          exact ⟨ih ef, ih ea, he⟩

/-- The normalizer leaves normal forms alone. -/
theorem normalizeTerm_of_normal (t : Term) : t.Normal → ∀ n, t.size ≤ n → normalizeTerm n t = some t := by
  induction t with
  | atom a =>
    intro _ n hn
    cases n with
    | zero => simp [size] at hn
    | succ n => rfl
  | app f a ihf iha =>
    intro h n hn
    cases n with
    | zero => simp [size] at hn
    | succ n =>
      simp only [size] at hn
      have e1 := ihf h.1 n (by omega)
      have e2 := iha h.2.1 n (by omega)
      simp only [normalizeTerm, mapChildren, e1, e2, Option.bind_eq_bind, Option.bind_some,
        Option.pure_def, h.beta_none, h.eta_none, h.cancel_none, Option.getD_none, h.orient_none]
  | bind b A B ihf iha =>
    intro h n hn
    cases n with
    | zero => simp [size] at hn
    | succ n =>
      simp only [size] at hn
      have e1 := ihf h.1 n (by omega)
      have e2 := iha h.2.1 n (by omega)
      simp only [normalizeTerm, mapChildren, e1, e2, Option.bind_eq_bind, Option.bind_some,
        Option.pure_def, h.beta_none, h.eta_none, h.cancel_none, Option.getD_none, h.orient_none]

/-- More fuel does not change the answer. -/
theorem normalizeTerm_mono : ∀ (n : Nat) {t t' : Term} (m : Nat), n ≤ m → normalizeTerm n t = some t' →
    normalizeTerm m t = some t' := by
  intro n
  induction n with
  | zero => intro t t' m _ h; cases h
  | succ n ih =>
    intro t t' m hm e
    cases m with
    | zero => omega
    | succ m =>
      have hm' : n ≤ m := by omega
      simp only [normalizeTerm, Option.bind_eq_bind, Option.bind_eq_some_iff] at e ⊢
      obtain ⟨s, es, e⟩ := e
      refine ⟨s, ?_, ?_⟩
      · cases t with
        | atom a => exact es
        | app f a =>
          simp only [mapChildren, Option.bind_eq_bind, Option.pure_def, Option.bind_eq_some_iff] at es ⊢
          obtain ⟨f', ef, a', ea, es⟩ := es
          exact ⟨f', ih m hm' ef, a', ih m hm' ea, es⟩
        | bind b A B =>
          simp only [mapChildren, Option.bind_eq_bind, Option.pure_def, Option.bind_eq_some_iff] at es ⊢
          obtain ⟨f', ef, a', ea, es⟩ := es
          exact ⟨f', ih m hm' ef, a', ih m hm' ea, es⟩
      · cases eb : betaHead s with
        | some r =>
          rw [eb] at e
          simp only [Option.bind_eq_some_iff] at e ⊢
          obtain ⟨s', e1, e⟩ := e
          exact ⟨s', e1, ih m hm' e⟩
        | none =>
          rw [eb] at e
          simp only at e ⊢
          cases ee : etaHead s with
          | some r =>
            rw [ee] at e
            simp only [Option.bind_eq_some_iff] at e ⊢
            obtain ⟨s', e1, e⟩ := e
            exact ⟨s', e1, ih m hm' e⟩
          | none => rw [ee] at e; exact e

end Term
end Acorn
