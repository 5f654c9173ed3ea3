/-
Helper lemmas about shifting, substituting and opening.
-/
import Verif.Model.Bound
import Verif.Spec.Semantics
namespace Acorn
namespace Term

/-- Total upward shift, used only in proofs. -/
def up (c n : Nat) : Term → Term
  | bvar i => if c ≤ i then bvar (i + n) else bvar i
  | atom a => atom a
  | app f a => app (up c n f) (up c n a)
  | bind b ty body => bind b (up c n ty) (up (c + 1) n body)

/-- Total capture-avoiding instantiation of bound variable `d`, used only in proofs. -/
def inst (d : Nat) (r : Term) : Term → Term
  | bvar i => if i < d then bvar i else if i = d then up 0 d r else bvar (i - 1)
  | atom a => atom a
  | app f a => app (inst d r f) (inst d r a)
  | bind b ty body => bind b (inst d r ty) (inst (d + 1) r body)

theorem shift_nonneg (c n : Nat) (t : Term) : shift c (n : Int) t = some (up c n t) := by
  induction t generalizing c with
  | atom a =>
    cases a with
    | bvar i =>
      simp only [shift, up]
      split
      · rw [if_pos (by omega)]
        congr 2
      · rfl
    | _ => rfl
  | app f a ihf iha => simp [shift, up, ihf, iha]
  | bind b ty body ih1 ih2 => simp [shift, up, ih1, ih2]

theorem up_up (c n m k : Nat) (t : Term) (h : k ≤ n) : up (c + k) m (up c n t) = up c (n + m) t := by
  induction t generalizing c with
  | atom a =>
    cases a with
    | bvar i =>
      simp only [up]
      split
      · simp only [up]
        rw [if_pos (by omega), Nat.add_assoc]
      · simp only [up]
        rw [if_neg (by omega)]
    | _ => rfl
  | app f a ihf iha => simp [up, ihf, iha]
  | bind b ty body ih1 ih2 =>
    simp only [up, ih1]
    have := ih2 (c + 1)
    rw [show c + 1 + k = c + k + 1 by omega] at this
    rw [this]

theorem shift_down_up (c d : Nat) (t : Term) :
    shift (c + d) (-1) (up c (d + 1) t) = some (up c d t) := by
  induction t generalizing c with
  | atom a =>
    cases a with
    | bvar i =>
      simp only [up]
      split
      · simp only [shift]
        rw [if_pos (by omega), if_pos (by omega)]
        congr 3; omega
      · simp only [shift]
        rw [if_neg (by omega)]
    | _ => rfl
  | app f a ihf iha => simp [up, shift, ihf, iha]
  | bind b ty body ih1 ih2 =>
    have := ih2 (c + 1)
    rw [show c + 1 + d = c + d + 1 by omega] at this
    simp [up, shift, ih1, this]

theorem open_aux (d : Nat) (r t : Term) :
    (substBoundAt 0 (up 0 1 r) d t).bind (fun s => shift d (-1) s) = some (inst d r t) := by
  induction t generalizing d with
  | atom a =>
    cases a with
    | bvar i =>
      simp only [substBoundAt, inst, Nat.zero_add]
      by_cases h : i = d
      · subst h
        rw [if_pos rfl, if_neg (by omega), if_pos rfl, shift_nonneg]
        have h1 := up_up 0 1 i 0 r (by omega)
        simp only [Nat.add_zero] at h1
        rw [h1]
        have := shift_down_up 0 i r
        rw [Nat.zero_add] at this
        rw [Nat.add_comm 1 i]
        simpa using this
      · rw [if_neg h]
        simp only [Option.bind_some, shift]
        by_cases h2 : i < d
        · rw [if_neg (by omega), if_pos h2]
        · rw [if_pos (by omega), if_pos (by omega), if_neg h2, if_neg h]
          congr 3; omega
    | _ => rfl
  | app f a ihf iha =>
    have h1 := ihf d
    have h2 := iha d
    cases e1 : substBoundAt 0 (up 0 1 r) d f <;> simp [e1] at h1
    cases e2 : substBoundAt 0 (up 0 1 r) d a <;> simp [e2] at h2
    simp [substBoundAt, e1, e2, shift, h1, h2, inst]
  | bind b ty body ih1 ih2 =>
    have h1 := ih1 d
    have h2 := ih2 (d + 1)
    cases e1 : substBoundAt 0 (up 0 1 r) d ty <;> simp [e1] at h1
    cases e2 : substBoundAt 0 (up 0 1 r) (d + 1) body <;> simp [e2] at h2
    simp [substBoundAt, e1, e2, shift, h1, h2, inst]

/-- Opening never hits the panic path and computes the textbook instantiation. -/
theorem openBound_eq (body r : Term) : openBound body r = some (inst 0 r body) := by
  have h := open_aux 0 r body
  have h1 := shift_nonneg 0 1 r
  simp only [openBound, substBound]
  rw [show ((1 : Int)) = ((1 : Nat) : Int) from rfl, h1]
  simpa using h

theorem up_zero (c : Nat) (t : Term) : up c 0 t = t := by
  induction t generalizing c with
  | atom a => cases a <;> simp [up]
  | app f a ihf iha => simp [up, ihf, iha]
  | bind b ty body ih1 ih2 => simp [up, ih1, ih2]

theorem inst_abstract_at (x d : Nat) (t : Term) : inst d (.fvar x) (abstractVar x d t) = t := by
  induction t generalizing d with
  | atom a =>
    cases a with
    | fvar i =>
      simp only [abstractVar]
      split
      · rename_i h; subst h; simp [inst, up]
      · rfl
    | bvar i =>
      simp only [abstractVar]
      split
      · simp only [inst]; rw [if_neg (by omega), if_neg (by omega)]; rfl
      · simp only [inst]; rw [if_pos (by omega)]
    | sym s => rfl
  | app f a ihf iha => simp [abstractVar, inst, ihf, iha]
  | bind b ty body ih1 ih2 => simp [abstractVar, inst, ih1, ih2]

theorem inst_abstract (x : Nat) (t : Term) : inst 0 (.fvar x) (abstractVar x 0 t) = t :=
  inst_abstract_at x 0 t

theorem abstract_inst (x : Nat) (t : Term) (d : Nat) (h : t.hasVar x = false) :
    abstractVar x d (inst d (.fvar x) t) = t := by
  induction t generalizing d with
  | atom a =>
    cases a with
    | fvar i =>
      simp [hasVar, atoms] at h
      simp [inst, abstractVar, h]
    | bvar i =>
      simp only [inst]
      split
      · simp only [abstractVar]; rw [if_neg (by omega)]
      · split
        · subst_vars; simp [up, abstractVar]
        · simp only [abstractVar]; rw [if_pos (by omega)]; congr 2; omega
    | sym s => rfl
  | app f a ihf iha =>
    simp [hasVar, atoms] at h
    simp [inst, abstractVar, ihf d (by simpa [hasVar] using h.1), iha d (by simpa [hasVar] using h.2)]
  | bind b ty body ih1 ih2 =>
    simp [hasVar, atoms] at h
    simp [inst, abstractVar, ih1 d (by simpa [hasVar] using h.1),
      ih2 (d + 1) (by simpa [hasVar] using h.2)]

end Term

theorem push_ext {D : Type u} {d : D} {β γ : Nat → D} (h : ∀ i, β i = γ i) (i : Nat) :
    push d β i = push d γ i := by
  cases i <;> simp [push, h]

theorem eval_up (M : Interp.{u}) (ρ : Nat → M.D) (c n : Nat) (t : Term) :
    ∀ β γ : Nat → M.D, (∀ i, i < c → β i = γ i) → (∀ i, c ≤ i → β i = γ (i + n)) →
    eval M ρ γ (Term.up c n t) = eval M ρ β t := by
  induction t generalizing c with
  | atom a =>
    intro β γ h1 h2
    cases a with
    | bvar i =>
      simp only [Term.up]
      split
      · rename_i h; simp [eval, h2 i h]
      · rename_i h; simp [eval, h1 i (by omega)]
    | fvar i => rfl
    | sym s => rfl
  | app f a ihf iha =>
    intro β γ h1 h2
    simp [Term.up, eval, ihf c β γ h1 h2, iha c β γ h1 h2]
  | bind b ty body ih1 ih2 =>
    intro β γ h1 h2
    simp only [Term.up, eval, ih1 c β γ h1 h2]
    congr 1
    funext d
    apply ih2 (c + 1)
    · intro i hi
      cases i with
      | zero => rfl
      | succ i => exact h1 i (by omega)
    · intro i hi
      cases i with
      | zero => omega
      | succ i =>
        have := h2 i (by omega)
        rw [show i + 1 + n = (i + n) + 1 by omega]
        simpa [push] using this

theorem eval_inst (M : Interp.{u}) (ρ : Nat → M.D) (d : Nat) (r t : Term) :
    ∀ β γ : Nat → M.D, (∀ i, i < d → β i = γ i) → (β d = eval M ρ (fun j => γ (j + d)) r) →
      (∀ i, d < i → β i = γ (i - 1)) →
    eval M ρ γ (Term.inst d r t) = eval M ρ β t := by
  induction t generalizing d with
  | atom a =>
    intro β γ h1 h2 h3
    cases a with
    | bvar i =>
      simp only [Term.inst]
      by_cases hlt : i < d
      · rw [if_pos hlt]; simp [eval, h1 i hlt]
      · rw [if_neg hlt]
        by_cases heq : i = d
        · subst heq
          rw [if_pos rfl, eval_up M ρ 0 i r (fun j => γ (j + i)) γ (by omega) (by intros; rfl)]
          simp [eval, h2]
        · rw [if_neg heq]; simp [eval, h3 i (by omega)]
    | fvar i => rfl
    | sym s => rfl
  | app f a ihf iha =>
    intro β γ h1 h2 h3
    simp [Term.inst, eval, ihf d β γ h1 h2 h3, iha d β γ h1 h2 h3]
  | bind b ty body ih1 ih2 =>
    intro β γ h1 h2 h3
    simp only [Term.inst, eval, ih1 d β γ h1 h2 h3]
    congr 1
    funext e
    apply ih2 (d + 1)
    · intro i hi
      cases i with
      | zero => rfl
      | succ i => exact h1 i (by omega)
    · simp only [push]
      rw [h2]
      rfl
    · intro i hi
      cases i with
      | zero => omega
      | succ i =>
        have := h3 i (by omega)
        cases i with
        | zero => omega
        | succ i => simpa [push] using this

/-- Semantic substitution lemma for instantiating the outermost bound variable. -/
theorem eval_inst_zero (M : Interp.{u}) (ρ β : Nat → M.D) (r body : Term) :
    eval M ρ β (Term.inst 0 r body) = eval M ρ (push (eval M ρ β r) β) body := by
  apply eval_inst
  · omega
  · rfl
  · intro i hi
    cases i with
    | zero => omega
    | succ i => rfl

theorem eval_openBound (M : Interp.{u}) (ρ β : Nat → M.D) (r body t : Term)
    (h : Term.openBound body r = some t) :
    eval M ρ β t = eval M ρ (push (eval M ρ β r) β) body := by
  rw [Term.openBound_eq] at h
  cases h
  exact eval_inst_zero M ρ β r body

theorem eval_substBoundAt (M : Interp.{u}) (ρ : Nat → M.D) (index : Nat) (r t : Term) :
    ∀ (depth : Nat) (t' : Term) (β γ : Nat → M.D), Term.substBoundAt index r depth t = some t' →
      (∀ i, i ≠ index + depth → γ i = β i) →
      γ (index + depth) = eval M ρ (fun j => β (j + depth)) r →
      eval M ρ β t' = eval M ρ γ t := by
  induction t with
  | atom a =>
    intro depth t' β γ h h1 h2
    cases a with
    | bvar i =>
      simp only [Term.substBoundAt] at h
      split at h
      · rename_i hi
        rw [Term.shift_nonneg] at h
        cases h
        rw [eval_up M ρ 0 depth r (fun j => β (j + depth)) β (by omega) (by intros; rfl)]
        simp [eval, hi, h2]
      · rename_i hi
        cases h
        simp [eval, h1 i hi]
    | fvar i => simp [Term.substBoundAt] at h; subst h; rfl
    | sym s => simp [Term.substBoundAt] at h; subst h; rfl
  | app f a ihf iha =>
    intro depth t' β γ h h1 h2
    simp only [Term.substBoundAt, Option.bind_eq_bind, Option.bind_eq_some_iff, Option.pure_def,
      Option.some.injEq] at h
    obtain ⟨f', hf, a', ha, rfl⟩ := h
    simp [eval, ihf _ _ β γ hf h1 h2, iha _ _ β γ ha h1 h2]
  | bind b ty body ih1 ih2 =>
    intro depth t' β γ h h1 h2
    simp only [Term.substBoundAt, Option.bind_eq_bind, Option.bind_eq_some_iff, Option.pure_def,
      Option.some.injEq] at h
    obtain ⟨f', hf, a', ha, rfl⟩ := h
    simp only [eval, ih1 _ _ β γ hf h1 h2]
    congr 1
    funext d
    apply ih2 _ _ _ _ ha
    · intro i hi
      cases i with
      | zero => rfl
      | succ i => exact h1 i (by omega)
    · rw [← Nat.add_assoc]
      simp only [push]
      rw [h2]
      rfl

theorem eval_substBound (M : Interp.{u}) (ρ β : Nat → M.D) (index : Nat) (r t t' : Term)
    (h : Term.substBound index r t = some t') :
    eval M ρ β t' = eval M ρ (fun i => if i = index then eval M ρ β r else β i) t := by
  apply eval_substBoundAt M ρ index r t 0 t' β _ h
  · intro i hi; simp at hi; simp [hi]
  · simp

/-- Values only depend on the bound variables that occur. -/
theorem eval_escapes (M : Interp.{u}) (ρ : Nat → M.D) (t : Term) :
    ∀ (d : Nat) (β γ : Nat → M.D), Term.escapesAt d t = false → (∀ i, i < d → β i = γ i) →
      eval M ρ β t = eval M ρ γ t := by
  induction t with
  | atom a =>
    intro d β γ h1 h2
    cases a with
    | bvar i =>
      simp [Term.escapesAt] at h1
      simp [eval, h2 i h1]
    | fvar i => rfl
    | sym s => rfl
  | app f a ihf iha =>
    intro d β γ h1 h2
    simp [Term.escapesAt] at h1
    simp [eval, ihf d β γ h1.1 h2, iha d β γ h1.2 h2]
  | bind b ty body ih1 ih2 =>
    intro d β γ h1 h2
    simp [Term.escapesAt] at h1
    simp only [eval, ih1 d β γ h1.1 h2]
    congr 1
    funext e
    apply ih2 (d + 1) _ _ h1.2
    intro i hi
    cases i with
    | zero => rfl
    | succ i => exact h2 i (by omega)

theorem eval_closed (M : Interp.{u}) (ρ β γ : Nat → M.D) (t : Term) (h : t.escapes = false) :
    eval M ρ β t = eval M ρ γ t :=
  eval_escapes M ρ t 0 β γ h (by omega)

/-- Values only depend on the free variables that occur. -/
theorem eval_fvars (M : Interp.{u}) (t : Term) :
    ∀ (ρ σ β : Nat → M.D), (∀ i, t.hasVar i = true → ρ i = σ i) → eval M ρ β t = eval M σ β t := by
  induction t with
  | atom a =>
    intro ρ σ β h
    cases a with
    | fvar i => exact h i (by simp [Term.hasVar, Term.atoms])
    | _ => rfl
  | app f a ihf iha =>
    intro ρ σ β h
    have hf : ∀ i, f.hasVar i = true → ρ i = σ i := by
      intro i hi; apply h; simp [Term.hasVar, Term.atoms] at hi ⊢; exact Or.inl hi
    have ha : ∀ i, a.hasVar i = true → ρ i = σ i := by
      intro i hi; apply h; simp [Term.hasVar, Term.atoms] at hi ⊢; exact Or.inr hi
    simp [eval, ihf ρ σ β hf, iha ρ σ β ha]
  | bind b ty body ih1 ih2 =>
    intro ρ σ β h
    have hf : ∀ i, ty.hasVar i = true → ρ i = σ i := by
      intro i hi; apply h; simp [Term.hasVar, Term.atoms] at hi ⊢; exact Or.inl hi
    have ha : ∀ i, body.hasVar i = true → ρ i = σ i := by
      intro i hi; apply h; simp [Term.hasVar, Term.atoms] at hi ⊢; exact Or.inr hi
    simp only [eval, ih1 ρ σ β hf]
    congr 1
    funext d
    exact ih2 ρ σ _ ha

end Acorn
