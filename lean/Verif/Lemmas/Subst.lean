/-
Parallel substitution for free and bound variables at once.  Every variable operation of the code
base (shifting, opening, abstracting, replacing free variables) is an instance of `sub`, so typing
and evaluation need to be studied only once.
-/
import Verif.Lemmas.Bound
namespace Acorn
namespace Term

/-- Lift a renaming of bound variables under a binder. -/
def upr (r : Nat → Nat) : Nat → Nat
  | 0 => 0
  | n + 1 => r n + 1

/-- Rename bound variables. -/
def ren (r : Nat → Nat) : Term → Term
  | bvar i => bvar (r i)
  | atom a => atom a
  | app f a => app (ren r f) (ren r a)
  | bind b ty body => bind b (ren r ty) (ren (upr r) body)

/-- Lift a substitution for bound variables under a binder. -/
def ups (σ : Nat → Term) : Nat → Term
  | 0 => bvar 0
  | n + 1 => ren Nat.succ (σ n)

/-- Lift a substitution for free variables under a binder. -/
def lift (φ : Nat → Term) : Nat → Term := fun i => ren Nat.succ (φ i)

/-- Substitute `φ` for the free and `σ` for the bound variables, avoiding capture. -/
def sub (φ σ : Nat → Term) : Term → Term
  | fvar i => φ i
  | bvar i => σ i
  | sym s => sym s
  | app f a => app (sub φ σ f) (sub φ σ a)
  | bind b ty body => bind b (sub φ σ ty) (sub (lift φ) (ups σ) body)

/-- Free-variable identity. -/
def fid : Nat → Term := fun i => fvar i
/-- Bound-variable identity. -/
def bid : Nat → Term := fun i => bvar i

/-- Substitution that instantiates bound variable 0. -/
def one (r : Term) : Nat → Term
  | 0 => r
  | n + 1 => bvar n

theorem upr_comp (r s : Nat → Nat) : upr r ∘ upr s = upr (r ∘ s) := by
  funext i; cases i <;> rfl

theorem upr_id : upr id = id := by funext i; cases i <;> rfl

theorem ren_ren (r s : Nat → Nat) (t : Term) : ren r (ren s t) = ren (r ∘ s) t := by
  induction t generalizing r s with
  | atom a => cases a <;> rfl
  | app f a ihf iha => simp [ren, ihf, iha]
  | bind b ty body ih1 ih2 => simp [ren, ih1, ih2, upr_comp]

theorem ren_id (t : Term) : ren id t = t := by
  induction t with
  | atom a => cases a <;> rfl
  | app f a ihf iha => simp [ren, ihf, iha]
  | bind b ty body ih1 ih2 => simp [ren, ih1, upr_id, ih2]

theorem ups_upr (σ : Nat → Term) (r : Nat → Nat) : ups σ ∘ upr r = ups (σ ∘ r) := by
  funext i; cases i <;> rfl

theorem sub_ren (φ σ : Nat → Term) (r : Nat → Nat) (t : Term) :
    sub φ σ (ren r t) = sub φ (σ ∘ r) t := by
  induction t generalizing φ σ r with
  | atom a => cases a <;> rfl
  | app f a ihf iha => simp [ren, sub, ihf, iha]
  | bind b ty body ih1 ih2 => simp [ren, sub, ih1, ih2, ups_upr]

theorem ren_ups (r : Nat → Nat) (σ : Nat → Term) :
    (fun i => ren (upr r) (ups σ i)) = ups (fun i => ren r (σ i)) := by
  funext i
  cases i with
  | zero => rfl
  | succ n => simp only [ups, ren_ren]; rfl

theorem ren_lift (r : Nat → Nat) (φ : Nat → Term) :
    (fun i => ren (upr r) (lift φ i)) = lift (fun i => ren r (φ i)) := by
  funext i
  simp only [lift, ren_ren]; rfl

theorem ren_sub (φ σ : Nat → Term) (r : Nat → Nat) (t : Term) :
    ren r (sub φ σ t) = sub (fun i => ren r (φ i)) (fun i => ren r (σ i)) t := by
  induction t generalizing φ σ r with
  | atom a => cases a <;> rfl
  | app f a ihf iha => simp [ren, sub, ihf, iha]
  | bind b ty body ih1 ih2 => simp only [ren, sub, ih1, ih2, ren_ups, ren_lift]

theorem sub_lift (φ σ : Nat → Term) (t : Term) :
    sub (lift φ) (ups σ) (ren Nat.succ t) = ren Nat.succ (sub φ σ t) := by
  rw [sub_ren, ren_sub]; rfl

theorem sub_sub (φ σ φ' σ' : Nat → Term) (t : Term) :
    sub φ σ (sub φ' σ' t) = sub (fun i => sub φ σ (φ' i)) (fun i => sub φ σ (σ' i)) t := by
  induction t generalizing φ σ φ' σ' with
  | atom a => cases a <;> rfl
  | app f a ihf iha => simp [sub, ihf, iha]
  | bind b ty body ih1 ih2 =>
    simp only [sub, ih1, ih2]
    have h1 : (fun i => sub (lift φ) (ups σ) (lift φ' i)) = lift (fun i => sub φ σ (φ' i)) := by
      funext i; exact sub_lift φ σ (φ' i)
    have h2 : (fun i => sub (lift φ) (ups σ) (ups σ' i)) = ups (fun i => sub φ σ (σ' i)) := by
      funext i
      cases i with
      | zero => rfl
      | succ n => exact sub_lift φ σ (σ' n)
    rw [h1, h2]

theorem ups_bid : ups bid = bid := by funext i; cases i <;> rfl
theorem lift_fid : lift fid = fid := by funext i; rfl

theorem sub_id (t : Term) : sub fid bid t = t := by
  induction t with
  | atom a => cases a <;> rfl
  | app f a ihf iha => simp [sub, ihf, iha]
  | bind b ty body ih1 ih2 => simp [sub, ih1, ups_bid, lift_fid, ih2]

theorem ren_eq_sub (r : Nat → Nat) (t : Term) : ren r t = sub fid (fun i => bvar (r i)) t := by
  have h := ren_sub fid bid r t
  rw [sub_id] at h
  exact h

/-! ### The operations of the model as substitutions -/

theorem up_eq_ren (c n : Nat) (t : Term) : up c n t = ren (fun i => if c ≤ i then i + n else i) t := by
  induction t generalizing c with
  | atom a =>
    cases a with
    | bvar i => simp only [up, ren]; split <;> rfl
    | _ => rfl
  | app f a ihf iha => simp [up, ren, ihf, iha]
  | bind b ty body ih1 ih2 =>
    simp only [up, ren, ih1, ih2]
    congr 2
    funext i
    cases i with
    | zero => simp [upr]
    | succ i =>
      simp only [upr, Nat.add_le_add_iff_right]
      split <;> omega

theorem up_zero_one (t : Term) : up 0 1 t = ren Nat.succ t := by
  rw [up_eq_ren]; rfl

/-- The substitution performed by `inst d r`. -/
def instσ (d : Nat) (r : Term) : Nat → Term :=
  fun i => if i < d then bvar i else if i = d then up 0 d r else bvar (i - 1)

theorem inst_eq_sub (d : Nat) (r t : Term) : inst d r t = sub fid (instσ d r) t := by
  induction t generalizing d with
  | atom a => cases a <;> rfl
  | app f a ihf iha => simp [inst, sub, ihf, iha]
  | bind b ty body ih1 ih2 =>
    simp only [inst, sub, ih1, ih2, lift_fid]
    congr 2
    funext i
    cases i with
    | zero => simp [instσ, ups]
    | succ i =>
      simp only [instσ, ups, Nat.add_lt_add_iff_right, Nat.add_right_cancel_iff]
      split
      · rfl
      · split
        · rw [← up_zero_one]
          have := up_up 0 d 1 0 r (by omega)
          simp only [Nat.add_zero] at this
          exact this.symm
        · simp only [ren]
          congr 2; omega

theorem inst_zero_eq (r t : Term) : inst 0 r t = sub fid (one r) t := by
  rw [inst_eq_sub]
  congr 1
  funext i
  cases i with
  | zero => simp [instσ, one, up_zero]
  | succ i => simp [instσ, one]

/-- Instantiation commutes with substitution. -/
theorem sub_inst (φ σ : Nat → Term) (a t : Term) :
    sub φ σ (inst 0 a t) = inst 0 (sub φ σ a) (sub (lift φ) (ups σ) t) := by
  rw [inst_zero_eq, inst_zero_eq, sub_sub, sub_sub]
  congr 1
  · funext i
    simp only [fid, sub, lift]
    rw [sub_ren]
    have : one (sub φ σ a) ∘ Nat.succ = bid := by funext i; rfl
    rw [this, sub_id]
  · funext i
    cases i with
    | zero => rfl
    | succ n =>
      simp only [one, sub, ups]
      rw [sub_ren]
      have : one (sub φ σ a) ∘ Nat.succ = bid := by funext i; rfl
      rw [this, sub_id]

theorem inst_up (r t : Term) : inst 0 r (ren Nat.succ t) = t := by
  rw [inst_zero_eq, sub_ren]
  have : one r ∘ Nat.succ = bid := by funext i; rfl
  rw [this, sub_id]

theorem sub_escapes (φ : Nat → Term) (t : Term) :
    ∀ (d : Nat) (σ τ : Nat → Term) , escapesAt d t = false → (∀ i, i < d → σ i = τ i) →
    sub φ σ t = sub φ τ t := by
  induction t generalizing φ with
  | atom a =>
    intro d σ τ h1 h2
    cases a with
    | bvar i =>
      simp [escapesAt] at h1
      simp [sub, h2 i h1]
    | _ => rfl
  | app f a ihf iha =>
    intro d σ τ h1 h2
    simp [escapesAt] at h1
    simp [sub, ihf φ d σ τ h1.1 h2, iha φ d σ τ h1.2 h2]
  | bind b ty body ih1 ih2 =>
    intro d σ τ h1 h2
    simp [escapesAt] at h1
    simp only [sub, ih1 φ d σ τ h1.1 h2]
    congr 1
    apply ih2 _ (d + 1) _ _ h1.2
    intro i hi
    cases i with
    | zero => rfl
    | succ i => simp [ups, h2 i (by omega)]

theorem sub_closed (φ σ τ : Nat → Term) (t : Term) (h : t.escapes = false) :
    sub φ σ t = sub φ τ t :=
  sub_escapes φ t 0 σ τ h (by omega)

theorem ren_closed (r : Nat → Nat) (t : Term) (h : t.escapes = false) : ren r t = t := by
  rw [ren_eq_sub, sub_closed _ _ bid t h, sub_id]

theorem sub_fvars (t : Term) : ∀ (φ ψ σ : Nat → Term), (∀ i, t.hasVar i = true → φ i = ψ i) →
    sub φ σ t = sub ψ σ t := by
  induction t with
  | atom a =>
    intro φ ψ σ h
    cases a with
    | fvar i => exact h i (by simp [hasVar, atoms])
    | _ => rfl
  | app f a ihf iha =>
    intro φ ψ σ h
    simp only [sub]
    rw [ihf φ ψ σ (fun i hi => h i (by simp [hasVar, atoms] at hi ⊢; exact Or.inl hi)),
      iha φ ψ σ (fun i hi => h i (by simp [hasVar, atoms] at hi ⊢; exact Or.inr hi))]
  | bind b ty body ih1 ih2 =>
    intro φ ψ σ h
    simp only [sub]
    rw [ih1 φ ψ σ (fun i hi => h i (by simp [hasVar, atoms] at hi ⊢; exact Or.inl hi)),
      ih2 (lift φ) (lift ψ) _ (fun i hi => by
        simp only [lift]
        rw [h i (by simp [hasVar, atoms] at hi ⊢; exact Or.inr hi)])]

/-- A term with no free and no escaping bound variable. -/
def Ground (t : Term) : Prop := t.escapes = false ∧ ∀ i, t.hasVar i = false

theorem sub_ground (φ σ : Nat → Term) (t : Term) (h : t.Ground) : sub φ σ t = t := by
  rw [sub_closed φ σ bid t h.1, sub_fvars t φ fid bid (fun i hi => by rw [h.2 i] at hi; cases hi),
    sub_id]

theorem replaceVar_eq_sub (x : Nat) (v t : Term) (h : v.escapes = false) :
    replaceVar x v t = sub (fun i => if i = x then v else fvar i) bid t := by
  induction t with
  | atom a =>
    cases a with
    | fvar i => simp only [replaceVar, sub]
    | _ => rfl
  | app f a ihf iha => simp [replaceVar, sub, ihf, iha]
  | bind b ty body ih1 ih2 =>
    simp only [replaceVar, sub, ih1, ih2, ups_bid]
    congr 2
    funext i
    simp only [lift]
    split
    · exact (ren_closed _ v h).symm
    · rfl

/-- The free-variable part of `abstractVar`. -/
theorem abstractVar_eq_sub (x d : Nat) (t : Term) :
    abstractVar x d t = sub (fun i => if i = x then bvar d else fvar i)
      (fun i => if d ≤ i then bvar (i + 1) else bvar i) t := by
  induction t generalizing d with
  | atom a => cases a <;> rfl
  | app f a ihf iha => simp [abstractVar, sub, ihf, iha]
  | bind b ty body ih1 ih2 =>
    simp only [abstractVar, sub, ih1, ih2]
    congr 2
    · funext i
      simp only [lift]
      split <;> rfl
    · funext i
      cases i with
      | zero => simp [ups]
      | succ i =>
        simp only [ups, Nat.add_le_add_iff_right]
        split <;> rfl

/-! ### Evaluation -/

end Term

theorem eval_ren (M : Interp.{u}) (ρ : Nat → M.D) (r : Nat → Nat) (t : Term) :
    ∀ β : Nat → M.D, eval M ρ β (Term.ren r t) = eval M ρ (β ∘ r) t := by
  induction t generalizing r with
  | atom a => intro β; cases a <;> rfl
  | app f a ihf iha => intro β; simp [Term.ren, eval, ihf, iha]
  | bind b ty body ih1 ih2 =>
    intro β
    simp only [Term.ren, eval, ih1, ih2]
    congr 1
    funext d
    congr 1
    funext i
    cases i <;> rfl

theorem eval_sub (M : Interp.{u}) (t : Term) : ∀ (φ σ : Nat → Term) (ρ β : Nat → M.D),
    eval M ρ β (Term.sub φ σ t)
      = eval M (fun i => eval M ρ β (φ i)) (fun i => eval M ρ β (σ i)) t := by
  induction t with
  | atom a => intro φ σ ρ β; cases a <;> rfl
  | app f a ihf iha => intro φ σ ρ β; simp [Term.sub, eval, ihf, iha]
  | bind b ty body ih1 ih2 =>
    intro φ σ ρ β
    simp only [Term.sub, eval, ih1, ih2]
    congr 1
    funext d
    congr 1
    · funext i
      simp only [Term.lift, eval_ren]
      rfl
    · funext i
      cases i with
      | zero => rfl
      | succ i =>
        simp only [Term.ups, eval_ren]
        rfl

end Acorn
