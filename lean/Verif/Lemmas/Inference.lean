/-
Injectivity and extensionality.
-/
import Verif.Model.Inference
import Verif.Lemmas.BoolSound
namespace Acorn
namespace Spec
open Term

universe u

variable {K : KCtx} {Γ : LCtx} {M : Interp.{u}}

/-! ### Spines -/

theorem snocRec {α : Type} {P : List α → Prop} (l : List α) (nil : P [])
    (append_singleton : ∀ l a, P l → P (l ++ [a])) : P l := by
  have : ∀ l : List α, P l.reverse := by
    intro l
    induction l with
    | nil => exact nil
    | cons a l ih => rw [List.reverse_cons]; exact append_singleton _ _ ih
  have := this l.reverse
  rwa [List.reverse_reverse] at this

theorem apply_append (f : Term) (as bs : List Term) : f.apply (as ++ bs) = (f.apply as).apply bs := by
  simp [Term.apply, List.foldl_append]

theorem args_apply_atom (h : Atom) (as : List Term) : ((Term.atom h).apply as).args = as := by
  induction as using snocRec with
  | nil => rfl
  | append_singleton as a ih =>
    rw [apply_append]
    simp only [Term.apply, List.foldl_cons, List.foldl_nil, args]
    simp only [Term.apply] at ih
    rw [ih]

theorem headAtom_apply (h : Atom) (as : List Term) : ((Term.atom h).apply as).headAtom = h := by
  induction as using snocRec with
  | nil => rfl
  | append_singleton as a ih =>
    rw [apply_append]
    simp only [Term.apply, List.foldl_cons, List.foldl_nil, headAtom]
    exact ih

/-- A term with arguments whose head is not a binder. -/
theorem AtomHead.eq {t : Term} (h : AtomHead t) (ha : t.args ≠ []) :
    t = (Term.atom t.headAtom).apply t.args := by
  cases t with
  | atom a => exact absurd rfl ha
  | bind _ _ _ => exact absurd rfl ha
  | app f a =>
    obtain ⟨hd, as, e⟩ := h f a rfl
    rw [e, args_apply_atom, headAtom_apply]

theorem eval_apply_congr {ρ β : Nat → M.D} {f : Term} : ∀ {as bs : List Term},
    as.length = bs.length →
    (∀ k (h1 : k < as.length) (h2 : k < bs.length), eval M ρ β as[k] = eval M ρ β bs[k]) →
    ∀ {g : Term}, eval M ρ β f = eval M ρ β g → eval M ρ β (f.apply as) = eval M ρ β (g.apply bs) := by
  intro as
  induction as generalizing f with
  | nil => intro bs hl _ g hg; cases bs with
    | nil => exact hg
    | cons _ _ => cases hl
  | cons a as ih =>
    intro bs hl h g hg
    cases bs with
    | nil => cases hl
    | cons b bs =>
      simp only [Term.apply, List.foldl_cons]
      refine ih (f := .app f a) (g := .app g b) (by simpa using hl) ?_ ?_
      · intro k h1 h2
        exact h (k + 1) (by simpa using h1) (by simpa using h2)
      · have := h 0 (by simp) (by simp)
        simp only [List.getElem_cons_zero] at this
        simp only [eval, hg, this]

/-! ### Injectivity -/

theorem differingArg_spec : ∀ {as bs : List Term} {j : Nat} {d r : Option Nat},
    differingArg j d as bs = some r →
    (∀ k, r = some k → (d = some k ∧ ∀ i, i < as.length → as[i]? = bs[i]?) ∨
      (d = none ∧ j ≤ k ∧ ∀ i, i < as.length → i + j ≠ k → as[i]? = bs[i]?)) := by
  intro as
  induction as with
  | nil =>
    intro bs j d r e k hk
    simp only [differingArg, Option.some.injEq] at e
    subst e
    exact Or.inl ⟨hk, by simp⟩
  | cons a as ih =>
    intro bs j d r e k hk
    cases bs with
    | nil => simp [differingArg] at e
    | cons b bs =>
      simp only [differingArg] at e
      split at e
      · rename_i hne
        split at e
        · cases e; cases hk
        · rcases ih e k hk with ⟨h1, h2⟩ | ⟨h1, _⟩
          · cases h1
            refine Or.inr ⟨rfl, Nat.le_refl _, fun i hi hne => ?_⟩
            cases i with
            | zero => omega
            | succ i => simpa using h2 i (by simpa using hi)
          · cases h1
      · rename_i heq
        simp only [ne_eq, Decidable.not_not] at heq
        subst heq
        rcases ih e k hk with ⟨h1, h2⟩ | ⟨h1, h3, h2⟩
        · refine Or.inl ⟨h1, fun i hi => ?_⟩
          cases i with
          | zero => rfl
          | succ i => simpa using h2 i (by simpa using hi)
        · refine Or.inr ⟨h1, by omega, fun i hi hne => ?_⟩
          cases i with
          | zero => rfl
          | succ i => simpa using h2 i (by simpa using hi) (by omega)

theorem numArgs_args {t : Term} (h : AtomHead t) (ha : t.args ≠ []) : t.numArgs = t.args.length := by
  rw [h.eq ha, args_apply_atom]
  induction t.args using snocRec with
  | nil => rfl
  | append_singleton as a ih =>
    rw [apply_append]
    simp only [Term.apply, List.foldl_cons, List.foldl_nil, numArgs, List.length_append,
      List.length_cons, List.length_nil]
    simp only [Term.apply] at ih
    omega

theorem injectLiteral_sound {l l' : Literal} (hp : l.positive = false) (hl : AtomHead l.left)
    (hr : AtomHead l.right) (e : injectLiteral l = some (some l')) (ρ β : Nat → M.D)
    (h : LitHolds M ρ β l) : LitHolds M ρ β l' := by
  simp only [injectLiteral] at e
  split at e
  · cases e
  · rename_i hh
    split at e
    · cases e
    · rename_i hn
      simp only [ne_eq, Decidable.not_not] at hh hn
      simp only [Option.bind_eq_bind, Option.bind_eq_some_iff] at e
      obtain ⟨r, er, e⟩ := e
      cases r with
      | none => cases e
      | some j =>
        simp only [Option.bind_eq_some_iff] at e
        obtain ⟨a, ea, b, eb, e⟩ := e
        cases e
        have hla : l.left.args ≠ [] := by intro h0; rw [h0] at ea; cases ea
        have hra : l.right.args ≠ [] := by intro h0; rw [h0] at eb; cases eb
        have hlen : l.left.args.length = l.right.args.length := by
          rw [← numArgs_args hl hla, ← numArgs_args hr hra, hn]
        rw [litHolds_new]
        simp only [Bool.false_eq_true, ↓reduceIte, LitHolds, hp] at h ⊢
        intro hab
        apply h
        rw [hl.eq hla, hr.eq hra, hh]
        refine eval_apply_congr hlen (fun k h1 h2 => ?_) rfl
        rcases differingArg_spec er j rfl with ⟨h0, _⟩ | ⟨_, _, h3⟩
        · cases h0
        · by_cases hk : k = j
          · subst hk
            rw [List.getElem?_eq_getElem h1] at ea
            rw [List.getElem?_eq_getElem h2] at eb
            cases ea; cases eb
            exact hab
          · have := h3 k h1 (by omega)
            rw [List.getElem?_eq_getElem h1, List.getElem?_eq_getElem h2] at this
            rw [Option.some.inj this]

theorem set_holds {ls : List Literal} {i : Nat} {l l' : Literal} (hl : ls[i]? = some l) (ρ β : Nat → M.D)
    (h : LitHolds M ρ β l → LitHolds M ρ β l') (hh : LitsHold M ρ β ls) :
    LitsHold M ρ β (ls.set i l') := by
  obtain ⟨a, ha, h1⟩ := hh
  obtain ⟨j, hj, rfl⟩ := List.mem_iff_getElem.1 ha
  have hi := (List.getElem?_eq_some_iff.1 hl).1
  by_cases e : j = i
  · subst e
    refine ⟨l', ?_, ?_⟩
    · exact List.mem_iff_getElem.2 ⟨j, by simpa using hi, by simp⟩
    · rw [List.getElem?_eq_getElem hj] at hl; cases hl; exact h h1
  · exact ⟨ls[j], List.mem_iff_getElem.2 ⟨j, by simpa using hj, by
      rw [List.getElem_set]; simp [Ne.symm e]⟩, h1⟩

theorem findInjectivitiesFrom_sound {ls : List Literal}
    (ha : ∀ l ∈ ls, l.positive = false → AtomHead l.left ∧ AtomHead l.right) : ∀ (rest : List Literal) (i : Nat)
    (rs : List (List Literal)), ls.drop i = rest → findInjectivitiesFrom ls i rest = some rs →
    ∀ r ∈ rs, ∀ ρ β : Nat → M.D, LitsHold M ρ β ls → LitsHold M ρ β r := by
  intro rest
  induction rest with
  | nil => intro i rs _ e r hr; simp only [findInjectivitiesFrom] at e; cases e; cases hr
  | cons l rest ih =>
    intro i rs hd e r hr ρ β hh
    simp only [findInjectivitiesFrom] at e
    split at e
    · cases e; cases hr
    · rename_i hp
      simp only [Option.bind_eq_bind, Option.bind_eq_some_iff] at e
      obtain ⟨o, eo, more, em, e⟩ := e
      have hli : ls[i]? = some l := by
        have : (ls.drop i)[0]? = some l := by rw [hd]; rfl
        rwa [List.getElem?_drop, Nat.add_zero] at this
      have hd' : ls.drop (i + 1) = rest := by
        rw [← List.drop_drop, hd]; rfl
      cases o with
      | none => cases e; exact ih (i + 1) _ hd' em r hr ρ β hh
      | some l' =>
        cases e
        rcases List.mem_cons.1 hr with rfl | hr
        · have hp' : l.positive = false := by simpa using hp
          obtain ⟨h1, h2⟩ := ha l (List.mem_of_getElem? hli) hp'
          exact set_holds hli ρ β (injectLiteral_sound hp' h1 h2 eo ρ β) hh
        · exact ih (i + 1) _ hd' em r hr ρ β hh

end Spec
end Acorn
