/-
Normalization keeps terms without kinds, and terms without beta redexes.
-/
import Verif.Lemmas.PlainTypes
import Verif.Spec.BetaFree
import Verif.Lemmas.NormalForm
import Verif.Lemmas.BoolSound
import Verif.Lemmas.Inference
namespace Acorn
open Spec Term

universe u

variable {K : KCtx} {Γ : LCtx} {M : Interp.{u}}

/-! ### Terms without kinds -/

namespace Spec.SortFree

theorem args {t : Term} (h : SortFree t) : ∀ a ∈ t.args, SortFree a := by
  induction t with
  | atom a => intro x hx; simp [Term.args] at hx
  | bind b A B _ _ => intro x hx; simp [Term.args] at hx
  | app f a ihf _ =>
    intro x hx
    have h := SortFree.app.1 h
    simp only [Term.args, List.mem_append, List.mem_singleton] at hx
    rcases hx with hx | rfl
    · exact ihf h.1 x hx
    · exact h.2

theorem spineHead {t : Term} (h : SortFree t) : SortFree t.spineHead := by
  induction t with
  | atom a => exact h
  | bind b A B _ _ => exact h
  | app f a ihf _ => exact ihf (SortFree.app.1 h).1

theorem apply {as : List Term} : ∀ {t : Term}, SortFree t → (∀ a ∈ as, SortFree a) → SortFree (t.apply as) := by
  induction as with
  | nil => intro t h _; exact h
  | cons a as ih =>
    intro t h ha
    exact ih (SortFree.app.2 ⟨h, ha a (by simp)⟩) fun x hx => ha x (by simp [hx])

theorem shift {t : Term} : ∀ {c : Nat} {n : Int} {t' : Term}, SortFree t → Term.shift c n t = some t' →
    SortFree t' := by
  induction t with
  | atom a =>
    intro c n t' h e
    cases a with
    | bvar i =>
      simp only [Term.shift] at e
      split at e
      · split at e
        · cases e; exact .bvar
        · cases e
      · cases e; exact .bvar
    | _ => cases e; exact h
  | app f a ihf iha =>
    intro c n t' h e
    simp only [Term.shift, Option.bind_eq_bind, Option.bind_eq_some_iff] at e
    obtain ⟨f', e1, a', e2, e⟩ := e
    cases e
    have h := SortFree.app.1 h
    exact SortFree.app.2 ⟨ihf h.1 e1, iha h.2 e2⟩
  | bind b f a ihf iha =>
    intro c n t' h e
    simp only [Term.shift, Option.bind_eq_bind, Option.bind_eq_some_iff] at e
    obtain ⟨f', e1, a', e2, e⟩ := e
    cases e
    have h := SortFree.bind.1 h
    exact SortFree.bind.2 ⟨ihf h.1 e1, iha h.2 e2⟩

theorem openBound {b a t : Term} (hb : SortFree b) (ha : SortFree a) (e : Term.openBound b a = some t) :
    SortFree t := by
  rw [openBound_eq] at e; cases e; exact hb.inst ha

theorem vmap {t : Term} (g : Nat → Nat) (h : SortFree t) : SortFree (t.vmap g) :=
  h.sub (fun _ => .fvar) fun _ => .bvar

theorem splitSym {t : Term} (h : SortFree t) {s : Symbol} {n : Nat} {as : List Term}
    (e : Term.splitSym t s n = some as) : ∀ a ∈ as, SortFree a := by
  rw [args_of_splitSym e]; exact h.args

theorem splitSymExact {t : Term} (h : SortFree t) {s : Symbol} {n : Nat} {as : List Term}
    (e : Term.splitSymExact t s n = some as) : ∀ a ∈ as, SortFree a := by
  unfold Term.splitSymExact at e
  split at e
  · split at e
    · cases e; exact h.args
    · cases e
  · cases e

theorem not {t : Term} (h : SortFree t) : SortFree (.not t) := SortFree.app.2 ⟨.sym rfl, h⟩
theorem and {s t : Term} (h : SortFree s) (h' : SortFree t) : SortFree (.and s t) :=
  SortFree.app.2 ⟨SortFree.app.2 ⟨.sym rfl, h⟩, h'⟩
theorem or {s t : Term} (h : SortFree s) (h' : SortFree t) : SortFree (.or s t) :=
  SortFree.app.2 ⟨SortFree.app.2 ⟨.sym rfl, h⟩, h'⟩
theorem eq {T s t : Term} (hT : SortFree T) (h : SortFree s) (h' : SortFree t) : SortFree (.eq T s t) :=
  SortFree.app.2 ⟨SortFree.app.2 ⟨SortFree.app.2 ⟨.sym rfl, hT⟩, h⟩, h'⟩

theorem mapChildren {g : Term → Option Term} (hg : ∀ t t', SortFree t → g t = some t' → SortFree t') {t t' : Term}
    (h : SortFree t) (e : Term.mapChildren g t = some t') : SortFree t' := by
  cases t with
  | atom a => cases e; exact h
  | app f a =>
    simp only [Term.mapChildren, Option.bind_eq_bind, Option.bind_eq_some_iff] at e
    obtain ⟨f', e1, a', e2, e⟩ := e
    cases e
    have h := SortFree.app.1 h
    exact SortFree.app.2 ⟨hg _ _ h.1 e1, hg _ _ h.2 e2⟩
  | bind b f a =>
    simp only [Term.mapChildren, Option.bind_eq_bind, Option.bind_eq_some_iff] at e
    obtain ⟨f', e1, a', e2, e⟩ := e
    cases e
    have h := SortFree.bind.1 h
    exact SortFree.bind.2 ⟨hg _ _ h.1 e1, hg _ _ h.2 e2⟩

theorem betaHead {t t' : Term} (h : SortFree t) (e : Term.betaHead t = some (some t')) : SortFree t' := by
  unfold Term.betaHead at e
  split at e
  · have h := SortFree.app.1 h
    exact openBound (SortFree.bind.1 h.1).2 h.2 (Option.some.inj e)
  · cases e

theorem etaHead {t t' : Term} (h : SortFree t) (e : Term.etaHead t = some (some t')) : SortFree t' := by
  unfold Term.etaHead at e
  split at e
  · have h := (SortFree.bind.1 h).2
    split at e
    · cases e
    · dsimp only at e
      repeat' split at e
      all_goals first | cases e | skip
      refine shift (apply h.spineHead fun x hx => h.args x (List.dropLast_subset _ hx)) (Option.some.inj e)
  · cases e

theorem orientEq {t : Term} (h : SortFree t) : SortFree ((Term.orientEq t).getD t) := by
  unfold Term.orientEq
  split
  · rename_i ty l r e
    have hs := h.splitSym e
    split
    · exact h
    · exact eq (hs _ (by simp)) (hs _ (by simp)) (hs _ (by simp))
  · exact h

theorem cancelNotNot {t : Term} (h : SortFree t) : SortFree ((Term.cancelNotNot t).getD t) := by
  unfold Term.cancelNotNot
  split
  · rename_i x e
    split
    · rename_i y e'
      exact (h.splitSym e x (by simp)).splitSym e' y (by simp)
    · exact h
  · exact h

theorem normalizeTerm : ∀ (n : Nat) {t t' : Term}, SortFree t → Term.normalizeTerm n t = some t' → SortFree t' := by
  intro n
  induction n with
  | zero => intro t t' _ e; cases e
  | succ n ih =>
    intro t t' h e
    simp only [Term.normalizeTerm, Option.bind_eq_bind, Option.bind_eq_some_iff] at e
    obtain ⟨u, e1, e⟩ := e
    have hu := h.mapChildren (fun _ _ => ih) e1
    split at e
    · rename_i r er
      simp only [Option.bind_eq_some_iff] at e
      obtain ⟨v, rfl, e⟩ := e
      exact ih (hu.betaHead er) e
    · split at e
      · rename_i r er
        simp only [Option.bind_eq_some_iff] at e
        obtain ⟨v, rfl, e⟩ := e
        exact ih (hu.etaHead er) e
      · cases e
        exact hu.cancelNotNot.orientEq

theorem iteStep {t : Term} (h : SortFree t) : SortFree (Term.iteStep t) := by
  unfold Term.iteStep
  split
  · rename_i T c x y e
    have hs := h.splitSymExact e
    repeat' split
    · exact hs _ (by simp)
    · exact hs _ (by simp)
    · exact hs _ (by simp)
    · exact h
  · exact h

theorem simplifyIte : ∀ (n : Nat) {t t' : Term}, SortFree t → Term.simplifyIte n t = some t' → SortFree t' := by
  intro n
  induction n with
  | zero => intro t t' _ e; cases e
  | succ n ih =>
    intro t t' h e
    simp only [Term.simplifyIte, Option.bind_eq_bind, Option.bind_eq_some_iff] at e
    obtain ⟨u, e1, e⟩ := e
    have hu := h.mapChildren (fun _ _ => ih) e1
    split at e
    · rename_i r er
      simp only [Option.bind_eq_some_iff] at e
      obtain ⟨v, rfl, e⟩ := e
      exact ih (hu.betaHead er) e
    · cases e
      exact hu.iteStep

theorem normPolAux : ∀ (n : Nat) {t : Term} (p : Bool), SortFree t → SortFree (Term.normPolAux n t p) := by
  intro n
  induction n with
  | zero => intro t p h; exact h
  | succ n ih =>
    intro t p h
    simp only [Term.normPolAux]
    split
    · rename_i x e; exact ih _ (h.splitSym e x (by simp))
    · split
      · rename_i x y e
        have hx := ih p (h.splitSym e x (by simp))
        have hy := ih p (h.splitSym e y (by simp))
        split
        · exact hx.and hy
        · exact hx.or hy
      · split
        · rename_i x y e
          have hx := ih p (h.splitSym e x (by simp))
          have hy := ih p (h.splitSym e y (by simp))
          split
          · exact hx.or hy
          · exact hx.and hy
        · split
          · have h := SortFree.bind.1 h
            split <;> exact SortFree.bind.2 ⟨ih _ h.1, ih _ h.2⟩
          · have h := SortFree.bind.1 h
            split <;> exact SortFree.bind.2 ⟨ih _ h.1, ih _ h.2⟩
          · split
            · exact h
            · exact h.not
          · have h := SortFree.app.1 h
            have h := (SortFree.app.2 ⟨ih true h.1, ih true h.2⟩).orientEq
            split
            · exact h
            · exact h.not
          · have h := SortFree.bind.1 h
            have h := fun b => (SortFree.bind (b := b)).2 ⟨ih true h.1, ih true h.2⟩
            split
            · exact h _
            · exact (h _).not

theorem normSignedAux : ∀ (n : Nat) {t : Term} (p : Bool), SortFree t → SortFree (Term.normSignedAux n t p).1 := by
  intro n
  induction n with
  | zero => intro t p h; exact h
  | succ n ih =>
    intro t p h
    simp only [Term.normSignedAux]
    split
    · rename_i x e; exact ih _ (h.splitSym e x (by simp))
    · split
      · rename_i x y e
        exact (normPolAux _ _ (h.splitSym e x (by simp))).and (normPolAux _ _ (h.splitSym e y (by simp)))
      · exact normPolAux _ _ h

end Spec.SortFree

/-! ### Terms without beta redexes -/

namespace Term.BetaFree

theorem args {t : Term} (h : BetaFree t) : ∀ a ∈ t.args, BetaFree a := by
  induction t with
  | atom a => intro x hx; simp [Term.args] at hx
  | bind b A B _ _ => intro x hx; simp [Term.args] at hx
  | app f a ihf _ =>
    intro x hx
    simp only [Term.args, List.mem_append, List.mem_singleton] at hx
    rcases hx with hx | rfl
    · exact ihf h.2.1 x hx
    · exact h.2.2

theorem splitSym {t : Term} (h : BetaFree t) {s : Symbol} {n : Nat} {as : List Term}
    (e : Term.splitSym t s n = some as) : ∀ a ∈ as, BetaFree a := by
  rw [args_of_splitSym e]; exact h.args

theorem not {t : Term} (h : BetaFree t) : BetaFree (.not t) := ⟨rfl, trivial, h⟩
theorem and {s t : Term} (h : BetaFree s) (h' : BetaFree t) : BetaFree (.and s t) := ⟨rfl, ⟨rfl, trivial, h⟩, h'⟩
theorem or {s t : Term} (h : BetaFree s) (h' : BetaFree t) : BetaFree (.or s t) := ⟨rfl, ⟨rfl, trivial, h⟩, h'⟩
theorem eq {T s t : Term} (hT : BetaFree T) (h : BetaFree s) (h' : BetaFree t) : BetaFree (.eq T s t) :=
  ⟨rfl, ⟨rfl, ⟨rfl, trivial, hT⟩, h⟩, h'⟩

theorem orientEq {t : Term} (h : BetaFree t) : BetaFree ((Term.orientEq t).getD t) := by
  unfold Term.orientEq
  split
  · rename_i ty l r e
    have hs := h.splitSym e
    split
    · exact h
    · exact eq (hs _ (by simp)) (hs _ (by simp)) (hs _ (by simp))
  · exact h

theorem vmap {t : Term} (g : Nat → Nat) (h : BetaFree t) : BetaFree (t.vmap g) := by
  induction t with
  | atom a => cases a <;> trivial
  | app f a ihf iha =>
    refine ⟨?_, ihf h.2.1, iha h.2.2⟩
    have := h.1
    cases f with
    | atom a => cases a <;> rfl
    | app _ _ => rfl
    | bind _ _ _ => cases this
  | bind b f a ihf iha =>
    rw [vmap_bind]
    exact ⟨ihf h.1, iha h.2⟩

theorem atomHead {t : Term} (h : BetaFree t) : AtomHead t := by
  have : ∀ t : Term, BetaFree t → t.isBind = false → ∃ h as, t = (Term.atom h).apply as := by
    intro t
    induction t with
    | atom a => intro _ _; exact ⟨a, [], rfl⟩
    | bind _ _ _ => intro _ h; cases h
    | app f a ihf _ =>
      intro h _
      obtain ⟨x, as, rfl⟩ := ihf h.2.1 h.1
      exact ⟨x, as ++ [a], by simp [Term.apply]⟩
  intro f a e
  subst e
  exact this _ h rfl

end Term.BetaFree

/-- A function that is not an abstraction is not a binder. -/
theorem fun_binder {Δ : BCtx} {b : Binder} {A B C D : Term}
    (h : STyped K Γ Δ (.bind b A B) (.ty (.pi C D))) : b = .lam := by
  cases b with
  | lam => rfl
  | all => exact absurd (h.quant_inv (.inl rfl)).1 (by intro e; cases e)
  | ex => exact absurd (h.quant_inv (.inr rfl)).1 (by intro e; cases e)
  | pi =>
    exfalso
    have : ∀ {Δ : BCtx} {t : Term} {J : Jdg}, STyped K Γ Δ t J → ∀ A B C D, t = .pi A B → J ≠ .ty (.pi C D) := by
      intro Δ t J h
      induction h <;> intro A B C D et eJ <;> first | cases eJ | skip
      all_goals cases et
    exact this h _ _ _ _ rfl rfl

theorem Term.Normal.betaFree {t : Term} (h : t.Normal) : ∀ {Δ : BCtx} {J : Jdg}, STyped K Γ Δ t J → t.BetaFree := by
  induction t with
  | atom a => intro Δ J _; trivial
  | app f a ihf iha =>
    intro Δ J ht
    obtain ⟨h1, h2, h3, _⟩ := h
    have hf : ∃ A B, STyped K Γ Δ f (.ty (.pi A B)) ∧ ∃ J, STyped K Γ Δ a J := by
      rcases ht.app_inv with ⟨A', B', rfl, h1, h2, _⟩ | ⟨A', B', h1, h2, _⟩
      · exact ⟨_, _, h1, _, h2⟩
      · exact ⟨_, _, h1, _, h2⟩
    obtain ⟨A, B, hf, J', ha⟩ := hf
    refine ⟨?_, ihf h1 hf, iha h2 ha⟩
    cases f with
    | atom _ => rfl
    | app _ _ => rfl
    | bind b C D =>
      cases fun_binder hf
      cases h3
  | bind b A B ihA ihB =>
    intro Δ J ht
    obtain ⟨J', hB⟩ : ∃ J, STyped K Γ (BCtx.cons A Δ) B J := by
      cases b with
      | pi => exact ⟨_, ht.pi_inv.2.2⟩
      | lam => obtain ⟨_, _, _, h1, _⟩ := ht.lam_inv; exact ⟨_, h1⟩
      | all => exact ⟨_, (ht.quant_inv (Or.inl rfl)).2.2⟩
      | ex => exact ⟨_, (ht.quant_inv (Or.inr rfl)).2.2⟩
    exact ⟨ihA h.1 ht.bind_dom, ihB h.2.1 hB⟩

theorem Term.BetaFree.normPolAux : ∀ (n : Nat) {t : Term} (p : Bool) {Δ : BCtx} {J : Jdg}, STyped K Γ Δ t J →
    t.BetaFree → (Term.normPolAux n t p).BetaFree ∧
      (∀ A B, J = .ty (.pi A B) → t.isBind = false → (Term.normPolAux n t true).isBind = false) := by
  intro n
  induction n with
  | zero => intro t p Δ J _ h; exact ⟨h, fun _ _ _ h => h⟩
  | succ n ih =>
    intro t p Δ J ht h
    simp only [Term.normPolAux]
    cases e1 : Term.splitSym t .not_ 1 with
    | some as =>
      obtain ⟨x, rfl⟩ := list_len_one (ht.splitSym rfl e1).2
      have hx := h.splitSym e1 x (by simp)
      obtain ⟨rfl, _⟩ := ht.splitSym rfl e1
      obtain ⟨rfl, h1⟩ := STyped.not_inv ht
      exact ⟨(ih _ h1 hx).1, fun A B e => by cases e⟩
    | none =>
    cases e2 : Term.splitSym t .and_ 2 with
    | some as =>
      obtain ⟨x, y, rfl⟩ := list_len_two (ht.splitSym rfl e2).2
      have hx := h.splitSym e2 x (by simp)
      have hy := h.splitSym e2 y (by simp)
      obtain ⟨rfl, _⟩ := ht.splitSym rfl e2
      obtain ⟨rfl, h1, h2⟩ := STyped.and_inv ht
      have hx := (ih p h1 hx).1
      have hy := (ih p h2 hy).1
      refine ⟨?_, fun A B e => by cases e⟩
      dsimp only
      split
      · exact hx.and hy
      · exact hx.or hy
    | none =>
    cases e3 : Term.splitSym t .or_ 2 with
    | some as =>
      obtain ⟨x, y, rfl⟩ := list_len_two (ht.splitSym rfl e3).2
      have hx := h.splitSym e3 x (by simp)
      have hy := h.splitSym e3 y (by simp)
      obtain ⟨rfl, _⟩ := ht.splitSym rfl e3
      obtain ⟨rfl, h1, h2⟩ := STyped.or_inv ht
      have hx := (ih p h1 hx).1
      have hy := (ih p h2 hy).1
      refine ⟨?_, fun A B e => by cases e⟩
      dsimp only
      split
      · exact hx.or hy
      · exact hx.and hy
    | none =>
    clear e1 e2 e3
    have bd : ∀ {b A B}, t = .bind b A B → ∃ J1 J2, STyped K Γ Δ A J1 ∧ STyped K Γ (BCtx.cons A Δ) B J2 := by
      rintro b A B rfl
      cases b with
      | pi => exact ⟨_, _, ht.pi_inv.2⟩
      | lam => obtain ⟨_, _, h0, h1, _⟩ := ht.lam_inv; exact ⟨_, _, h0, h1⟩
      | all => exact ⟨_, _, (ht.quant_inv (Or.inl rfl)).2⟩
      | ex => exact ⟨_, _, (ht.quant_inv (Or.inr rfl)).2⟩
    match t, ht, h with
    | .atom a, ht, h =>
      refine ⟨?_, fun _ _ _ _ => rfl⟩
      simp only
      split
      · exact h
      · exact h.not
    | .app f a, ht, h =>
      have hf : ∃ A B, STyped K Γ Δ f (.ty (.pi A B)) ∧ ∃ J, STyped K Γ Δ a J := by
        rcases ht.app_inv with ⟨A', B', rfl, h1, h2, _⟩ | ⟨A', B', h1, h2, _⟩
        · exact ⟨_, _, h1, _, h2⟩
        · exact ⟨_, _, h1, _, h2⟩
      obtain ⟨A, B, hf, J', ha⟩ := hf
      obtain ⟨h1, h2⟩ := ih true hf h.2.1
      have h3 := (ih true ha h.2.2).1
      have h4 : (Term.app (Term.normPolAux n f true) (Term.normPolAux n a true)).BetaFree :=
        ⟨h2 _ _ rfl h.1, h1, h3⟩
      have h5 := h4.orientEq
      refine ⟨?_, fun _ _ _ _ => ?_⟩
      · simp only
        split
        · exact h5
        · exact h5.not
      · simp only [if_true]
        unfold Term.orientEq
        split
        · split <;> rfl
        · rfl
    | .bind .pi A b, ht, h =>
      obtain ⟨J1, J2, hA, hb⟩ := bd rfl
      refine ⟨?_, fun _ _ _ h => by cases h⟩
      have h' : (Term.bind .pi (Term.normPolAux n A true) (Term.normPolAux n b true)).BetaFree :=
        ⟨(ih true hA h.1).1, (ih true hb h.2).1⟩
      simp only
      split
      · exact h'
      · exact h'.not
    | .bind .lam A b, ht, h =>
      obtain ⟨J1, J2, hA, hb⟩ := bd rfl
      refine ⟨?_, fun _ _ _ h => by cases h⟩
      have h' : (Term.bind .lam (Term.normPolAux n A true) (Term.normPolAux n b true)).BetaFree :=
        ⟨(ih true hA h.1).1, (ih true hb h.2).1⟩
      simp only
      split
      · exact h'
      · exact h'.not
    | .bind .all A b, ht, h =>
      obtain ⟨J1, J2, hA, hb⟩ := bd rfl
      refine ⟨?_, fun _ _ _ h => by cases h⟩
      simp only
      split <;> exact ⟨(ih true hA h.1).1, (ih p hb h.2).1⟩
    | .bind .ex A b, ht, h =>
      obtain ⟨J1, J2, hA, hb⟩ := bd rfl
      refine ⟨?_, fun _ _ _ h => by cases h⟩
      simp only
      split <;> exact ⟨(ih true hA h.1).1, (ih p hb h.2).1⟩

theorem Term.BetaFree.normSignedAux : ∀ (n : Nat) {t : Term} (p : Bool) {Δ : BCtx},
    STyped K Γ Δ t (.ty .boolTy) → t.BetaFree → (Term.normSignedAux n t p).1.BetaFree := by
  intro n
  induction n with
  | zero => intro t p Δ _ h; exact h
  | succ n ih =>
    intro t p Δ ht h
    simp only [Term.normSignedAux]
    cases e1 : Term.splitSym t .not_ 1 with
    | some as =>
      obtain ⟨x, rfl⟩ := list_len_one (ht.splitSym rfl e1).2
      have hx := h.splitSym e1 x (by simp)
      obtain ⟨rfl, _⟩ := ht.splitSym rfl e1
      obtain ⟨_, h1⟩ := STyped.not_inv ht
      exact ih _ h1 hx
    | none =>
    cases e3 : Term.splitSym t .or_ 2 with
    | some as =>
      obtain ⟨x, y, rfl⟩ := list_len_two (ht.splitSym rfl e3).2
      have hx := h.splitSym e3 x (by simp)
      have hy := h.splitSym e3 y (by simp)
      obtain ⟨rfl, _⟩ := ht.splitSym rfl e3
      obtain ⟨_, h1, h2⟩ := STyped.or_inv ht
      exact (BetaFree.normPolAux _ _ h1 hx).1.and (BetaFree.normPolAux _ _ h2 hy).1
    | none => exact (BetaFree.normPolAux _ _ ht h).1

end Acorn
