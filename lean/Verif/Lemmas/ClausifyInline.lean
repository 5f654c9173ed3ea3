/-
Terms that are put into a clause as they are.
-/
import Verif.Lemmas.ClausifyContext
import Verif.Lemmas.NormalizeClauseTerm
namespace Acorn
namespace Clausify
open Spec Term

universe u
variable {K : KCtx} {M : Interp.{u}} {Γ0 Γ0' Γ Γ' : LCtx}

/-- `t'` can stand for `t`: same type, same value, and types are unchanged.  `t` is a term of `Γ0`, `t'` a
term of the longer context `Γ`. -/
structure InlAt (K : KCtx) (M : Interp.{u}) (Γ : LCtx) (t t' : Term) (J : Jdg) : Prop where
  typed : STyped K Γ BCtx.nil t' J
  eval : ∀ ρ, Models M Γ ρ → ∀ β, eval M ρ β t' = eval M ρ β t
  same : Typelike J → t' = t

def Inl (K : KCtx) (M : Interp.{u}) (Γ0 Γ : LCtx) (t t' : Term) : Prop :=
  ∀ J, STyped K Γ0 BCtx.nil t J → InlAt K M Γ t t' J

theorem InlAt.refl {t : Term} {J : Jdg} (h : STyped K Γ BCtx.nil t J) : InlAt K M Γ t t J :=
  ⟨h, fun _ _ _ => rfl, fun _ => rfl⟩

theorem Inl.refl (h : Ctx.Le Γ0 Γ) {t : Term} : Inl K M Γ0 Γ t t := fun _ ht => .refl (h.typed ht)

theorem InlAt.mono {t t' : Term} {J : Jdg} (h : InlAt K M Γ t t' J) (hle : Ctx.Le Γ Γ') :
    InlAt K M Γ' t t' J :=
  ⟨hle.typed h.typed, fun ρ hρ β => h.eval ρ (hle.models hρ) β, h.same⟩

theorem InlAt.trans {t t' t'' : Term} {J : Jdg} (h : InlAt K M Γ t t' J) (h' : InlAt K M Γ t' t'' J) :
    InlAt K M Γ t t'' J :=
  ⟨h'.typed, fun ρ hρ β => (h'.eval ρ hρ β).trans (h.eval ρ hρ β), fun hJ => by
    rw [h'.same hJ, h.same hJ]⟩

theorem Inl.mono {t t' : Term} (h : Inl K M Γ0 Γ t t') (h0 : Ctx.Le Γ0' Γ0) (h1 : Ctx.Le Γ Γ') :
    Inl K M Γ0' Γ' t t' := fun J ht => (h J (h0.typed ht)).mono h1

theorem Inl.app {f f' a a' : Term} (hle : Ctx.Le Γ0 Γ) (hf : Inl K M Γ0 Γ f f') (ha : Inl K M Γ0 Γ a a') :
    Inl K M Γ0 Γ (.app f a) (.app f' a') := by
  intro J h
  classical
  by_cases hJ : Typelike J
  · obtain ⟨⟨J1, h1, k1⟩, ⟨J2, h2, k2⟩⟩ := h.app_typelike hJ
    rw [(hf J1 h1).same k1, (ha J2 h2).same k2]
    exact .refl (hle.typed h)
  · refine ⟨?_, fun ρ hρ β => ?_, fun h => absurd h hJ⟩
    · rcases h.app_inv with ⟨A, B, rfl, h1, h2, h3, h4⟩ | ⟨A, B, h1, h2, h3, h4⟩
      · exact .appVal (hf _ h1).typed (ha _ h2).typed h3 h4
      · rw [(ha _ h2).same (Or.inr ⟨_, rfl, h3⟩)]
        rcases h4 with rfl | ⟨_, rfl | ⟨T, rfl, hT⟩⟩
        · exact .appTy (hf _ h1).typed (hle.typed h2) h3
        · exact absurd (Or.inl rfl) hJ
        · exact absurd (Or.inr ⟨T, rfl, endsKind_of_isKind hT⟩) hJ
    · rcases h.app_inv with ⟨A, B, _, h1, h2, _⟩ | ⟨A, B, h1, h2, _⟩
      · simp only [Acorn.eval, (hf _ h1).eval ρ hρ β, (ha _ h2).eval ρ hρ β]
      · simp only [Acorn.eval, (hf _ h1).eval ρ hρ β, (ha _ h2).eval ρ hρ β]

/-- Pointwise. -/
inductive InlAll (K : KCtx) (M : Interp.{u}) (Γ0 Γ : LCtx) : List Term → List Term → Prop
  | nil : InlAll K M Γ0 Γ [] []
  | cons {a a' as as'} : Inl K M Γ0 Γ a a' → InlAll K M Γ0 Γ as as' →
      InlAll K M Γ0 Γ (a :: as) (a' :: as')

theorem InlAll.mono {as as' : List Term} (h : InlAll K M Γ0 Γ as as') (h0 : Ctx.Le Γ0' Γ0)
    (h1 : Ctx.Le Γ Γ') : InlAll K M Γ0' Γ' as as' := by
  induction h with
  | nil => exact .nil
  | cons h _ ih => exact .cons (h.mono h0 h1) ih

theorem InlAll.refl (h : Ctx.Le Γ0 Γ) (as : List Term) : InlAll K M Γ0 Γ as as := by
  induction as with
  | nil => exact .nil
  | cons a as ih => exact .cons (.refl h) ih

theorem InlAll.apply (hle : Ctx.Le Γ0 Γ) {as as' : List Term} (h : InlAll K M Γ0 Γ as as') :
    ∀ {f f' : Term}, Inl K M Γ0 Γ f f' → Inl K M Γ0 Γ (f.apply as) (f'.apply as') := by
  induction h with
  | nil => intro f f' hf; exact hf
  | cons ha _ ih => intro f f' hf; exact ih (hf.app hle ha)

theorem not_typelike_bool : ¬ Typelike (.ty .boolTy) := by
  rintro (h | ⟨T, h, h2⟩)
  · cases h
  · cases h; cases h2

/-! ### Terms kept inline -/

/-- What an inlined signed term says. -/
def SignOk (K : KCtx) (M : Interp.{u}) (Γ0 Γ : LCtx) (t u : Term) (p : Bool) : Prop :=
  (p = true → Inl K M Γ0 Γ t u) ∧
  (p = false → ∀ J, STyped K Γ0 BCtx.nil t J → J = .ty .boolTy ∧ STyped K Γ BCtx.nil u (.ty .boolTy) ∧
    ∀ ρ, Models M Γ ρ → ∀ β, (Tr M ρ β u ↔ ¬ Tr M ρ β t))

theorem SignOk.pos {t u : Term} (h : Inl K M Γ0 Γ t u) : SignOk K M Γ0 Γ t u true :=
  ⟨fun _ => h, fun e => by cases e⟩

theorem spineHead_atom_or (t : Term) : (∃ a, t.spineHead = .atom a) ∨ ∃ b A B, t.spineHead = .bind b A B := by
  induction t with
  | atom a => exact .inl ⟨a, rfl⟩
  | app f a ih _ => exact ih
  | bind b A B => exact .inr ⟨b, A, B, rfl⟩

theorem typed_apply_fun {f : Term} : ∀ (as : List Term) {Δ : BCtx} {J : Jdg},
    STyped K Γ Δ (f.apply as) J → ∃ J', STyped K Γ Δ f J' := by
  intro as
  induction as generalizing f with
  | nil => intro Δ J h; exact ⟨J, h⟩
  | cons a as ih =>
    intro Δ J h
    obtain ⟨J', h'⟩ := ih (f := f.app a) h
    obtain ⟨A, B, h1⟩ := h'.app_typed_fun
    exact ⟨_, h1⟩

theorem typed_apply_fun' {f : Term} {a : Term} {as : List Term} {Δ : BCtx} {J : Jdg}
    (h : STyped K Γ Δ (f.apply (a :: as)) J) : ∃ A B, STyped K Γ Δ f (.ty (.pi A B)) := by
  obtain ⟨J', h'⟩ := typed_apply_fun (f := f.app a) as h
  exact h'.app_typed_fun

/-- A well typed application is an atom or a lambda applied to arguments. -/
theorem spine_typed {f a : Term} {Δ : BCtx} {J : Jdg} (h : STyped K Γ Δ (.app f a) J) :
    (∃ b, f.spineHead = .atom b) ∨ ∃ A B, f.spineHead = .bind .lam A B := by
  rcases spineHead_atom_or f with h1 | ⟨b, A, B, h1⟩
  · exact .inl h1
  · right
    have e : (Term.app f a).spineHead.apply (f.args ++ [a]) = .app f a := apply_args (.app f a)
    rw [show (Term.app f a).spineHead = f.spineHead from rfl, h1] at e
    rw [← e] at h
    have : ∃ a1 as, f.args ++ [a] = a1 :: as := by
      cases f.args with
      | nil => exact ⟨a, [], rfl⟩
      | cons x xs => exact ⟨x, xs ++ [a], rfl⟩
    obtain ⟨a1, as, e1⟩ := this
    rw [e1] at h
    obtain ⟨A1, B1, h2⟩ := typed_apply_fun' h
    cases b with
    | lam => exact ⟨A, B, h1⟩
    | all => obtain ⟨e, _⟩ := h2.quant_inv (Or.inl rfl); cases e
    | ex => obtain ⟨e, _⟩ := h2.quant_inv (Or.inr rfl); cases e
    | pi =>
      rcases h2.pi_inv.1 with e | ⟨T, e, k⟩
      · cases e
      · cases e
        exfalso
        exact pi_not_fun h2

theorem mapM_inl (g : Term → Option Term) (hg : ∀ t u, g t = some u → Inl K M Γ0 Γ t u) :
    ∀ {as us : List Term}, as.mapM g = some us → InlAll K M Γ0 Γ as us := by
  intro as
  induction as with
  | nil => intro us e; simp at e; subst e; exact .nil
  | cons a as ih =>
    intro us e
    simp only [List.mapM_cons] at e
    cases e1 : g a with
    | none => simp [e1] at e
    | some u =>
      cases e2 : as.mapM g with
      | none => simp [e1, e2] at e
      | some us' =>
        simp [e1, e2] at e
        subst e
        exact .cons (hg _ _ e1) (ih e2)

theorem tryInlineAux_atom {n : Nat} {a : Atom} {u : Term} {p : Bool}
    (e : tryInlineAux n (.atom a) = some (u, p)) : (u = .atom a ∧ p = true) ∨
      (a = .sym .false_ ∧ u = .tt ∧ p = false) := by
  cases n with
  | zero => cases e
  | succ n =>
    simp only [tryInlineAux, splitSym] at e
    by_cases h1 : Term.atom a = .tt
    · rw [if_pos h1] at e; cases e; exact .inl ⟨h1.symm, rfl⟩
    · rw [if_neg h1] at e
      by_cases h2 : Term.atom a = .ff
      · rw [if_pos h2] at e; cases e; cases h2; exact .inr ⟨rfl, rfl, rfl⟩
      · rw [if_neg h2] at e
        simp at e
        exact .inl ⟨e.1.symm, e.2⟩

theorem tt_ff_typed (Γ : LCtx) (Δ : BCtx) : STyped K Γ Δ .tt (.ty .boolTy) ∧ STyped K Γ Δ .ff (.ty .boolTy) :=
  ⟨STyped.valueSym rfl rfl, STyped.valueSym rfl rfl⟩

theorem ff_jdg {Γ : LCtx} {Δ : BCtx} {J : Jdg} (h : STyped K Γ Δ .ff J) : J = .ty .boolTy := by
  have key : ∀ T, STyped K Γ Δ .ff (.ty T) → T = .boolTy := fun T h =>
    STyped.sym_unique rfl rfl ⟨rfl, fun _ => rfl⟩ rfl h
  cases J with
  | ty T => rw [key T h]
  | isTy =>
    rcases h.isTy_inv with h1 | h1 | ⟨A, B, h1, _⟩
    · cases h1
    · cases key _ h1
    · cases h1

theorem tryInlineAux_spec (L : Lawful K M) (hle : Ctx.Le Γ0 Γ) : ∀ (n : Nat) {t u : Term} {p : Bool},
    tryInlineAux n t = some (u, p) → SignOk K M Γ0 Γ t u p := by
  intro n
  induction n with
  | zero => intro t u p e; cases e
  | succ n ih =>
    intro t u p e
    simp only [tryInlineAux] at e
    -- only well typed terms matter
    rcases Classical.em (∃ J, STyped K Γ0 BCtx.nil t J) with ⟨J0, h0⟩ | hty
    rotate_left
    · exact ⟨fun _ J h => absurd ⟨J, h⟩ hty, fun _ J h => absurd ⟨J, h⟩ hty⟩
    cases e1 : splitSym t .not_ 1 with
    | some as =>
      obtain ⟨x, rfl⟩ := list_len_one (h0.splitSym rfl e1).2
      rw [e1] at e
      obtain ⟨rfl, _⟩ := h0.splitSym rfl e1
      simp only [Option.map_eq_some_iff] at e
      obtain ⟨⟨v, q⟩, e2, e3⟩ := e
      simp only [Prod.mk.injEq] at e3
      obtain ⟨rfl, rfl⟩ := e3
      obtain ⟨i1, i2⟩ := ih e2
      cases q with
      | true =>
        refine ⟨fun h => by simp at h, fun _ J h => ?_⟩
        obtain ⟨rfl, h1⟩ := STyped.not_inv h
        have i := i1 rfl _ h1
        refine ⟨rfl, i.typed, fun ρ hρ β => ?_⟩
        rw [Tr, i.eval ρ hρ β]
        have := tr_not L (hle.models hρ) h1 (bmodels_nil (ρ := ρ) (β := β))
        simp only [Term.apply, List.foldl] at *
        rw [this, Classical.not_not]; rfl
      | false =>
        refine ⟨fun _ J h => ?_, fun h => by simp at h⟩
        obtain ⟨rfl, h1⟩ := STyped.not_inv h
        obtain ⟨_, i3, i4⟩ := i2 rfl _ h1
        refine ⟨i3, fun ρ hρ β => ?_, fun h => absurd h not_typelike_bool⟩
        refine bool_ext L (i3.bool_mem L hρ bmodels_nil)
          (h.bool_mem L (hle.models hρ) bmodels_nil) ?_
        refine (i4 ρ hρ β).trans ?_
        have := tr_not L (hle.models hρ) h1 (bmodels_nil (ρ := ρ) (β := β))
        exact this.symm
    | none =>
      rw [e1] at e
      match t, h0, e with
      | .bind .all _ _, _, e => cases e
      | .bind .ex _ _, _, e => cases e
      | .bind .lam _ _, _, e => cases e
      | .bind .pi A B, _, e =>
        simp [splitSym, Term.tt, Term.ff] at e
        obtain ⟨rfl, rfl⟩ := e
        exact .pos (.refl hle)
      | .atom a, _, e =>
        dsimp only at e
        by_cases h1 : Term.atom a = .tt
        · rw [if_pos h1] at e; cases e; rw [h1]; exact .pos (.refl hle)
        · rw [if_neg h1] at e
          by_cases h2 : Term.atom a = .ff
          · rw [if_pos h2] at e
            cases e
            rw [h2]
            refine ⟨fun h => by simp at h, fun _ J h => ⟨ff_jdg h, (tt_ff_typed _ _).1, fun ρ hρ β => ?_⟩⟩
            · simp only [Tr]
              constructor
              · intro _ h; exact L.tt_ne_ff h.symm
              · intro _; rfl
          · rw [if_neg h2] at e
            simp [splitSym] at e
            obtain ⟨rfl, rfl⟩ := e
            exact .pos (.refl hle)
      | .app f a, h0, e =>
        dsimp only at e
        rw [if_neg (by intro h; cases h), if_neg (by intro h; cases h)] at e
        split at e
        · cases e
        · simp only [Option.bind_eq_bind, Option.bind_eq_some_iff] at e
          obtain ⟨fn, ef, as, eas, e⟩ := e
          cases e
          refine .pos ?_
          have hinl : ∀ t u, (match tryInlineAux n t with
              | some (u, true) => some u
              | _ => none) = some u → Inl K M Γ0 Γ t u := by
            intro t u e
            split at e
            · rename_i v ev; cases e; exact (ih ev).1 rfl
            · cases e
          have hall := mapM_inl _ hinl eas
          rcases spine_typed h0 with ⟨b, hb⟩ | ⟨A, B, hb⟩
          · rw [show (Term.app f a).spineHead = f.spineHead from rfl, hb] at ef
            split at ef
            · rename_i v ev
              cases ef
              rcases tryInlineAux_atom ev with ⟨rfl, _⟩ | ⟨_, _, h⟩
              · simp only [args, List.nil_append, headAtom]
                have := hall.apply hle (Inl.refl (K := K) (M := M) hle (t := .atom b))
                have e' := Spec.apply_args (.app f a)
                rw [show (Term.app f a).spineHead = f.spineHead from rfl, hb] at e'
                rwa [e'] at this
              · cases h
            · cases ef
          · rw [show (Term.app f a).spineHead = f.spineHead from rfl, hb] at ef
            exfalso
            cases n with
            | zero => simp [tryInlineAux] at ef
            | succ n => simp [tryInlineAux, splitSym] at ef

theorem tryInline_spec (L : Lawful K M) (hle : Ctx.Le Γ0 Γ) {t u : Term} {p : Bool}
    (e : tryInline t = some (u, p)) : SignOk K M Γ0 Γ t u p := tryInlineAux_spec L hle _ e

theorem tryInlineTerm_spec (L : Lawful K M) (hle : Ctx.Le Γ0 Γ) {t u : Term}
    (e : tryInlineTerm t = some u) : Inl K M Γ0 Γ t u := by
  simp only [tryInlineTerm] at e
  split at e
  · rename_i v ev; cases e; exact (tryInline_spec L hle ev).1 rfl
  · cases e

end Clausify
end Acorn
