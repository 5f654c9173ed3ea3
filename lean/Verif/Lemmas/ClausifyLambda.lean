/-
Functions given by variables for their arguments and a body.
-/
import Verif.Lemmas.ClausifyInline
namespace Acorn
namespace Clausify
open Spec Term

universe u
variable {K : KCtx} {M : Interp.{u}} {Γ0 Γ0' Γ Γ' : LCtx} {n : Nat}

theorem sub_set_id {x : Nat} {a T : Term} (σ : Nat → Term) (hx : T.hasVar x = false) :
    sub (fun i => if i = x then a else fvar i) σ T = sub fid σ T := by
  refine sub_fvars T _ _ _ fun i hi => ?_
  have : i ≠ x := by rintro rfl; rw [hx] at hi; cases hi
  simp [this, fid]

theorem abstract_typed (hg : GoodCtx K n Γ) {x : Nat} (hx : n ≤ x) {A b B : Term}
    (hA : Γ.get x = some A) (h : SHasType K Γ b B) :
    STyped K Γ (BCtx.cons A BCtx.nil) (abstractVar x 0 b) (.ty (Term.ren Nat.succ B)) := by
  have e : ∀ t : Term, abstractVar x 0 t = sub (fun i => if i = x then bvar 0 else fvar i)
      (fun i => bvar (i + 1)) t := by
    intro t; rw [abstractVar_eq_sub]; simp
  have hs := h.sub (fun i => if i = x then bvar 0 else fvar i) (fun i => bvar (i + 1))
    (Γ' := Γ) (BCtx.cons A BCtx.nil) ⟨?_, ?_, ?_, fun _ => rfl⟩
  · simp only [Jdg.sub] at hs
    rw [e]
    rwa [sub_set_id _ (hg.type_no_var hx h), show (fun i => bvar (i + 1)) = fun i => bvar (Nat.succ i) from rfl,
      show sub fid (fun i => bvar (Nat.succ i)) B = Term.ren Nat.succ B from (ren_eq_sub _ _).symm] at hs
  · intro i T hi hT
    rw [sub_set_id _ (hg.no_var hx hi), sub_closed _ _ bid T hT, sub_id]
    by_cases h1 : i = x
    · subst h1
      rw [hA] at hi; cases hi
      simp only [if_true]
      exact .bvar (by simp [BCtx.cons, ren_closed _ _ hT])
    · simp only [h1, if_false]
      exact .fvar hi hT
  · intro i T hi; cases hi
  · intro i; split <;> rfl

theorem abstract_eval (ρ β : Nat → M.D) (x : Nat) (d : M.D) (b : Term) :
    eval M ρ (push d β) (abstractVar x 0 b) = eval M (setAt ρ x d) β b := by
  rw [abstractVar_eq_sub, eval_sub]
  congr 1
  funext i
  by_cases h : i = x
  · simp [h, setAt, eval, push]
  · simp [h, setAt, eval]

theorem replace_typed (hg : GoodCtx K n Γ) {x : Nat} (hx : n ≤ x) {A a b : Term} {J : Jdg}
    (hA : Γ.get x = some A) (ha : SHasType K Γ a A) (ka : endsKind a = false)
    (h : STyped K Γ BCtx.nil b J) (hJ : ∀ B, J = .ty B → B.hasVar x = false) :
    STyped K Γ BCtx.nil (replaceVar x a b) J := by
  rw [replaceVar_eq_sub x a b (shas_closed ha)]
  have hs := h.sub (fun i => if i = x then a else fvar i) bid (Γ' := Γ) BCtx.nil ⟨?_, ?_, ?_, fun _ => rfl⟩
  · cases J with
    | isTy => exact hs
    | ty B =>
      simp only [Jdg.sub] at hs
      rwa [sub_set_id _ (hJ B rfl), sub_id] at hs
  · intro i T hi hT
    rw [sub_set_id _ (hg.no_var hx hi), sub_id]
    by_cases h1 : i = x
    · subst h1
      rw [hA] at hi; cases hi
      simpa using ha
    · simp only [h1, if_false]
      exact .fvar hi hT
  · intro i T hi; cases hi
  · intro i; split
    · exact ka
    · rfl

theorem replace_eval (ρ β : Nat → M.D) (x : Nat) {a : Term} (ha : a.escapes = false) (b : Term) :
    eval M ρ β (replaceVar x a b) = eval M (setAt ρ x (eval M ρ β a)) β b := by
  rw [replaceVar_eq_sub x a b ha, eval_sub]
  have : (fun i => eval M ρ β (bid i)) = β := by funext i; rfl
  rw [this]
  congr 1
  funext i
  by_cases h : i = x
  · simp [h, setAt]
  · simp [h, setAt, eval]

/-- The function `v` of type `T` maps the variables `args` to the value of `b`. -/
def LamOk (K : KCtx) (M : Interp.{u}) (n : Nat) (Γ : LCtx) :
    ((Nat → M.D) → (Nat → M.D) → M.D) → Term → List (Nat × Term) → Term → Prop
  | v, T, [], b => SHasType K Γ b T ∧ ∀ ρ, Models M Γ ρ → ∀ β, eval M ρ β b = v ρ β
  | v, T, (x, A) :: args, b => ∃ B, T = .pi A (Term.ren Nat.succ B) ∧ STyped K Γ BCtx.nil A .isTy ∧
      endsKind A = false ∧ endsKind B = false ∧ n ≤ x ∧ Γ.get x = some A ∧
      (∀ y, n ≤ y → T.hasVar y = false) ∧ (∀ ρ d β, v (setAt ρ x d) β = v ρ β) ∧
      (∀ ρ, Models M Γ ρ → ∀ β, M.mem (v ρ β) (eval M ρ β T)) ∧
      LamOk K M n Γ (fun ρ β => M.app (v ρ β) (ρ x)) B args b

variable {v v' : (Nat → M.D) → (Nat → M.D) → M.D} {T b b' : Term} {args : List (Nat × Term)}

/-- The context may grow and the body change to one with the same value. -/
theorem LamOk.body (hle : Ctx.Le Γ Γ') (hb : ∀ T, SHasType K Γ b T → SHasType K Γ' b' T)
    (hv : ∀ ρ, Models M Γ' ρ → ∀ β, eval M ρ β b' = eval M ρ β b) :
    ∀ {v T args}, LamOk K M n Γ v T args b → LamOk K M n Γ' v T args b' := by
  intro v T args
  induction args generalizing v T with
  | nil =>
    intro h
    exact ⟨hb _ h.1, fun ρ hρ β => (hv ρ hρ β).trans (h.2 ρ (hle.models hρ) β)⟩
  | cons xA args ih =>
    obtain ⟨x, A⟩ := xA
    rintro ⟨B, h1, h2, h3, h4, h5, h6, h7, h8, h9, h10⟩
    exact ⟨B, h1, hle.typed h2, h3, h4, h5, hle.get h6, h7, h8, fun ρ hρ β => h9 ρ (hle.models hρ) β, ih h10⟩

theorem LamOk.mono (hle : Ctx.Le Γ Γ') (h : LamOk K M n Γ v T args b) : LamOk K M n Γ' v T args b :=
  h.body hle (fun _ hb => hle.typed hb) fun _ _ _ => rfl

/-- Another description of the same function. -/
theorem LamOk.congr (he : ∀ ρ, Models M Γ ρ → ∀ β, v' ρ β = v ρ β)
    (hi : ∀ xA ∈ args, ∀ ρ d β, v' (setAt ρ xA.1 d) β = v' ρ β) (hnd : (args.map (·.1)).Nodup)
    (h : LamOk K M n Γ v T args b) : LamOk K M n Γ v' T args b := by
  induction args generalizing v v' T with
  | nil => exact ⟨h.1, fun ρ hρ β => (h.2 ρ hρ β).trans (he ρ hρ β).symm⟩
  | cons xA args ih =>
    obtain ⟨x, A⟩ := xA
    obtain ⟨B, h1, h2, h3, h4, h5, h6, h7, h8, h9, h10⟩ := h
    refine ⟨B, h1, h2, h3, h4, h5, h6, h7, hi _ (List.mem_cons_self), fun ρ hρ β => ?_,
      ih (fun ρ hρ β => by rw [he ρ hρ β]) ?_ (List.nodup_cons.1 hnd).2 h10⟩
    · rw [he ρ hρ β]; exact h9 ρ hρ β
    · intro yA hy ρ d β
      rw [hi yA (List.mem_cons_of_mem _ hy)]
      have : x ≠ yA.1 := by
        intro e
        exact (List.nodup_cons.1 hnd).1 (List.mem_map.2 ⟨yA, hy, e.symm⟩)
      simp [setAt, this]

/-- Putting in a value for a variable. -/
theorem LamOk.replace (hg : GoodCtx K n Γ) {x : Nat} (hx : n ≤ x) {A a : Term}
    (hA : Γ.get x = some A) (ha : SHasType K Γ a A) (ka : endsKind a = false)
    (hnx : x ∉ args.map (·.1)) (hna : ∀ y ∈ args.map (·.1), a.hasVar y = false)
    (L : Lawful K M) (h : LamOk K M n Γ v T args b) :
    LamOk K M n Γ (fun ρ β => v (setAt ρ x (eval M ρ β a)) β) T args (replaceVar x a b) := by
  have hm : ∀ ρ, Models M Γ ρ → ∀ β, Models M Γ (setAt ρ x (eval M ρ β a)) := by
    intro ρ hρ β
    refine hg.models_set hρ hx hA fun γ => ?_
    rw [eval_closed M ρ β γ a (shas_closed ha)]
    exact ha.val_mem L hρ bmodels_nil
  induction args generalizing v T with
  | nil =>
    refine ⟨replace_typed hg hx hA ha ka h.1 fun B e => ?_, fun ρ hρ β => ?_⟩
    · cases e; exact hg.type_no_var hx h.1
    · rw [replace_eval ρ β x (shas_closed ha)]
      exact h.2 _ (hm ρ hρ β) β
  | cons yA args ih =>
    obtain ⟨y, A'⟩ := yA
    obtain ⟨B, h1, h2, h3, h4, h5, h6, h7, h8, h9, h10⟩ := h
    simp only [List.map_cons, List.mem_cons, not_or] at hnx
    have hxy : y ≠ x := fun e => hnx.1 e.symm
    refine ⟨B, h1, h2, h3, h4, h5, h6, h7, ?_, ?_, ?_⟩
    · intro ρ d β
      have e1 : eval M (setAt ρ y d) β a = eval M ρ β a := by
        refine eval_fvars M a _ _ _ fun j hj => ?_
        have : j ≠ y := by
          rintro rfl; rw [hna j (by simp)] at hj; cases hj
        simp [setAt, this]
      have e2 : ∀ d', setAt (setAt ρ y d) x d' = setAt (setAt ρ x d') y d := by
        intro d'
        funext i
        simp only [setAt]
        by_cases h : i = x
        · have : i ≠ y := by rintro rfl; exact hxy h
          simp [h, this]
          intro e; exact absurd e.symm hxy
        · simp [h]
      show v (setAt (setAt ρ y d) x (eval M (setAt ρ y d) β a)) β = _
      rw [e1, e2, h8]
    · intro ρ hρ β
      have := h9 _ (hm ρ hρ β) β
      rwa [show eval M (setAt ρ x (eval M ρ β a)) β T = eval M ρ β T from by
        refine eval_fvars M T _ _ _ fun j hj => ?_
        have : j ≠ x := by rintro rfl; rw [h7 j hx] at hj; cases hj
        simp [setAt, this]] at this
    · have := ih hnx.2 (fun z hz => hna z (by simp [hz])) h10
      refine (show (fun ρ β => M.app (v (setAt ρ x (eval M ρ β a)) β) (ρ y)) =
        (fun ρ β => M.app (v (setAt ρ x (eval M ρ β a)) β) (setAt ρ x (eval M ρ β a) y)) from ?_) ▸ this
      funext ρ β
      simp [setAt, hxy]

/-! ### Rebuilding the lambda -/

/-- The lambda with these arguments and this body. -/
def lamTerm : List (Nat × Term) → Term → Term
  | [], b => b
  | (x, A) :: args, b => .lam A (abstractVar x 0 (lamTerm args b))

theorem LamOk.lamTerm (L : Lawful K M) (hg : GoodCtx K n Γ) : ∀ {v T args},
    LamOk K M n Γ v T args b → SHasType K Γ (lamTerm args b) T ∧
      ∀ ρ, Models M Γ ρ → ∀ β, eval M ρ β (lamTerm args b) = v ρ β := by
  intro v T args
  induction args generalizing v T with
  | nil => intro h; exact h
  | cons xA args ih =>
    obtain ⟨x, A⟩ := xA
    rintro ⟨B, rfl, h2, h3, h4, h5, h6, h7, h8, h9, h10⟩
    obtain ⟨i1, i2⟩ := ih h10
    refine ⟨.lam h2 (abstract_typed hg h5 h6 i1) h3 h4, fun ρ hρ β => ?_⟩
    have hm := h9 ρ hρ β
    simp only [Acorn.eval] at hm
    rw [L.mem_pi] at hm
    simp only [Clausify.lamTerm, Acorn.eval]
    rw [← hm.1]
    refine L.bind_congr _ _ _ _ fun d hd => ?_
    rw [abstract_eval, i2 _ (hg.models_set hρ h5 h6 fun γ => by
      rw [eval_closed M ρ γ β A (isTy_closed h2)]; exact hd) β, h8]
    simp [setAt]

theorem abstract_id {x d : Nat} {t : Term} (hx : t.hasVar x = false) (hc : t.escapes = false) :
    abstractVar x d t = t := by
  rw [abstractVar_eq_sub, sub_set_id _ hx, sub_closed _ _ bid t hc, sub_id]

/-- Nested lambdas. -/
def wrap (As : List Term) (b : Term) : Term := As.foldr (fun A t => .lam A t) b

theorem abstract_wrap {x : Nat} {As : List Term} (h : ∀ A ∈ As, A.hasVar x = false ∧ A.escapes = false)
    (b : Term) : ∀ d, abstractVar x d (wrap As b) = wrap As (abstractVar x (d + As.length) b) := by
  induction As with
  | nil => intro d; rfl
  | cons A As ih =>
    intro d
    obtain ⟨h1, h2⟩ := h A (List.mem_cons_self)
    show abstractVar x d (.lam A (wrap As b)) = .lam A _
    simp only [abstractVar]
    rw [abstract_id h1 h2, ih (fun A' h' => h A' (List.mem_cons_of_mem _ h'))]
    simp only [List.length_cons]
    rw [show d + 1 + As.length = d + (As.length + 1) by omega]
    rfl

theorem abstractArgs_append (as : List (Nat × Term)) (x : Nat) (A : Term) (b : Term) : ∀ d,
    abstractArgs d (as ++ [(x, A)]) b = abstractVar x (d + as.length) (abstractArgs d as b) := by
  induction as generalizing b with
  | nil => intro d; rfl
  | cons yB as ih =>
    intro d
    obtain ⟨y, B⟩ := yB
    simp only [List.cons_append, abstractArgs]
    rw [ih, List.length_cons, show d + 1 + as.length = d + (as.length + 1) by omega]

theorem lamTerm_wrap (args : List (Nat × Term))
    (h : ∀ xA ∈ args, ∀ yB ∈ args, yB.2.hasVar xA.1 = false ∧ yB.2.escapes = false) (b : Term) :
    lamTerm args b = wrap (args.map (·.2)) (abstractArgs 0 args.reverse b) := by
  induction args with
  | nil => rfl
  | cons xA args ih =>
    obtain ⟨x, A⟩ := xA
    simp only [lamTerm, List.reverse_cons, abstractArgs_append]
    rw [ih fun p hp q hq => h p (List.mem_cons_of_mem _ hp) q (List.mem_cons_of_mem _ hq),
      abstract_wrap (by
        intro B hB
        obtain ⟨q, hq, rfl⟩ := List.mem_map.1 hB
        exact h (x, A) (List.mem_cons_self) q (List.mem_cons_of_mem _ hq))]
    simp only [List.length_map, List.length_reverse]
    rfl

theorem foldl_wrap (args : List (Nat × Term)) (b : Term) :
    args.reverse.foldl (fun t xA => Term.bind .lam xA.2 t) b = wrap (args.map (·.2)) b := by
  rw [List.foldl_reverse, wrap, List.foldr_map]

theorem LamOk.mem {xA : Nat × Term} (h : LamOk K M n Γ v T args b) (hx : xA ∈ args) :
    n ≤ xA.1 ∧ Γ.get xA.1 = some xA.2 ∧ STyped K Γ BCtx.nil xA.2 .isTy := by
  induction args generalizing v T with
  | nil => cases hx
  | cons yA args ih =>
    obtain ⟨y, A⟩ := yA
    obtain ⟨B, h1, h2, h3, h4, h5, h6, h7, h8, h9, h10⟩ := h
    rcases List.mem_cons.1 hx with rfl | hx
    · exact ⟨h5, h6, h2⟩
    · exact ih h10 hx

theorem typeOf_total {Kn : Kernel} (hg : GoodCtx Kn.toKCtx n Γ) {t T : Term} (h : SHasType Kn.toKCtx Γ t T) :
    ∃ U, typeOf Kn Γ t = .ok U ∧ (isKind T = false → U = T) ∧ (isKind U = false → U = T) := by
  rcases getType_of_typed t.size (Nat.le_refl _) hg.ok h.typed with h1 | ⟨k, T', h1, h2⟩
  · exact ⟨T, by rw [typeOf, h1]; rfl, fun _ => rfl, fun _ => rfl⟩
  · exact ⟨T', by rw [typeOf, h1]; rfl, (fun e => by rw [k] at e; cases e),
      (fun e => by rw [h2] at e; cases e)⟩

theorem toTerm_lam {Kn : Kernel} (L : Lawful Kn.toKCtx M) (hg : GoodCtx Kn.toKCtx n Γ)
    (h : LamOk Kn.toKCtx M n Γ v T args b) :
    (Ext.lam args b).toTerm Kn Γ = .ok (Clausify.lamTerm args b) := by
  have e : args.reverse.foldl (fun t xA => Term.bind .lam xA.2 t) (abstractArgs 0 args.reverse b)
      = Clausify.lamTerm args b := by
    rw [foldl_wrap, lamTerm_wrap]
    intro p hp q hq
    obtain ⟨h1, _, _⟩ := h.mem hp
    obtain ⟨_, h2, h3⟩ := h.mem hq
    exact ⟨hg.no_var h1 h2, isTy_closed h3⟩
  obtain ⟨U, hU, _⟩ := typeOf_total hg (h.lamTerm L hg).1
  simp only [Ext.toTerm]
  rw [e, hU]
  rfl

/-! ### Extended terms -/

/-- An extended term stands for a term. -/
def ExtOk (K : KCtx) (M : Interp.{u}) (n : Nat) (Γ : LCtx) (e : Ext) (t : Term) (J : Jdg) : Prop :=
  match e with
  | .term u => InlAt K M Γ t u J
  | .ite _ _ _ => False
  | .lam args b => args ≠ [] ∧ (args.map (·.1)).Nodup ∧ ∃ T, J = .ty T ∧ isKind T = false ∧ endsKind T = false ∧
      LamOk K M n Γ (fun ρ β => eval M ρ β t) T args b

theorem ExtOk.mono {e : Ext} {t : Term} {J : Jdg} (h : ExtOk K M n Γ e t J) (hle : Ctx.Le Γ Γ') :
    ExtOk K M n Γ' e t J := by
  match e, h with
  | .term u, h => exact InlAt.mono h hle
  | .lam args b, ⟨h1, h2, T, h3, h4, h5, h6⟩ => exact ⟨h1, h2, T, h3, h4, h5, h6.mono hle⟩

theorem ExtOk.toTerm {Kn : Kernel} (L : Lawful Kn.toKCtx M) (hg : GoodCtx Kn.toKCtx n Γ) {e : Ext} {t : Term}
    {J : Jdg} (h : ExtOk Kn.toKCtx M n Γ e t J) :
    ∃ u, e.toTerm Kn Γ = .ok u ∧ InlAt Kn.toKCtx M Γ t u J := by
  match e, h with
  | .term u, h => exact ⟨u, rfl, h⟩
  | .lam args b, ⟨h1, h2, T, h3, h4, h5, h6⟩ =>
    subst h3
    obtain ⟨i1, i2⟩ := h6.lamTerm L hg
    refine ⟨_, toTerm_lam L hg h6, i1, i2, ?_⟩
    rintro (h | ⟨U, e, k⟩)
    · cases h
    · cases e; rw [h5] at k; cases k

/-! ### Applying a function to arguments -/

theorem apply_lam_cons (x : Nat) (A : Term) (args : List (Nat × Term)) (b t : Term) (ts : List Term) :
    Ext.apply (.lam ((x, A) :: args) b) (t :: ts) = Ext.apply (.lam args (replaceVar x t b)) ts := by
  simp only [Ext.apply, List.length_cons, Nat.add_lt_add_iff_right, Nat.add_right_cancel_iff,
    List.take_succ_cons, List.drop_succ_cons, List.map_cons, List.zip_cons_cons, replaceVars]

theorem apply_lam_nil (b : Term) (ts : List Term) : Ext.apply (.lam [] b) ts = .term (b.apply ts) := by
  cases ts with
  | nil => rfl
  | cons t ts => simp [Ext.apply, replaceVars]

theorem apply_lam_none (args : List (Nat × Term)) (b : Term) (h : args ≠ []) :
    Ext.apply (.lam args b) [] = .lam args b := by
  cases args with
  | nil => exact absurd rfl h
  | cons xA args => simp [Ext.apply, replaceVars]

theorem jdg_unique {Δ : BCtx} {t T : Term} {J : Jdg} (h : STyped K Γ Δ t J) (h' : STyped K Γ Δ t (.ty T))
    (eT : endsKind T = false) : J = .ty T := by
  cases J with
  | ty U => rw [Typed.unique_of_not_kind h'.typed h.typed (isKind_of_endsKind_false eT)]
  | isTy =>
    exfalso
    rcases h.isTy_inv with h1 | h1 | ⟨A, B, rfl, _⟩
    · have := h'.not_endsKind _ rfl
      rw [endsKind_of_isKind h1] at this
      cases this
    · have := Typed.unique_of_not_kind h'.typed h1.typed (isKind_of_endsKind_false eT)
      subst this
      cases eT
    · rcases h'.pi_inv.1 with e | ⟨U, e, k⟩
      · cases e
      · cases e; rw [eT] at k; cases k

/-- Beta reduction of an extended term. -/
theorem applyLam (L : Lawful K M) (hg : GoodCtx K n Γ) (hle : Ctx.Le Γ0 Γ) : ∀ {as ts : List Term},
    InlAll K M Γ0 Γ as ts → ∀ {args : List (Nat × Term)} {b hd T : Term} {J : Jdg},
    LamOk K M n Γ (fun ρ β => eval M ρ β hd) T args b → SHasType K Γ0 hd T → isKind T = false →
    endsKind T = false →
    (args.map (·.1)).Nodup → STyped K Γ0 BCtx.nil (hd.apply as) J →
    (∀ x ∈ args.map (·.1), hd.hasVar x = false ∧ (∀ a ∈ as, a.hasVar x = false) ∧
      ∀ t ∈ ts, t.hasVar x = false) →
    ExtOk K M n Γ (Ext.apply (.lam args b) ts) (hd.apply as) J := by
  intro as ts hall
  induction hall with
  | nil =>
    intro args b hd T J h ht kT eT nd hJ hi
    have hd' : J = .ty T := by
      exact jdg_unique hJ ht eT
    subst hd'
    cases args with
    | nil =>
      rw [apply_lam_nil]
      refine ⟨h.1, h.2, ?_⟩
      rintro (h | ⟨U, e, k⟩)
      · cases h
      · cases e; rw [eT] at k; cases k
    | cons xA args =>
      rw [apply_lam_none _ _ (by simp)]
      exact ⟨by simp, nd, T, rfl, kT, eT, h⟩
  | @cons a t as ts ha hall ih =>
    intro args b hd T J h ht kT eT nd hJ hi
    cases args with
    | nil =>
      rw [apply_lam_nil]
      have hin : Inl K M Γ0 Γ hd b := by
        intro J1 h1
        have := jdg_unique h1 ht eT
        subst this
        refine ⟨h.1, h.2, ?_⟩
        rintro (h | ⟨U, e, k⟩)
        · cases h
        · cases e; rw [eT] at k; cases k
      exact (InlAll.cons ha hall).apply hle hin _ hJ
    | cons xA args =>
      obtain ⟨x, A⟩ := xA
      obtain ⟨B, rfl, h2, h3, h4, h5, h6, h7, h8, h9, h10⟩ := h
      rw [apply_lam_cons]
      obtain ⟨J', hJ'⟩ := typed_apply_fun (f := hd.app a) as hJ
      obtain ⟨ha', e⟩ := hJ'.app_fun_val ht (by rw [inst_up]; exact isKind_of_endsKind_false h4)
      rw [inst_up] at e
      subst e
      have hta := ha _ ha'
      obtain ⟨nx, nd'⟩ := List.nodup_cons.1 nd
      have key := h10.replace hg h5 h6 hta.typed (hta.typed.not_endsKind _ rfl) nx
        (fun y hy => (hi y (List.mem_cons_of_mem _ hy)).2.2 t (List.mem_cons_self)) L
      refine ih (hd := hd.app a) (T := B) (key.congr ?_ ?_ nd') hJ' (isKind_of_endsKind_false h4) h4 nd' hJ ?_
      · intro ρ hρ β
        simp only [Acorn.eval]
        rw [← hta.eval ρ hρ β]
        have := h8 ρ (Acorn.eval M ρ β t) β
        simp only at this
        rw [this]
        simp [setAt]
      · intro yB hy ρ d β
        have hyn := hi yB.1 (List.mem_cons_of_mem _ (List.mem_map_of_mem hy))
        refine eval_fvars M _ _ _ _ fun j hj => ?_
        have : j ≠ yB.1 := by
          rintro rfl
          rw [hasVar_app, hyn.1, hyn.2.1 a (List.mem_cons_self)] at hj
          cases hj
        simp [setAt, this]
      · intro y hy
        have hyn := hi y (List.mem_cons_of_mem _ hy)
        refine ⟨?_, fun a' ha' => hyn.2.1 a' (List.mem_cons_of_mem _ ha'),
          fun t' ht' => hyn.2.2 t' (List.mem_cons_of_mem _ ht')⟩
        rw [hasVar_app, hyn.1, hyn.2.1 a (List.mem_cons_self)]
        rfl

end Clausify
end Acorn
