/-
C43: statements are lowered to clauses that mean the same.
-/
import Verif.Lemmas.ClausifyLits
import Verif.Spec.DemoBox
import Verif.Spec.Demo
import Verif.Spec.DemoSimple
namespace Acorn
open Term Clausify Spec

universe u

/-- C43.  A well-typed statement that is not a definition by cases is always lowered, without an error, and
the clauses are true exactly when the statement is: for all values of its type variables and all values
of the variables of the leading universal quantifiers.  `NoEmptyTypes` is needed, see
`C43_disagreement_empty_type`. -/
theorem C43_clausify_partial {Kn : Clausify.Kernel} {M : Interp.{u}} (L : Lawful Kn.toKCtx M)
    (hne : NoEmptyTypes M) {tyvars : List Term} (hk : ∀ T ∈ tyvars, isKind T = true) {t : Term}
    (ht : SHasType Kn.toKCtx (TypeVars tyvars) t .boolTy) (hq : QuantifiesValues t)
    (hm : EqualsMatch Kn t = false) {fuel : Nat} (hf : t.size ≤ fuel) :
    ∃ cs, clausify Kn fuel tyvars t = .ok cs ∧
      (StatementTrue M (TypeVars tyvars) t ↔ ClausesTrue M cs) :=
  clausify_spec L hne hk ht hq hm hf

namespace DemoClausify
open Spec.DemoBox

/-- `forall(x: T, f: T -> T) { f = (λ y. x) implies not only[T](x) or f(x) = x }` for a type variable `T`. -/
def poly : Term :=
  .bind .all (fvar 0) (.bind .all (.pi (fvar 0) (fvar 0))
    (.or (.not (.eq (.pi (fvar 0) (fvar 0)) (.bvar 0) (.bind .lam (fvar 0) (.bvar 2))))
      (.or (.not (.app (.app only (fvar 0)) (.bvar 1))) (.eq (fvar 0) (.app (.bvar 0) (.bvar 1)) (.bvar 1)))))

theorem s_only {Γ : LCtx} {Δ : BCtx} {x : Term} (h : Γ.get 0 = some .type0)
    (hx : STyped K.toKCtx Γ Δ x (.ty (fvar 0))) :
    STyped K.toKCtx Γ Δ (.app (.app only (fvar 0)) x) (.ty .boolTy) :=
  .appVal (A := fvar 0) (B := .boolTy)
    (STyped.appTy (K := K.toKCtx) (f := only) (a := fvar 0) (A := .type0) (B := .pi (.bvar 0) .boolTy)
      (s_sym rfl rfl) (.fvar h rfl) rfl) hx rfl rfl

theorem poly_typed : SHasType K.toKCtx (TypeVars [.type0]) poly .boolTy := by
  have tv : ∀ {Δ : BCtx}, STyped K.toKCtx (TypeVars [.type0]) Δ (fvar 0) (.ty .type0) := .fvar rfl rfl
  have fn : ∀ {Δ : BCtx}, STyped K.toKCtx (TypeVars [.type0]) Δ (.pi (fvar 0) (fvar 0)) (.ty .type0) :=
    .pi tv tv
  refine .all (.tyOf tv) (.all (.tyOf fn) (.or (.not (.eq fn (.bvar rfl) ?_))
    (.or (.not ?_) (.eq tv ?_ (.bvar rfl)))))
  · exact STyped.lam (B := fvar 0) (.tyOf tv) (STyped.bvar (i := 2) rfl) rfl rfl
  · exact s_only rfl (.bvar rfl)
  · exact .appVal (A := fvar 0) (B := fvar 0) (.bvar rfl) (.bvar rfl) rfl rfl

/-- `forall(x: Box, f: Bool -> Bool, g: Bool -> Bool) { foo(x, f, g) = match x { mk(k) { if f = g { false } else
{ true } } } }`. -/
def fooDef : Term :=
  .bind .all box (.bind .all op (.bind .all op (.eq .boolTy
    (.app (.app (.app foo (.bvar 2)) (.bvar 1)) (.bvar 0))
    (.app (.app (.app elim .boolTy) (.bvar 2))
      (.bind .lam .boolTy (.ite .boolTy (.eq op (.bvar 2) (.bvar 1)) .ff .tt))))))

/-- `forall(x: Box) { bar(x) = match (match x { mk(k) { mk(not k) } }) { mk(j) { j } } }`. -/
def barDef : Term :=
  .bind .all box (.eq .boolTy (.app bar (.bvar 0))
    (.app (.app (.app elim .boolTy) (.app (.app (.app elim box) (.bvar 0))
      (.bind .lam .boolTy (.app mk (.not (.bvar 0)))))) (.bind .lam .boolTy (.bvar 0))))

theorem fooDef_typed : SHasType K.toKCtx [] fooDef .boolTy := by
  refine .all (.tyOf s_box) (.all (.tyOf s_op) (.all (.tyOf s_op) (.eq s_bool
    (s_foo (.bvar rfl) (.bvar rfl) (.bvar rfl)) (s_elim s_bool rfl rfl (.bvar rfl) ?_))))
  exact .lam (B := .boolTy) (.tyOf s_bool) (.ite s_bool (.eq s_op (.bvar rfl) (.bvar rfl))
    (s_sym rfl rfl) (s_sym rfl rfl)) rfl rfl

theorem barDef_typed : SHasType K.toKCtx [] barDef .boolTy := by
  refine .all (.tyOf s_box) (.eq s_bool (s_bar (.bvar rfl)) (s_elim s_bool rfl rfl
    (s_elim s_box rfl rfl (.bvar rfl) ?_) ?_))
  · exact .lam (B := box) (.tyOf s_bool) (s_mk (.not (.bvar rfl))) rfl rfl
  · exact .lam (B := .boolTy) (.tyOf s_bool) (.bvar rfl) rfl rfl

section
open SetModel

theorem fooDef_true : StatementTrue M [] fooDef := by
  intro ρ _ β
  refine ofProp_tt.2 fun x hx => ofProp_tt.2 fun f hf => ofProp_tt.2 fun g hg => ?_
  replace hx : x ∈ SetModel.bool := hx
  replace hf : f ∈ SetModel.pi SetModel.bool fun _ => SetModel.bool := hf
  replace hg : g ∈ SetModel.pi SetModel.bool fun _ => SetModel.bool := hg
  show SetModel.app (SetModel.app (SetModel.app eqValV SetModel.bool)
    (SetModel.app (SetModel.app (SetModel.app (vals (.global 0 2)) x) f) g))
    (SetModel.app (SetModel.app (SetModel.app (vals (.global 0 1)) SetModel.bool) x)
      (SetModel.lam SetModel.bool fun _ => SetModel.app (SetModel.app (SetModel.app (SetModel.app iteValV
        SetModel.bool) (SetModel.app (SetModel.app (SetModel.app eqValV
          (SetModel.pi SetModel.bool fun _ => SetModel.bool)) f) g)) SetModel.ff) SetModel.tt)) = SetModel.tt
  have hp : (SetModel.pi SetModel.bool fun _ => SetModel.bool) ∈ V := V_pi V_bool fun _ _ => V_bool
  have t1 : SetModel.tt ∈ SetModel.bool := mem_bool.2 (.inl rfl)
  have t2 : SetModel.ff ∈ SetModel.bool := mem_bool.2 (.inr rfl)
  have e1 : SetModel.app (SetModel.app (SetModel.app (vals (.global 0 2)) x) f) g = ofProp (f ≠ g) := by
    show SetModel.app (SetModel.app (SetModel.app (SetModel.lam _ _) x) f) g = _
    rw [app_lam hx, app_lam hf, app_lam hg]
  have e2 : SetModel.app (SetModel.app (SetModel.app eqValV
      (SetModel.pi SetModel.bool fun _ => SetModel.bool)) f) g = ofProp (f = g) := by
    rw [eqValV, app_lam hp, app_lam hf, app_lam hg]
  rw [e1, e2]
  have e3 : SetModel.app (SetModel.app (SetModel.app (SetModel.app iteValV
        SetModel.bool) (ofProp (f = g))) SetModel.ff) SetModel.tt = ofProp (f ≠ g) := by
    by_cases h : f = g
    · rw [ofProp_tt.2 h, val_iteV_tt V_bool t2 t1, ofProp, if_neg (by simpa using h)]
    · rw [show ofProp (f = g) = SetModel.ff from if_neg h, val_iteV_ff V_bool t2 t1, ofProp_tt.2 h]
  rw [e3]
  have hl : SetModel.lam SetModel.bool (fun _ => ofProp (f ≠ g)) ∈
      SetModel.pi SetModel.bool fun _ => SetModel.bool := lam_mem_pi fun _ _ => ofProp_bool _
  have e4 : SetModel.app (SetModel.app (SetModel.app (vals (.global 0 1)) SetModel.bool) x)
      (SetModel.lam SetModel.bool fun _ => ofProp (f ≠ g)) = ofProp (f ≠ g) := by
    show SetModel.app (SetModel.app (SetModel.app (SetModel.lam _ _) _) x) _ = _
    rw [app_lam V_bool, app_lam hx, app_lam hl, app_lam hx]
  rw [e4]
  exact (val_eqV V_bool (ofProp_bool _) (ofProp_bool _)).2 rfl

theorem notVal_mem {x : S} (h : x ∈ SetModel.bool) : SetModel.app notVal x ∈ SetModel.bool := by
  rw [notVal, app_lam h]; exact ofProp_bool _

theorem barDef_true : StatementTrue M [] barDef := by
  intro ρ _ β
  refine ofProp_tt.2 fun x hx => ?_
  replace hx : x ∈ SetModel.bool := hx
  show SetModel.app (SetModel.app (SetModel.app eqValV SetModel.bool) (SetModel.app (vals (.global 0 3)) x))
    (SetModel.app (SetModel.app (SetModel.app (vals (.global 0 1)) SetModel.bool)
      (SetModel.app (SetModel.app (SetModel.app (vals (.global 0 1)) SetModel.bool) x)
        (SetModel.lam SetModel.bool fun k => SetModel.app (vals (.global 0 0)) (SetModel.app notVal k))))
      (SetModel.lam SetModel.bool fun k => k)) = SetModel.tt
  have elim_val : ∀ (x : S), x ∈ SetModel.bool → ∀ h : S, h ∈ (SetModel.pi SetModel.bool fun _ => SetModel.bool) →
      SetModel.app (SetModel.app (SetModel.app (vals (.global 0 1)) SetModel.bool) x) h = SetModel.app h x := by
    intro x hx h hh
    show SetModel.app (SetModel.app (SetModel.app (SetModel.lam _ _) _) x) _ = _
    rw [app_lam V_bool, app_lam hx, app_lam hh]
  have e0 : ∀ k ∈ SetModel.bool, SetModel.app (vals (.global 0 0)) (SetModel.app notVal k) = SetModel.app notVal k := by
    intro k hk
    show SetModel.app (SetModel.lam _ _) _ = _
    rw [app_lam (notVal_mem hk)]
  rw [lam_congr e0, elim_val x hx _ (lam_mem_pi fun k hk => notVal_mem hk), app_lam hx,
    elim_val _ (notVal_mem hx) _ (lam_mem_pi fun k hk => hk), app_lam (notVal_mem hx)]
  have e1 : SetModel.app (vals (.global 0 3)) x = ofProp (x = SetModel.ff) := by
    show SetModel.app (SetModel.lam _ _) _ = _
    rw [app_lam hx]
  rw [e1, notVal, app_lam hx]
  exact (val_eqV V_bool (ofProp_bool _) (ofProp_bool _)).2 rfl

end

/-- The first of the clauses that `fooDef` is lowered to. -/
def fooClause : Clause :=
  ⟨[⟨false, .app (.app (.app foo (fvar 0)) (fvar 1)) (fvar 2), .tt⟩, ⟨false, .app mk (fvar 3), fvar 0⟩,
    ⟨false, .app (fvar 1) (fvar 4), .app (fvar 2) (fvar 4)⟩],
   [some box, some op, some op, some .boolTy, some .boolTy]⟩

/-- The first of the clauses that `barDef` is lowered to. -/
def barClause : Clause :=
  ⟨[⟨true, .app bar (fvar 0), fvar 1⟩, ⟨true, .app mk (fvar 2), fvar 0⟩],
   [some box, some .boolTy, some .boolTy]⟩

theorem head_of {e : Except Err (List Clause)} {c : Clause} (h : e.map List.head? = .ok (some c)) :
    ∃ cs, e = .ok (c :: cs) := by
  match e, h with
  | .ok (x :: xs), h => cases h; exact ⟨xs, rfl⟩

theorem bar_clauses : ∃ cs, clausify K 40 [] barDef = .ok (barClause :: cs) :=
  head_of (by decide +kernel)
theorem foo_clauses : ∃ cs, clausify K 40 [] fooDef = .ok (fooClause :: cs) :=
  head_of (by decide +kernel)

/-- Values of the variables of `fooClause`. -/
noncomputable def fooVars : Nat → SetModel.S
  | 1 => SetModel.lam SetModel.bool fun x => x
  | 2 => SetModel.lam SetModel.bool fun _ => SetModel.tt
  | _ => SetModel.tt

/-- Values of the variables of `barClause`. -/
noncomputable def barVars : Nat → SetModel.S
  | 2 => SetModel.ff
  | _ => SetModel.tt

/-- `foo(x, f, g)` is true when `f` and `g` differ, even if they agree on one argument. -/
theorem fooClause_false : ¬ ClauseTrue M fooClause := by
  open SetModel in
  intro h
  let f := SetModel.lam SetModel.bool fun x => x
  let g := SetModel.lam SetModel.bool fun _ => SetModel.tt
  have t1 : SetModel.tt ∈ SetModel.bool := mem_bool.2 (.inl rfl)
  have t2 : SetModel.ff ∈ SetModel.bool := mem_bool.2 (.inr rfl)
  have hf : f ∈ SetModel.pi SetModel.bool fun _ => SetModel.bool := lam_mem_pi fun _ h => h
  have hg : g ∈ SetModel.pi SetModel.bool fun _ => SetModel.bool := lam_mem_pi fun _ _ => t1
  have hfg : f ≠ g := by
    intro e
    have := congrArg (SetModel.app · SetModel.ff) e
    simp only [f, g] at this
    rw [app_lam t2, app_lam t2] at this
    exact tt_ne_ff this.symm
  obtain ⟨l, hl, hh⟩ := h fooVars (by
    intro i T e β
    match i, e with
    | 0, e => cases e; exact t1
    | 1, e => cases e; exact hf
    | 2, e => cases e; exact hg
    | 3, e => cases e; exact t1
    | 4, e => cases e; exact t1
    | n + 5, e => cases e) fun _ => SetModel.tt
  simp only [fooClause, List.mem_cons, List.not_mem_nil, or_false] at hl
  rcases hl with rfl | rfl | rfl
  · have hh : SetModel.app (SetModel.app (SetModel.app (vals (.global 0 2)) SetModel.tt) f) g ≠ SetModel.tt := hh
    apply hh
    show SetModel.app (SetModel.app (SetModel.app (SetModel.lam _ _) SetModel.tt) f) g = SetModel.tt
    rw [app_lam t1, app_lam hf, app_lam hg, ofProp_tt.2 hfg]
  · have hh : SetModel.app (vals (.global 0 0)) SetModel.tt ≠ SetModel.tt := hh
    apply hh
    show SetModel.app (SetModel.lam _ _) SetModel.tt = SetModel.tt
    rw [app_lam t1]
  · have hh : SetModel.app f SetModel.tt ≠ SetModel.app g SetModel.tt := hh
    apply hh
    rw [app_lam t1, app_lam t1]

/-- `bar(x)` is not every truth value unless `x` is every `mk(k)`. -/
theorem barClause_false : ¬ ClauseTrue M barClause := by
  open SetModel in
  intro h
  have t1 : SetModel.tt ∈ SetModel.bool := mem_bool.2 (.inl rfl)
  have t2 : SetModel.ff ∈ SetModel.bool := mem_bool.2 (.inr rfl)
  obtain ⟨l, hl, hh⟩ := h barVars (by
    intro i T e β
    match i, e with
    | 0, e => cases e; exact t1
    | 1, e => cases e; exact t1
    | 2, e => cases e; exact t2
    | n + 3, e => cases e) fun _ => SetModel.tt
  simp only [barClause, List.mem_cons, List.not_mem_nil, or_false] at hl
  rcases hl with rfl | rfl
  · have e : SetModel.app (SetModel.lam SetModel.bool fun x => ofProp (x = SetModel.ff)) SetModel.tt = SetModel.tt := hh
    rw [app_lam t1, ofProp_tt] at e
    exact tt_ne_ff e
  · have e : SetModel.app (SetModel.lam SetModel.bool fun x => x) SetModel.ff = SetModel.tt := hh
    rw [app_lam t2] at e
    exact tt_ne_ff e.symm

end DemoClausify

open DemoClausify Spec.DemoBox in
/-- The hypotheses are met by a statement with a type variable, an equation between functions and a
lambda, and the clauses say what they should. -/
example : ∃ cs, clausify K poly.size [.type0] poly = .ok cs ∧ cs.length = 1 ∧
    (StatementTrue M (TypeVars [.type0]) poly ↔ ClausesTrue M cs) := by
  obtain ⟨cs, h1, h2⟩ := C43_clausify_partial lawful noEmptyTypes (tyvars := [.type0]) (by simp; rfl)
    poly_typed ⟨rfl, rfl, trivial⟩ rfl (Nat.le_refl _)
  refine ⟨cs, h1, ?_, h2⟩
  have : (clausify K poly.size [.type0] poly).map List.length = .ok 1 := by decide +kernel
  rw [h1] at this
  exact Except.ok.inj this

open DemoClausify Spec.DemoBox in
/-- Disagreement: a definition by cases whose case is an `if` with an equation between functions as its
condition.  The definition is true, in an interpretation without empty types, and the clauses it is lowered
to are not: the condition `f = g` becomes `f(k) = g(k)` for a new variable `k`, which stands for all values
of `k` also in the branch where `f ≠ g`. -/
theorem C43_disagreement_function_condition :
    Lawful K.toKCtx M ∧ NoEmptyTypes M ∧ SHasType K.toKCtx [] fooDef .boolTy ∧ QuantifiesValues fooDef ∧
    StatementTrue M [] fooDef ∧ ∃ cs, clausify K 40 [] fooDef = .ok cs ∧ ¬ ClausesTrue M cs := by
  obtain ⟨cs, h⟩ := foo_clauses
  exact ⟨lawful, noEmptyTypes, fooDef_typed, ⟨rfl, rfl, rfl, trivial⟩, fooDef_true, _, h, fun hc =>
    fooClause_false (hc _ (List.mem_cons_self))⟩

open DemoClausify Spec.DemoBox in
/-- Disagreement: a definition by cases on the result of another match.  The definition is true, in an
interpretation without empty types, and the clauses are not: the fields of the inner patterns are universally
quantified in the condition of the outer match, and this condition is negated. -/
theorem C43_disagreement_nested_match :
    Lawful K.toKCtx M ∧ NoEmptyTypes M ∧ SHasType K.toKCtx [] barDef .boolTy ∧ QuantifiesValues barDef ∧
    StatementTrue M [] barDef ∧ ∃ cs, clausify K 40 [] barDef = .ok cs ∧ ¬ ClausesTrue M cs := by
  obtain ⟨cs, h⟩ := bar_clauses
  exact ⟨lawful, noEmptyTypes, barDef_typed, ⟨rfl, trivial⟩, barDef_true, _, h, fun hc =>
    barClause_false (hc _ (List.mem_cons_self))⟩

open Spec.Demo in
/-- Disagreement: `forall(x: Void) { false }` is true when `Void` has no elements, and it is lowered to
`false`: the variable of the empty type is not used and is dropped. -/
theorem C43_disagreement_empty_type :
    Lawful K M ∧ SHasType K [] (.bind .all void .ff) .boolTy ∧ QuantifiesValues (.bind .all void .ff) ∧
    EqualsMatch ⟨K, fun _ => none⟩ (.bind .all void .ff) = false ∧
    StatementTrue M [] (.bind .all void .ff) ∧
    ∃ cs, clausify ⟨K, fun _ => none⟩ 10 [] (.bind .all void .ff) = .ok cs ∧ ¬ ClausesTrue M cs := by
  refine ⟨lawful, .all (.tyOf (s_sym rfl rfl)) (s_sym rfl rfl), ⟨rfl, trivial⟩, rfl, ?_, [⟨[⟨true, .ff, .tt⟩], []⟩],
    by decide +kernel, ?_⟩
  · intro ρ _ β
    exact SetModel.ofProp_tt.2 fun a ha => absurd ha (ZFSet.notMem_empty _)
  · intro h
    obtain ⟨l, hl, hh⟩ := h _ (List.mem_cons_self) (fun _ => SetModel.tt) (fun i T e => by cases e)
      (fun _ => SetModel.tt)
    rw [List.mem_singleton] at hl
    subst hl
    exact SetModel.tt_ne_ff (Eq.symm hh)

end Acorn
