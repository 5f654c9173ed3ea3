/-
C44: the elaborator's operations on values keep their meaning.
-/
import Verif.Lemmas.ValueLocal
import Verif.Spec.ValueFrame
namespace Acorn

open Elab Spec

universe u

variable {F : Frame.{u}}

/-! ### Moving values between stacks -/

/-- Making room on the stack: the value means on the larger stack what it meant before, whatever the new
entries are. -/
theorem C44_insert_stack_keeps_meaning (C : String → List F.T → F.D) (θ : String → F.T)
    (before new after : List F.D) (v : Value) :
    F.den C θ (before ++ (new ++ after)) (v.insertStack before.length new.length) =
      F.den C θ (before ++ after) v := den_insertStack θ before new after v

/-- `forall(y) { x = y }` on a stack with one variable `x`, moved under a new variable that comes first. -/
example : (Value.all [.bool] (.bin .equals (.var 0 .bool) (.var 1 .bool))).insertStack 0 1 =
    .all [.bool] (.bin .equals (.var 1 .bool) (.var 2 .bool)) := rfl

/-- Putting values for the variables at some levels of the stack: the result means what the original
means when those levels hold the meanings of the values.  No type application within the value may bind a
type name that the new values use. -/
theorem C44_bind_values_is_substitution (C : String → List F.T → F.D) (θ : String → F.T)
    (before after : List F.D) (vals : List Value) (v : Value)
    (h : ∀ n ∈ boundNames v, n ∉ typeNamesAll vals) :
    F.den C θ (before ++ after) (v.bindValues before.length (before.length + after.length) vals) =
      F.den C θ (before ++ (F.denAll C θ before vals ++ after)) v := den_bindValues θ before after vals v h

/-- A value with a binder put for a variable that is used under another binder. -/
example : (Value.all [.bool] (.app (.var 0 (.fn [.bool] .bool)) [.var 1 .bool])).bindValues 0 0
      [.lam [.bool] (.not (.var 0 .bool))] =
    .all [.bool] (.app (.lam [.bool] (.not (.var 1 .bool))) [.var 0 .bool]) := rfl

/-- With a type application that binds a name the new value uses, the substituted value is captured. -/
theorem C44_disagreement_type_names_captured : ∃ (C : String → List setFrame.T → setFrame.D)
    (θ : String → setFrame.T) (vals : List Value) (v : Value),
    setFrame.den C θ [] (v.bindValues 0 0 vals) ≠ setFrame.den C θ (setFrame.denAll C θ [] vals) v := by
  refine ⟨fun _ ts => (ts.headD NSet.bool).1, fun _ => NSet.bool, [.const "c" [.tvar "T"] .bool],
    .tapp (.var 0 .bool) ["T"] [.data "Nat" []], ?_⟩
  show (ZFSet.omega : SetModel.S) ≠ SetModel.bool
  intro h
  have h2 : (insert (insert ∅ ∅) (insert ∅ ∅) : SetModel.S) ∈ (ZFSet.omega : SetModel.S) :=
    ZFSet.omega_succ (ZFSet.omega_succ ZFSet.omega_zero)
  rw [h, SetModel.mem_bool] at h2
  rcases h2 with h2 | h2
  · have : (insert ∅ ∅ : SetModel.S) ∈ (SetModel.tt : SetModel.S) := by rw [← h2]; simp
    simp only [SetModel.tt, ZFSet.mem_singleton] at this
    have h3 : (∅ : SetModel.S) ∈ (insert ∅ ∅ : SetModel.S) := by simp
    rw [this] at h3
    simp at h3
  · have : (∅ : SetModel.S) ∈ (SetModel.ff : SetModel.S) := by rw [← h2]; simp
    simp [SetModel.ff] at this

/-! ### Types -/

/-- Types put for type parameters: the result means what the original means when the parameters have the
meanings of those types.  Names bound by type applications within must be others. -/
theorem C44_instantiate_is_type_substitution (C : String → List F.T → F.D) (θ : String → F.T)
    (ps : List (String × Ty)) (env : List F.D) (v : Value)
    (h : ∀ n ∈ boundNames v, n ∉ ps.map (·.1) ∧ n ∉ tysNames (ps.map (·.2))) :
    F.den C θ env (v.instantiate ps) =
      F.den C (F.with_ θ (ps.map fun p => (p.1, F.ty θ p.2))) env v := den_instantiate θ ps env v h

/-- The types of variables and of binders are replaced, and those of the parameters of constants. -/
example : (Value.all [.tvar "T"] (.app (.const "f" [.tvar "T"] (.fn [.tvar "T"] .bool)) [.var 0 (.tvar "T")])).instantiate
      [("T", .data "Nat" [])] =
    .all [.data "Nat" []] (.app (.const "f" [.data "Nat" []] (.fn [.data "Nat" []] .bool))
      [.var 0 (.data "Nat" [])]) := rfl

/-- Fixing the type parameters of a statement, for its proof, leaves it as it is. -/
theorem C44_to_arbitrary_keeps_meaning (C : String → List F.T → F.D) (θ : String → F.T) (env : List F.D)
    (v : Value) : F.den C θ env v.toArbitrary = F.den C θ env v := den_toArbitrary θ env v

example : (Value.all [.tvar "T"] (.bin .equals (.var 0 (.tvar "T")) (.var 0 (.tvar "T")))).toArbitrary =
    .all [.arb "T"] (.bin .equals (.var 0 (.arb "T")) (.var 0 (.arb "T"))) := rfl

/-- The new variables of the cases of a match keep their type variables, although the variables that
refer to them do not. -/
theorem C44_disagreement_match_variables_stay_generic :
    (Value.match_ (.var 0 (.tvar "T")) [.mk [.tvar "T"] (.app (.const "some" [.tvar "T"] (.fn [.tvar "T"] (.tvar "T"))) [.var 1 (.tvar "T")])
      (.var 1 (.tvar "T")) 0 1]).toArbitrary =
    .match_ (.var 0 (.arb "T")) [.mk [.tvar "T"] (.app (.const "some" [.arb "T"] (.fn [.arb "T"] (.arb "T"))) [.var 1 (.arb "T")])
      (.var 1 (.arb "T")) 0 1] := rfl

/-! ### Replacing constants -/

/-- Values put for constants, when the size of the stack they belong to is given and is not zero: the
result means what the original means when those constants have the meanings of the values. -/
theorem C44_replace_constants_sound_partial (C c : String → List F.T → F.D) (θ : String → F.T) (env : List F.D)
    (rep : Value.Replacer) (v : Value) (he : env ≠ []) (hv : boundNames v = [])
    (some : ∀ n ps t w, rep n ps t = some w → F.den C θ env w = c n (F.tys θ ps))
    (none : ∀ n ps t, rep n ps t = none → C n (F.tys θ ps) = c n (F.tys θ ps)) :
    F.den C θ env (v.replaceConstants env.length env.length rep) = F.den c θ env v := by
  have h0 : env.length ≠ 0 := fun h => he (List.length_eq_zero_iff.1 h)
  have ok : RepOk F C θ env env.length rep c := by
    refine ⟨fun n ps t w e rest => ?_, fun n ps t e => (none n ps t e).symm⟩
    rw [if_neg h0, ← some n ps t w e, show env.length + rest.length - env.length = rest.length by omega]
    have := den_insertStack (C := C) θ env rest [] w
    rwa [List.append_nil, List.append_nil] at this
  have := den_replace ok v env.length [] (fun _ => by simp) hv
  rwa [List.append_nil] at this

/-- The hypotheses are met by the replacement of a constant by a function with a binder. -/
example : (Value.all [.bool] (.app (.const "f" [] (.fn [.bool] .bool)) [.var 1 .bool])).replaceConstants 1 1
      (fun n _ _ => if n = "f" then some (.lam [.bool] (.bin .and (.var 0 .bool) (.var 1 .bool))) else none) =
    .all [.bool] (.app (.lam [.bool] (.bin .and (.var 0 .bool) (.var 2 .bool))) [.var 1 .bool]) := rfl

/-- As it is called, with the base of the stack left at zero, a value with a binder is captured by the
binders around the constant: putting `function(x) { x }` for `f` in `forall(y) { f(y) or y }`. -/
theorem C44_disagreement_replacement_captured : ∃ (C c : String → List F.T → F.D) (rep : Value.Replacer)
    (v : Value), boundNames v = [] ∧
    (∀ θ n ps t w, rep n ps t = some w → F.den C θ [] w = c n (F.tys θ ps)) ∧
    (∀ θ n ps t, rep n ps t = none → C n (F.tys θ ps) = c n (F.tys θ ps)) ∧
    (∀ θ, F.Holds c θ [] v) ∧ ∀ θ, ¬ F.Holds C θ [] (v.replaceConstants 0 0 rep) := by
  refine ⟨fun _ _ => F.tt, fun n _ => if n = "f" then F.lam F.bool fun x => x else F.tt,
    fun n _ _ => if n = "f" then some (.lam [.bool] (.var 0 .bool)) else none,
    .all [.bool] (.bin .equals (.app (.const "f" [] (.fn [.bool] .bool)) [.bool true]) (.bool true)),
    rfl, ?_, ?_, ?_, ?_⟩
  · intro θ n ps t w e
    simp only at e ⊢
    by_cases hn : n = "f"
    · rw [if_pos hn] at e ⊢
      cases e
      simp only [Frame.den, Frame.tys, Frame.ty, Frame.lamN]
      exact F.lam_congr _ _ _ fun x _ => rfl
    · rw [if_neg hn] at e
      cases e
  · intro θ n ps t e
    simp only at e ⊢
    by_cases hn : n = "f"
    · rw [if_pos hn] at e
      cases e
    · rw [if_neg hn]
  · intro θ
    rw [holds_all]
    intro xs _
    rw [holds_bin]
    simp only [Frame.binary, Frame.den, Frame.denAll, Frame.appN, List.foldl, if_true]
    have ht : F.ofProp True = F.tt := ofProp_tt.2 trivial
    rw [ht, F.beta _ _ _ ((F.mem_bool _).2 (.inl rfl))]
  · intro θ h
    simp only [Value.replaceConstants, Value.replaceConstantsAll, if_true] at h
    rw [holds_all] at h
    have h1 := h [F.ff] ⟨(F.mem_bool _).2 (.inr rfl), trivial⟩
    rw [holds_bin] at h1
    simp only [Frame.binary, Frame.den, Frame.denAll, Frame.appN, List.foldl, Frame.tys, Frame.ty,
      Frame.lamN, List.nil_append, List.cons_append, List.getD_cons_zero] at h1
    have ht : F.ofProp True = F.tt := ofProp_tt.2 trivial
    simp only [ht] at h1
    rw [F.beta _ _ _ ((F.mem_bool _).2 (.inl rfl))] at h1
    exact F.tt_ne_ff h1.symm

/-! ### Lambdas -/

/-- Expanding lambdas keeps the type and the meaning of a value whose functions get all their arguments at
once, and leaves no lambda in function position. -/
theorem C44_expand_lambdas_keeps_meaning_partial (C : String → List F.T → F.D) (θ : String → F.T)
    (S : Decls) (hr : Respects F C θ S) (Γ : List Ty) (fuel : Nat) (v w : Value) (t : Ty)
    (h : Value.expandLambdas fuel Γ.length v = some w) (hv : Full S Γ v t) :
    Full S Γ w t ∧ NoRedex w ∧ ∀ env, F.Fits env (F.tys θ Γ) → F.den C θ env w = F.den C θ env v :=
  ⟨(expand_spec hr fuel Γ v w t h hv).1, expand_noRedex fuel Γ.length v w h,
    (expand_spec hr fuel Γ v w t h hv).2⟩

namespace ValuesDemo

/-- The declarations of a small theory: a constant, and a datatype with two constructors. -/
def decls : Decls where
  const n ps t := ps = [] ∧ ((n = "on" ∧ t = .data "Flag" []) ∨ (n = "off" ∧ t = .data "Flag" []) ∨
    (n = "p" ∧ t = .fn [.bool, .bool] .bool))
  covers t ks := t = .data "Flag" [] ∧ ks = [("on", [], []), ("off", [], [])]

/-- The first of two truth values. -/
noncomputable def firstOf : SetModel.S := SetModel.lam SetModel.bool fun x => SetModel.lam SetModel.bool fun _ => x

/-- Their meanings. -/
noncomputable def meaning (n : String) (_ : List setFrame.T) : setFrame.D :=
  if n = "on" then SetModel.tt else if n = "off" then SetModel.ff
  else firstOf

theorem mem_first : firstOf ∈ SetModel.pi SetModel.bool fun _ => SetModel.pi SetModel.bool fun _ => SetModel.bool :=
  SetModel.lam_mem_pi fun _ hx => SetModel.lam_mem_pi fun _ _ => hx

theorem mem_p : meaning "p" [] ∈ SetModel.pi SetModel.bool fun _ => SetModel.pi SetModel.bool fun _ => SetModel.bool :=
  mem_first

theorem respects (θ : String → setFrame.T) : Respects setFrame meaning θ decls := by
  have hd : setFrame.ty θ (.data "Flag" []) = NSet.bool := by
    show (if "Flag" = "Nat" then (⟨ZFSet.omega, ∅, ZFSet.omega_zero⟩ : NSet) else NSet.bool) = NSet.bool
    rw [if_neg (by decide)]
  constructor
  · rintro n ps t ⟨rfl, ⟨rfl, rfl⟩ | ⟨rfl, rfl⟩ | ⟨rfl, rfl⟩⟩
    · rw [hd]
      exact SetModel.mem_bool.2 (.inl rfl)
    · rw [hd]
      exact SetModel.mem_bool.2 (.inr rfl)
    · exact mem_p
  · rintro t ks ⟨rfl, rfl⟩ d h
    rw [hd] at h
    rcases SetModel.mem_bool.1 h with rfl | rfl
    · exact ⟨("on", [], []), by simp, [], trivial, rfl⟩
    · exact ⟨("off", [], []), by simp, [], trivial, rfl⟩
  · exact fun t _ => (setFrame.ty θ t).some_mem

/-- `(function(x, f) { match x { on { f(true) } off { p(false, true) } } })(on, function(y) { not y })`. -/
def sample : Value :=
  .app (.lam [.data "Flag" [], .fn [.bool] .bool]
    (.match_ (.var 0 (.data "Flag" []))
      [.mk [] (.const "on" [] (.data "Flag" [])) (.app (.var 1 (.fn [.bool] .bool)) [.bool true]) 0 2,
       .mk [] (.const "off" [] (.data "Flag" [])) (.app (.const "p" [] (.fn [.bool, .bool] .bool)) [.bool false, .bool true]) 1 2]))
    [.const "on" [] (.data "Flag" []), .lam [.bool] (.not (.var 0 .bool))]

theorem sample_full : Full decls [] sample .bool := by
  simp only [sample, Full, FullAll, FullCases, decls]
  refine ⟨[.data "Flag" [], .fn [.bool] .bool], ⟨.bool, rfl, ?_⟩, ⟨rfl, rfl, .inl ⟨rfl, rfl⟩⟩, ⟨.bool, rfl, rfl, rfl, rfl⟩, trivial⟩
  refine ⟨.data "Flag" [], [("on", [], []), ("off", [], [])], ⟨rfl, rfl⟩, ⟨rfl, rfl⟩, rfl, ⟨_, rfl⟩, ?_, rfl, ⟨_, rfl⟩, ?_, trivial⟩
  · exact ⟨[.bool], ⟨rfl, rfl⟩, rfl, trivial⟩
  · exact ⟨[.bool, .bool], ⟨rfl, rfl, .inr (.inr ⟨rfl, rfl⟩)⟩, rfl, rfl, trivial⟩

end ValuesDemo

/-- The hypotheses are met, and the expansion of the sample has none of its lambdas left. -/
example : Full ValuesDemo.decls [] ValuesDemo.sample .bool ∧
    Respects setFrame ValuesDemo.meaning (fun _ => NSet.bool) ValuesDemo.decls ∧
    Value.expandLambdas 20 0 ValuesDemo.sample = some (.match_ (.const "on" [] (.data "Flag" []))
      [.mk [] (.const "on" [] (.data "Flag" [])) (.not (.bool true)) 0 2,
       .mk [] (.const "off" [] (.data "Flag" []))
        (.app (.const "p" [] (.fn [.bool, .bool] .bool)) [.bool false, .bool true]) 1 2]) :=
  ⟨ValuesDemo.sample_full, ValuesDemo.respects _, rfl⟩

/-- With fewer arguments than the lambda has, the result is no longer a function: the other variables of
the lambda are taken off the stack although nothing is put for them.  On a stack with one variable `z`,
`(function(x, y) { y })(z)` becomes a variable that is not on the stack. -/
theorem C44_disagreement_partial_application :
    Value.expandLambdas 10 1 (.app (.lam [.bool, .bool] (.var 2 .bool)) [.var 0 .bool]) = some (.var 1 .bool) ∧
    ∀ (C : String → List setFrame.T → setFrame.D) (θ : String → setFrame.T),
      setFrame.den C θ [SetModel.tt] (.app (.lam [.bool, .bool] (.var 2 .bool)) [.var 0 .bool]) ≠
        setFrame.den C θ [SetModel.tt] (.var 1 .bool) := by
  refine ⟨rfl, fun C θ h => ?_⟩
  have h1 : setFrame.den C θ [SetModel.tt] (.app (.lam [.bool, .bool] (.var 2 .bool)) [.var 0 .bool]) =
      SetModel.lam SetModel.bool fun y => y := by
    show SetModel.app (SetModel.lam SetModel.bool fun _ => SetModel.lam SetModel.bool fun y => y) SetModel.tt = _
    rw [SetModel.app_lam (SetModel.mem_bool.2 (.inl rfl))]
  rw [h1] at h
  have h2 : SetModel.app (SetModel.lam SetModel.bool fun y => y) SetModel.tt = SetModel.tt :=
    SetModel.app_lam (SetModel.mem_bool.2 (.inl rfl))
  have h3 : setFrame.den C θ [SetModel.tt] (.var 1 .bool) = (∅ : SetModel.S) := rfl
  rw [h, h3] at h2
  have h4 : SetModel.app (∅ : SetModel.S) SetModel.tt = ∅ := by
    rw [SetModel.app, dif_neg]
    rintro ⟨b, hb⟩
    simp at hb
  rw [h4] at h2
  exact SetModel.tt_ne_ff h2.symm

/-- With more arguments than the outer lambda has, the inner lambda stays although its variable got a
value: `(function(x) { function(y) { y } })(true, false)` becomes `function(y) { false }`. -/
theorem C44_disagreement_curried_application :
    Value.expandLambdas 10 0 (.app (.lam [.bool] (.lam [.bool] (.var 1 .bool))) [.bool true, .bool false]) =
      some (.lam [.bool] (.bool false)) ∧
    ∀ (C : String → List setFrame.T → setFrame.D) (θ : String → setFrame.T),
      setFrame.den C θ [] (.app (.lam [.bool] (.lam [.bool] (.var 1 .bool))) [.bool true, .bool false]) ≠
        setFrame.den C θ [] (.lam [.bool] (.bool false)) := by
  refine ⟨rfl, fun C θ h => ?_⟩
  have ht : setFrame.ofProp (true = true) = SetModel.tt := if_pos rfl
  have hf : setFrame.ofProp (false = true) = SetModel.ff := if_neg (by simp)
  have h1 : setFrame.den C θ [] (.app (.lam [.bool] (.lam [.bool] (.var 1 .bool))) [.bool true, .bool false]) =
      SetModel.ff := by
    show SetModel.app (SetModel.app (SetModel.lam SetModel.bool fun _ => SetModel.lam SetModel.bool fun y => y)
      (setFrame.ofProp (true = true))) (setFrame.ofProp (false = true)) = _
    rw [ht, hf, SetModel.app_lam (SetModel.mem_bool.2 (.inl rfl)), SetModel.app_lam (SetModel.mem_bool.2 (.inr rfl))]
  rw [h1] at h
  have h2 : setFrame.den C θ [] (.lam [.bool] (.bool false)) =
      SetModel.lam SetModel.bool fun _ => setFrame.ofProp (false = true) := rfl
  rw [h2] at h
  have h3 : ZFSet.pair SetModel.tt (setFrame.ofProp (false = true)) ∈
      (SetModel.lam SetModel.bool fun _ => setFrame.ofProp (false = true)) :=
    SetModel.mem_img.2 ⟨SetModel.tt, SetModel.mem_bool.2 (.inl rfl), rfl⟩
  rw [← h] at h3
  simp [SetModel.ff] at h3

/-! ### Statements -/

/-- Negating a statement, in either form, gives one that holds when the statement does not. -/
theorem C44_negation_is_negation (C : String → List F.T → F.D) (θ : String → F.T) (env : List F.D)
    (v : Value) :
    (F.Holds C θ env v.negate ↔ ¬ F.Holds C θ env v) ∧
    (F.Holds C θ env v.prettyNegate ↔ ¬ F.Holds C θ env v) :=
  ⟨holds_negate θ env v, holds_prettyNegate θ v env⟩

/-- `forall(x) { p(x) implies q or x }`, negated for a reader. -/
example : (Value.all [.bool] (.bin .implies (.app (.const "p" [] (.fn [.bool] .bool)) [.var 0 .bool])
      (.bin .or (.const "q" [] .bool) (.not (.var 0 .bool))))).prettyNegate =
    .ex [.bool] (.bin .and (.app (.const "p" [] (.fn [.bool] .bool)) [.var 0 .bool])
      (.bin .and (.not (.const "q" [] .bool)) (.var 0 .bool))) := rfl

/-- A goal fails exactly when its hypothesis, if it has one, and the negation of its conclusion hold:
what is assumed in a proof by contradiction. -/
theorem C44_negated_goal_is_its_failure (C : String → List F.T → F.D) (θ : String → F.T) (env : List F.D)
    (v : Value) :
    ((∀ a, v.negateGoal.1 = some a → F.Holds C θ env a) ∧ F.Holds C θ env v.negateGoal.2) ↔
      ¬ F.Holds C θ env v := holds_negateGoal θ env v

example : (Value.bin .implies (.const "a" [] .bool) (.bin .equals (.const "b" [] .bool) (.const "c" [] .bool))).negateGoal =
    (some (.const "a" [] .bool), .bin .notEquals (.const "b" [] .bool) (.const "c" [] .bool)) := rfl

/-- A statement taken apart at its conjunctions holds exactly when all parts do, and joining statements
with `and` or `or` gives one that holds exactly when all of them, or one of them, do. -/
theorem C44_conjuncts_and_reduce (C : String → List F.T → F.D) (θ : String → F.T) (env : List F.D) :
    (∀ v : Value, (∀ w ∈ v.removeAnd, F.Holds C θ env w) ↔ F.Holds C θ env v) ∧
    (∀ vs w, Value.reduce .and vs = some w → (F.Holds C θ env w ↔ ∀ v ∈ vs, F.Holds C θ env v)) ∧
    (∀ vs w, Value.reduce .or vs = some w → (F.Holds C θ env w ↔ ∃ v ∈ vs, F.Holds C θ env v)) := by
  refine ⟨holds_removeAnd θ env, fun vs w h => ?_, fun vs w h => ?_⟩
  · cases vs with
    | nil => cases h
    | cons v vs =>
      cases h
      exact holds_foldl_and θ env vs v
  · cases vs with
    | nil => cases h
    | cons v vs =>
      cases h
      exact holds_foldl_or θ env vs v

example : (Value.bin .and (.bin .and (.const "a" [] .bool) (.const "b" [] .bool)) (.const "c" [] .bool)).removeAnd =
      [.const "a" [] .bool, .const "b" [] .bool, .const "c" [] .bool] ∧
    Value.reduce .or [.const "a" [] .bool, .const "b" [] .bool, .const "c" [] .bool] =
      some (.bin .or (.bin .or (.const "a" [] .bool) (.const "b" [] .bool)) (.const "c" [] .bool)) := ⟨rfl, rfl⟩

/-- The statement made from the definition of a constant holds exactly when the constant is what it is
defined to be. -/
theorem C44_definition_says_equal (C : String → List F.T → F.D) (θ : String → F.T) (n : String)
    (ps : List Ty) (d : Value) (r : Ty)
    (hc : F.mem (C n (F.tys θ ps)) (F.ty θ (.functional d.stripLams.1 r)))
    (hd : F.mem (F.den C θ [] d) (F.ty θ (.functional d.stripLams.1 r))) :
    F.Holds C θ [] (Value.inflate (.const n ps (.functional d.stripLams.1 r)) d) ↔
      C n (F.tys θ ps) = F.den C θ [] d := by
  rw [ty_functional] at hc hd
  exact holds_inflate θ n ps _ d (F.ty θ r) hc hd

/-- `define p(x, y) { x }`: the hypotheses are met, and the statement is the expected one. -/
example : let d := Value.lam [.bool] (.lam [.bool] (.var 0 .bool))
    setFrame.mem (ValuesDemo.meaning "p" []) (setFrame.ty (fun _ => NSet.bool) (.functional d.stripLams.1 .bool)) ∧
    setFrame.mem (setFrame.den ValuesDemo.meaning (fun _ => NSet.bool) [] d)
      (setFrame.ty (fun _ => NSet.bool) (.functional d.stripLams.1 .bool)) ∧
    Value.inflate (.const "p" [] (.fn [.bool, .bool] .bool)) d = .all [.bool, .bool]
      (.bin .equals (.app (.const "p" [] (.fn [.bool, .bool] .bool)) [.var 0 .bool, .var 1 .bool]) (.var 0 .bool)) := by
  refine ⟨?_, ?_, rfl⟩
  · exact ValuesDemo.mem_p
  · exact ValuesDemo.mem_first

/-- A statement proved in a block, as it is exported: it holds exactly when for all values of the block's
arguments there are values of the other constants of the block with which the inner statement holds. -/
theorem C44_exported_statement (C : String → List F.T → F.D) (θ : String → F.T)
    (args others : List (String × Ty)) (v : Value) (hv : boundNames v = []) :
    F.Holds C θ [] (Value.externalize args others v) ↔
      ∀ xs, F.Fits xs (F.tys θ (args.map (·.2))) → ∃ ys, F.Fits ys (F.tys θ (others.map (·.2))) ∧
        F.Holds (fun n ts => ((((args ++ others).map (·.1)).zip (xs ++ ys)).reverse.lookup n).getD (C n ts)) θ [] v :=
  holds_externalize θ args others v hv

/-- From a block with the argument `a` and a witness `w`: `forall(y) { p(a, w) or y }`. -/
example : Value.externalize [("a", .bool)] [("w", .bool)]
      (.all [.bool] (.bin .or (.app (.const "p" [] (.fn [.bool, .bool] .bool)) [.const "a" [] .bool, .const "w" [] .bool])
        (.var 0 .bool))) =
    .all [.bool] (.ex [.bool] (.all [.bool]
      (.bin .or (.app (.const "p" [] (.fn [.bool, .bool] .bool)) [.var 0 .bool, .var 1 .bool]) (.var 2 .bool)))) := by
  rfl

/-- Of two arguments with one name, the statements of the block are about the last. -/
example : Value.externalize [("a", .bool), ("a", .data "Nat" [])] [] (.app (.const "p" [] (.fn [.data "Nat" []] .bool))
      [.const "a" [] (.data "Nat" [])]) =
    .all [.bool, .data "Nat" []] (.app (.const "p" [] (.fn [.data "Nat" []] .bool)) [.var 1 (.data "Nat" [])]) := by
  rfl

/-! ### Local `satisfy` -/

/-- `let x: T satisfy { condition }` inside an expression, when the condition has an equality that fixes
`x` and the other side of the equality has no binders: the alias means the only value of `x` with the
condition, and the claim says that this value has it. -/
theorem C44_local_satisfy_alias_partial (C : String → List F.T → F.D) (θ : String → F.T) (env : List F.D)
    (t : Ty) (condition alias' claim : Value)
    (h : Value.satisfyLet env.length t condition = some (alias', claim))
    (hp : PlainOn (env.length + 1) alias') (hn : ∀ n ∈ boundNames condition, n ∉ typeNames alias') :
    (∀ x, F.Holds C θ (env ++ [x]) condition → x = F.den C θ env alias') ∧
    (F.Holds C θ env claim ↔ F.Holds C θ (env ++ [F.den C θ env alias']) condition) := by
  simp only [Value.satisfyLet, Option.bind_eq_bind, Option.pure_def] at h
  obtain ⟨w, hw, h⟩ := Option.bind_eq_some_iff.1 h
  simp only [Option.some.injEq, Prod.mk.injEq] at h
  obtain ⟨rfl, rfl⟩ := h
  have hr := (satisfyWitness_spec (C := C) θ env F.undef t condition w hw).1
  refine ⟨fun x hx => ?_, ?_⟩
  · rw [← plain_den θ env x w hp hr]
    exact (satisfyWitness_spec (C := C) θ env x t condition w hw).2 hx
  · rw [bindValues_size (by
      intro v hv k
      rw [List.mem_singleton] at hv
      subst hv
      exact insertStack_plain _ _ hp hr k) condition _ (env.length + ([] : List F.D).length)]
    have := den_bindValues (C := C) θ env [] [w] condition (by
      intro n hn'
      simpa [typeNamesAll] using hn n hn')
    simp only [List.append_nil] at this
    simp only [Frame.Holds, this]
    rfl

example : Value.satisfyLet 1 .bool (.bin .and (.var 1 .bool) (.bin .equals (.not (.var 0 .bool)) (.var 1 .bool))) =
    some (.not (.var 0 .bool), .bin .and (.not (.var 0 .bool)) (.bin .equals (.not (.var 0 .bool)) (.not (.var 0 .bool)))) := by
  rfl

/-- When the other side has binders, the alias does not mean what the condition says: with
`let f: (Bool, Bool) -> Bool satisfy { f = function(a, b) { a } }` the alias, as it is used afterwards, is
`function(a, b) { b }`, and the claim has a variable that no binder binds. -/
theorem C44_disagreement_local_satisfy_shifts_binders : ∃ (condition alias' claim : Value),
    condition = .bin .equals (.var 0 (.fn [.bool, .bool] .bool)) (.lam [.bool, .bool] (.var 1 .bool)) ∧
    Value.satisfyLet 0 (.fn [.bool, .bool] .bool) condition = some (alias', claim) ∧
    alias' = .lam [.bool, .bool] (.var 1 .bool) ∧
    (∀ (C : String → List F.T → F.D) (θ : String → F.T),
      ¬ ∃ x, F.Holds C θ [x] condition ∧ x = F.den C θ [] alias') ∧
    claim = .bin .equals (.lam [.bool, .bool] (.var 2 .bool)) (.lam [.bool, .bool] (.var 0 .bool)) := by
  refine ⟨_, _, _, rfl, rfl, rfl, fun C θ => ?_, rfl⟩
  rintro ⟨x, hx, rfl⟩
  rw [holds_bin] at hx
  simp only [Frame.binary, Frame.den, Frame.tys, Frame.ty, Frame.lamN, List.nil_append, List.cons_append,
    List.getD_cons_zero, List.getD_cons_succ] at hx
  have h1 := congrArg (fun f => F.app (F.app f F.tt) F.ff) hx
  have ht := (F.mem_bool F.tt).2 (.inl rfl)
  have hf := (F.mem_bool F.ff).2 (.inr rfl)
  simp only [F.beta _ _ _ ht, F.beta _ _ _ hf] at h1
  exact F.tt_ne_ff h1.symm

end Acorn
