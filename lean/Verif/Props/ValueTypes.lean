/-
C45: the types of the elaborator's values, the check that a value is well typed, and type inference.
-/
import Verif.Lemmas.TypeInference
namespace Acorn

open Elab Spec

/-! ### The two ways to ask for a type -/

/-- If `is_type` says that a value has a type then `get_type` gives that type. -/
theorem C45_is_type_is_right (v : Value) (t : Ty) (hn : NormalTy t) (h : v.isType t = true) :
    v.getType = some t := getType_of_isType v t hn h

/-- The function `(x: Nat) => x = x`. -/
def reflexive : Value :=
  .lam [.data "Nat" []] (.bin .equals (.var 0 (.data "Nat" [])) (.var 0 (.data "Nat" [])))

example : reflexive.isType (.fn [.data "Nat" []] .bool) = true := by decide +kernel

/-- The converse fails.  `function(x: Nat) { function(y: Nat) { x } }` has the type
`(Nat, Nat) -> Nat`, but `is_type` denies it, and the check refuses the value as an argument for a
parameter of this very type. -/
theorem C45_disagreement_nested_lambda :
    let nat : Ty := .data "Nat" []
    let v : Value := .lam [nat] (.lam [nat] (.var 0 nat))
    let f : Value := .const "f" [] (.fn [.fn [nat, nat] nat] .bool)
    v.validate [] = true ∧ v.getType = some (.fn [nat, nat] nat) ∧ v.isType (.fn [nat, nat] nat) = false ∧
      (Value.app f [v]).getType = some .bool ∧ (Value.app f [v]).validate [] = false := by
  refine ⟨by decide +kernel, rfl, by decide +kernel, rfl, by decide +kernel⟩

/-- A value that passes the check has a type: `get_type` does not panic. -/
theorem C45_checked_values_have_types (v : Value) (Γ : List Ty) (hc : CasesGiven v)
    (h : v.validate Γ = true) : ∃ t, v.getType = some t := getType_of_valid v Γ hc h

example : CasesGiven (.app reflexive [.var 0 (.data "Nat" [])]) ∧
    (Value.app reflexive [.var 0 (.data "Nat" [])]).validate [.data "Nat" []] = true :=
  ⟨⟨⟨True.intro, True.intro⟩, True.intro, True.intro⟩, by decide +kernel⟩

/-! ### Moving values -/

/-- Making room on the stack changes no type, and a value passes the check on the larger stack exactly
when it passes on the smaller one. -/
theorem C45_insert_stack_keeps_types (A Δ B : List Ty) (v : Value) :
    (v.insertStack A.length Δ.length).getType = v.getType ∧
      (∀ t, (v.insertStack A.length Δ.length).isType t = v.isType t) ∧
      (v.insertStack A.length Δ.length).validate (A ++ Δ ++ B) = v.validate (A ++ B) :=
  ⟨getType_insertStack _ _ v, isType_insertStack _ _ v, validate_insertStack A Δ v B⟩

example : (Value.var 1 (.data "Nat" [])).validate ([.bool] ++ [.data "Nat" []]) = true ∧
    ((Value.var 1 (.data "Nat" [])).insertStack 1 2) = .var 3 (.data "Nat" []) :=
  ⟨by decide +kernel, rfl⟩

/-- Putting values of the right types for variables keeps the type of a value, and the result passes the
check on what is left of the stack. -/
theorem C45_bind_values_keeps_types (A us B : List Ty) (vals : List Value) (v : Value)
    (hl : vals.length = us.length) (hn : NormalTys us)
    (ht : ∀ (i : Nat) (h : i < vals.length) (h' : i < us.length), vals[i].isType us[i] = true)
    (hv : ∀ w ∈ vals, w.validate A = true) (hnv : NormalIn v) (h : v.validate (A ++ us ++ B) = true) :
    (v.bindValues A.length (A.length + B.length) vals).getType = v.getType ∧
      (∀ t, NormalTy t → v.isType t = true →
        (v.bindValues A.length (A.length + B.length) vals).isType t = true) ∧
      (v.bindValues A.length (A.length + B.length) vals).validate (A ++ B) = true :=
  have := validate_bindValues ⟨hl, hn, ht, hv⟩ v B hnv h
  ⟨this.1.1, this.1.2, this.2⟩

/-- One level of the stack, `f: Nat -> Bool`, is replaced by `reflexive`. -/
example : let fx : Value := .app (.var 0 (.fn [.data "Nat" []] .bool)) [.var 1 (.data "Nat" [])]
    fx.validate ([] ++ [.fn [.data "Nat" []] .bool] ++ [.data "Nat" []]) = true ∧
    fx.bindValues 0 1 [reflexive] =
      .app (.lam [.data "Nat" []] (.bin .equals (.var 1 (.data "Nat" [])) (.var 1 (.data "Nat" []))))
        [.var 0 (.data "Nat" [])] ∧
    (fx.bindValues 0 1 [reflexive]).validate [.data "Nat" []] = true :=
  ⟨by decide +kernel, rfl, by decide +kernel⟩

/-! ### Type parameters -/

/-- Replacing type parameters replaces them in the type. -/
theorem C45_instantiate_keeps_type (ps : List (String × Ty)) (v : Value) (t : Ty)
    (hp : ∀ p ∈ ps, NormalTy p.2) (hn : NormalIn v)
    (ha : ∀ n ∈ boundNames v, n ∉ ps.map (·.1) ∧ n ∉ tysNames (ps.map (·.2)))
    (h : v.getType = some t) : (v.instantiate ps).getType = some (t.instantiate ps) :=
  getType_instantiate hp v t hn ha h

/-- The type of the identity, at a function type. -/
example : ((Value.lam [.tvar "T"] (.var 0 (.tvar "T"))).instantiate [("T", .fn [.bool] .bool)]).getType =
    some (.fn [.fn [.bool] .bool, .bool] .bool) := rfl

/-- If no type parameter is replaced by a function type, then a value that passes the check still passes it
on the stack with the types replaced.  Missing: parameters that are replaced by function types, for which
it is false. -/
theorem C45_instantiate_keeps_check_partial (ps : List (String × Ty)) (Γ : List Ty) (v : Value)
    (hp : ∀ p ∈ ps, NormalTy p.2) (hf : ∀ p ∈ ps, NotFn p.2) (hn : NormalIn v)
    (ha : ∀ n ∈ boundNames v, n ∉ ps.map (·.1) ∧ n ∉ tysNames (ps.map (·.2)))
    (h : v.validate Γ = true) : (v.instantiate ps).validate (Ty.instantiateAll ps Γ) = true :=
  validate_instantiate hp hf v Γ hn ha h

example : (Value.app (.const "g" [.tvar "T"] (.fn [.fn [.bool] (.tvar "T")] .bool))
      [.lam [.bool] (.var 0 (.tvar "T"))]).validate [.tvar "T"] = true := by decide +kernel

/-- At a function type the check refuses what it accepted before: the argument
`function(b: Bool) { c }` with `c: T` has the type `Bool -> T`, and with `Bool -> Bool` for `T` it has
the type `(Bool, Bool) -> Bool`, which `is_type` denies. -/
theorem C45_disagreement_instantiate_at_function_type :
    let v : Value := .app (.const "g" [.tvar "T"] (.fn [.fn [.bool] (.tvar "T")] .bool))
      [.lam [.bool] (.const "c" [.tvar "T"] (.tvar "T"))]
    v.validate [] = true ∧ (v.instantiate [("T", .fn [.bool] .bool)]).validate [] = false :=
  ⟨by decide +kernel, by decide +kernel⟩

/-- Fixing the type parameters leaves no type variable, as `has_generic` sees it. -/
theorem C44_to_arbitrary_is_not_generic (v : Value) : v.toArbitrary.hasGeneric = false :=
  toArbitrary_generic v

example : (Value.lam [.tvar "T"] (.var 0 (.tvar "T"))).hasGeneric = true := by decide +kernel

/-- Fixing the type parameters of a value with a match gives a value that fails the check. -/
theorem C45_disagreement_to_arbitrary_match :
    let t : Ty := .tvar "T"
    let v : Value := .match_ (.const "a" [t] (.data "Option" [t]))
      [.mk [t] (.app (.const "some" [t] (.fn [t] (.data "Option" [t]))) [.var 0 t]) (.var 0 t) 0 2,
       .mk [] (.const "none" [t] (.data "Option" [t])) (.const "c" [t] t) 1 2]
    v.validate [] = true ∧ v.toArbitrary.validate [] = false :=
  ⟨by decide +kernel, by decide +kernel⟩

/-! ### Matching -/

/-- If a generic type matches an instance, then the entries of the mapping give the instance: earlier
entries are kept, every type parameter of the generic type has an entry, replacing the parameters by their
entries gives the instance, and new entries have the typeclasses that their parameters ask for. -/
theorem C45_match_is_right (C : Classes) (fuel : Nat) (g i : Ty) (m m' : TyMap) (hg : NormalTy g)
    (hi : NormalTy i) (h : matchInst C fuel g i m = some m') :
    (∀ n t, m.lookup n = some t → m'.lookup n = some t) ∧
      (∀ n ∈ tyNames g, ∃ t, m'.lookup n = some t) ∧ g.instantiate m' = i ∧
      ∀ n t, m'.lookup n = some t → m.lookup n = some t ∨ MeetsClass C n t :=
  have := (match_sound C fuel).1 g i m m' hg hi h
  ⟨this.ext, this.covers, this.eq, this.meet⟩

/-- Nothing has a typeclass. -/
def noClasses : Classes := ⟨fun _ _ => false, fun _ _ => false, fun _ => none, fun _ => none⟩

/-- The parameter of type `Ring` of one type, and two datatypes. -/
def ringClasses : Classes :=
  ⟨fun t c => t.same (.data "Int" []) && c == "Ring", fun a b => a == "Field" && b == "Ring",
    fun n => if n == "R" then some "Ring" else none, fun n => if n == "K" then some "Field" else none⟩

/-- `Bool -> T` against `(Bool, Nat) -> Nat`: the parameter is a function type. -/
example : matchInst noClasses 9 (.fn [.bool] (.tvar "T")) (.fn [.bool, .data "Nat" []] (.data "Nat" [])) [] =
    some [("T", .fn [.data "Nat" []] (.data "Nat" []))] := by rfl

/-- `List[R]` with `R: Ring` matches `List[Int]` and `List[K]` with `K: Field`, but not `List[Nat]`. -/
example : let g : Ty := .data "List" [.tvar "R"]
    matchInst ringClasses 9 g (.data "List" [.data "Int" []]) [] = some [("R", .data "Int" [])] ∧
    matchInst ringClasses 9 g (.data "List" [.arb "K"]) [] = some [("R", .arb "K")] ∧
    matchInst ringClasses 9 g (.data "List" [.data "Nat" []]) [] = none :=
  ⟨by rfl, by rfl, by rfl⟩

/-- If replacing type parameters gives the instance, then the match finds this replacement, unless a
parameter is replaced by a type that mentions the same parameter. -/
theorem C45_match_finds_instance_partial (C : Classes) (σ m : TyMap) (g : Ty) (hg : NormalTy g)
    (hσ : ∀ p ∈ σ, NormalTy p.2) (hm : ∀ n t, m.lookup n = some t → σ.lookup n = some t)
    (hc : ∀ n ∈ tyNames g, ∃ t, σ.lookup n = some t ∧ MeetsClass C n t)
    (hv : ∀ n t, g.hasVar n = true → σ.lookup n = some t → t.hasVar n = false)
    (ha : ∀ n t, g.hasArb n = true → σ.lookup n = some t → t.hasArb n = false ∨ t = .arb n) :
    ∃ bound, ∀ fuel ≥ bound, ∃ m', matchInst C fuel g (g.instantiate σ) m = some m' ∧
      (∀ n t, m'.lookup n = some t → σ.lookup n = some t) ∧
      ∀ n ∈ tyNames g, m'.lookup n = σ.lookup n := by
  refine ⟨g.weight + 1, fun fuel hf => ?_⟩
  have hfind : Findable C σ g :=
    ⟨fun n hn => (hc n hn).elim fun t h => ⟨t, h.1⟩,
      fun n t hn e => (hc n hn).elim fun u h => by
        have : t = u := Option.some.inj (e.symm.trans h.1)
        exact this ▸ h.2, hv, ha⟩
  obtain ⟨m', h1, h2⟩ := (match_complete C σ hσ fuel).1 g m hg hfind hm (by omega)
  refine ⟨m', h1, h2, fun n hn => ?_⟩
  have hs := (match_sound C fuel).1 g _ m m' hg (normal_instantiate hσ g hg) h1
  obtain ⟨t, ht⟩ := hs.covers n hn
  rw [ht, h2 n t ht]

example : NormalTy (.fn [.tvar "T", .data "List" [.tvar "T"]] (.tvar "U")) ∧
    (Ty.fn [.tvar "T", .data "List" [.tvar "T"]] (.tvar "U")).instantiate
      [("T", .data "Nat" []), ("U", .fn [.bool] .bool)] =
      .fn [.data "Nat" [], .data "List" [.data "Nat" []], .bool] .bool :=
  ⟨⟨by simp, ⟨True.intro, ⟨True.intro, True.intro⟩, True.intro⟩, True.intro, fun _ _ e => by cases e⟩, rfl⟩

/-- A type variable does not match itself: the instance of a type that comes from another declaration with
a variable of the same name is refused. -/
theorem C45_disagreement_same_name (C : Classes) (fuel : Nat) :
    matchInst C fuel (.tvar "T") (.tvar "T") [] = none ∧
      (Ty.tvar "T").instantiate [("T", .tvar "T")] = .tvar "T" := by
  refine ⟨?_, rfl⟩
  cases fuel with
  | zero => rfl
  | succ fuel =>
    simp only [matchInst, matchTvar, List.lookup_nil, Ty.hasVar, beq_self_eq_true, if_true]
    split <;> rfl

/-! ### Inference -/

/-- A generic constant that is resolved from its arguments and the expected type is well typed: its type
parameters are types without variables that have the typeclasses asked for, its type is the generic type
with them, this is the type of functions from the types of the arguments to a type, and that type is the
type of the whole value and the expected type.  The generic type has to have no type parameters but those
of the constant. -/
theorem C45_inferred_application_partial (C : Classes) (fuel : Nat) (u : Unresolved) (args : List Value)
    (expected : Option Ty) (m : TyMap) (v : Value) (hg : NormalTy u.generic)
    (hv : NormalInAll (u.args ++ args)) (he : ∀ e, expected = some e → NormalTy e)
    (hm : ∀ p ∈ m, NormalTy p.2) (hp : ∀ n ∈ tyNames u.generic, n ∈ u.params)
    (h : tryResolve C fuel u args expected m = some (.resolved v)) :
    ∃ ps us res, ps.length = u.params.length ∧
      v = (Value.const u.name ps (u.generic.instantiate (u.params.zip ps))).apply (u.args ++ args) ∧
      (u.args ++ args).map Value.getType = us.map some ∧
      u.generic.instantiate (u.params.zip ps) = Ty.functional us res ∧
      v.getType = some res ∧ (∀ e, expected = some e → res = e) ∧
      (∀ p ∈ ps, p.hasGeneric = false) ∧ ∀ q ∈ u.params.zip ps, MeetsClass C q.1 q.2 :=
  resolve_sound hg hv he hm hp h

/-- `cons[T]: (T, List[T]) -> List[T]`. -/
def consConst : Unresolved :=
  ⟨"cons", ["T"], .fn [.tvar "T", .data "List" [.tvar "T"]] (.data "List" [.tvar "T"]), []⟩

example : (match tryResolve noClasses 9 consConst [.const "zero" [] (.data "Nat" [])] none [] with
    | some (.resolved v) => Value.typeIs v.getType
        (.fn [.data "List" [.data "Nat" []]] (.data "List" [.data "Nat" []]))
    | _ => false) = true := by decide +kernel

/-- A constant stays open only if some type parameter is not known yet, or known only up to type parameters,
and it then keeps all the arguments; types that break a constraint are refused, not left open. -/
theorem C45_open_constant_needs_more (C : Classes) (fuel : Nat) (u w : Unresolved) (args : List Value)
    (expected : Option Ty) (m : TyMap)
    (h : tryResolve C fuel u args expected m = some (.unresolved w)) :
    w = { u with args := u.args ++ args } ∧
    ∃ ret m1 m2, matchCall C fuel u.generic (u.args ++ args) m = some (ret, m1) ∧
      matchExpected C fuel ret expected m1 = some m2 ∧
      (∃ n ∈ u.params, m2.lookup n = none ∨ ∃ t, m2.lookup n = some t ∧ t.hasGeneric = true) ∧
      ∀ n ∈ u.params, ∀ t, m2.lookup n = some t → C.ok n t = true := by
  simp only [tryResolve, Option.bind_eq_bind] at h
  obtain ⟨⟨ret, m1⟩, h1, h2⟩ := Option.bind_eq_some_iff.1 h
  obtain ⟨m2, h3, h4⟩ := Option.bind_eq_some_iff.1 h2
  split at h4
  · cases h4
  rename_i hc
  split at h4
  · rename_i ho
    refine ⟨by cases h4; rfl, ret, m1, m2, h1, h3, ?_, ?_⟩
    · obtain ⟨n, hn, he⟩ := List.any_eq_true.1 ho
      refine ⟨n, hn, ?_⟩
      simp only [notInferred] at he
      split at he
      · rename_i t ht
        exact .inr ⟨t, ht, he⟩
      · rename_i ht
        exact .inl ht
    · intro n hn t ht
      cases hk : C.ok n t with
      | true => rfl
      | false =>
        exfalso
        apply hc
        refine List.any_eq_true.2 ⟨n, hn, ?_⟩
        simp [ht, hk]
  · split at h4 <;> cases h4

example : (match tryResolve noClasses 9 consConst [] none [] with
    | some (.unresolved w) => w.name == "cons"
    | _ => false) = true := by decide +kernel

/-- If type parameters without variables make the arguments and the expected type fit, then the constant is
resolved with them. -/
theorem C45_inference_finds_parameters (C : Classes) (σ : TyMap) (u : Unresolved) (args : List Value)
    (ts : List Ty) (ret : Ty) (hσ : ∀ p ∈ σ, NormalTy p.2) (hg : u.generic = Ty.functional ts ret)
    (hts : NormalTys ts) (hret : NormalTy ret) (hp : ∀ n, n ∈ tyNames u.generic ↔ n ∈ u.params)
    (hc : ∀ n ∈ u.params, ∃ t, σ.lookup n = some t ∧ MeetsClass C n t ∧ t.hasGeneric = false ∧
      t.hasArb n = false)
    (ha : (u.args ++ args).map Value.getType = (Ty.instantiateAll σ ts).map some) :
    ∃ bound, ∀ fuel ≥ bound, tryResolve C fuel u args (some (ret.instantiate σ)) [] = some (.resolved
      ((Value.const u.name (u.params.map fun n => (σ.lookup n).getD (.tvar n))
        (u.generic.instantiate σ)).apply (u.args ++ args))) := by
  refine ⟨Ty.weightAll ts + ret.weight + 1, fun fuel hf => ?_⟩
  have key : ∀ n t, n ∈ u.params → σ.lookup n = some t →
      MeetsClass C n t ∧ t.hasGeneric = false ∧ t.hasArb n = false := by
    intro n t hn e
    obtain ⟨t', h1, h2⟩ := hc n hn
    have : t = t' := Option.some.inj (e.symm.trans h1)
    exact this ▸ h2
  have hcov : Covers σ (tyNames u.generic) := fun n hn =>
    (hc n ((hp n).1 hn)).elim fun t h => ⟨t, h.1⟩
  refine resolve_complete hσ hg hts hret ⟨hcov, ?_, ?_, ?_⟩ hp (fun n t hn e => (key n t hn e).2.1) ha
    (by omega) (by omega)
  · exact fun n t hn e => (key n t ((hp n).1 hn) e).1
  · exact fun n t hn e => hasVar_of_closed (key n t ((hp n).1 (names_of_hasVar _ hn)) e).2.1
  · exact fun n t hn e => .inl (key n t ((hp n).1 (names_of_hasArb _ hn)) e).2.2

example : consConst.generic = Ty.functional [.tvar "T"]
      (.fn [.data "List" [.tvar "T"]] (.data "List" [.tvar "T"])) ∧
    [Value.const "zero" [] (.data "Nat" [])].map Value.getType =
      (Ty.instantiateAll [("T", .data "Nat" [])] [.tvar "T"]).map some := ⟨rfl, rfl⟩

/-- If the generic type mentions a fixed type of the surrounding block, which is no parameter of the
constant, then an argument of another type is accepted for it: `f[U]: (T, U) -> Bool`, where `T` is fixed,
is resolved with a `Nat` and a `Bool`, and the application does not pass the check. -/
theorem C45_disagreement_fixed_type_is_inferred :
    let u : Unresolved := ⟨"f", ["U"], .fn [.arb "T", .tvar "U"] .bool, []⟩
    let args : List Value := [.const "zero" [] (.data "Nat" []), .bool true]
    tryResolve noClasses 9 u args none [] = some (.resolved
      (.app (.const "f" [.bool] (.fn [.arb "T", .bool] .bool)) args)) ∧
    (Value.app (.const "f" [.bool] (.fn [.arb "T", .bool] .bool)) args).validate [] = false :=
  ⟨by rfl, by decide +kernel⟩

end Acorn
