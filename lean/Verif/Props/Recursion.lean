/-
C50: a recursive definition that is accepted has exactly one meaning.
-/
import Verif.Lemmas.RecursionModule
import Verif.Props.Datatypes
import Verif.Props.Environment
namespace Acorn

open Elab Spec Spec.Modules

universe u

namespace RecursionDemo

/-- `Nat`. -/
def nat : Ty := .data "Nat" []
def zero : Value := .const "Nat.zero" [] nat
def suc (x : Value) : Value := .app (.const "Nat.suc" [] (.fn [nat] nat)) [x]

def cZero : EnvConst := { name := "Nat.zero", params := [], ty := nat, con := some ("Nat", 0, 2) }
def cSuc : EnvConst := { name := "Nat.suc", params := [], ty := .fn [nat] nat, con := some ("Nat", 1, 2) }
/-- After `inductive Nat { zero, suc(Nat) }`. -/
def env : Env := { consts := [cZero, cSuc] }

def T : Ty := .arb "T"
/-- The types of the arguments of `define iterate[T](n: Nat, f: T -> T, x: T) -> T`. -/
def args : List Ty := [nat, .fn [T] T, T]
/-- `match n { Nat.zero { x } Nat.suc(p) { f(iterate(p, f, x)) } }`, as it is evaluated. -/
def body : Value := .match_ (.var 0 nat)
  [.mk [] zero (.var 2 T) 0 2,
   .mk [nat] (suc (.var 3 nat)) (.app (.var 1 (.fn [T] T))
     [.app (.const "iterate" [T] (Ty.functional args T)) [.var 3 nat, .var 1 (.fn [T] T), .var 2 T]]) 1 2]

def tT : Ty := .tvar "T"
/-- As it is stored. -/
def stored : Value := .match_ (.var 0 nat)
  [.mk [] zero (.var 2 tT) 0 2,
   .mk [nat] (suc (.var 3 nat)) (.app (.var 1 (.fn [tT] tT))
     [.app (.const "iterate" [tT] (.fn [nat, .fn [tT] tT, tT] tT)) [.var 3 nat, .var 1 (.fn [tT] tT), .var 2 tT]]) 1 2]

example : body.external "iterate" ["T"] = stored := rfl

def iterate : Stmt := .define (.const "iterate") ["T"] [("n", nat), ("f", .fn [tT] tT), ("x", tT)] tT (some stored)

/-- What is known when the body is evaluated. -/
def theory : Theory where
  const n := if n = "Nat.zero" then some ([], nat) else if n = "Nat.suc" then some ([], .fn [nat] nat)
    else if n = "iterate" then some ([("T", none)], .fn [nat, .fn [tT] tT, tT] tT) else none
  datatype d := if d = "Nat" then some [] else none
  inClass _ _ := False
  constructors d as ks := d = "Nat" ∧ as = [] ∧ ks = [("Nat.zero", [], []), ("Nat.suc", [], [nat])]

theorem describes : Describes theory env "iterate" := by
  refine ⟨?_, ?_, ?_⟩
  · intro n params g hn h
    simp only [theory] at h
    split at h
    · next e => cases h; exact ⟨cZero, by simp [env], e.symm, rfl, rfl⟩
    · split at h
      · next e => cases h; exact ⟨cSuc, by simp [env], e.symm, rfl, rfl⟩
      · simp [hn] at h
  · rintro d as ks ⟨rfl, rfl, rfl⟩
    refine ⟨by simp, fun i k hi => ?_⟩
    match i with
    | 0 => cases hi; exact ⟨cZero, by simp [env], [], rfl, rfl, by simp [cZero], rfl, rfl, fun u hu => by cases hu⟩
    | 1 =>
      cases hi
      refine ⟨cSuc, by simp [env], [nat], rfl, rfl, by simp [cSuc], rfl, rfl, fun u hu _ => ?_⟩
      rw [List.mem_singleton.1 hu]
      rfl
    | i + 2 => simp at hi
  · rintro d as ks ks' ⟨_, _, rfl⟩ ⟨_, _, rfl⟩
    rfl

theorem body_ok : ValueOk theory args body T := by
  refine ⟨trivial, by simp, "Nat", [], _, ⟨rfl, rfl⟩, ⟨rfl, rfl, rfl⟩, ?_, ?_⟩
  · intro i hi
    match i with
    | 0 => exact ⟨_, List.mem_cons_self, rfl⟩
    | 1 => exact ⟨_, List.mem_cons_of_mem _ List.mem_cons_self, rfl⟩
    | i + 2 => simp at hi
  · refine ⟨⟨rfl, _, _, _, rfl, rfl⟩, ⟨rfl, rfl⟩, ⟨rfl, _, _, _, rfl, rfl⟩, ?_, trivial⟩
    refine ⟨.fn [T] T, ⟨rfl, rfl⟩, T, [], T, rfl, ?_, rfl⟩
    refine ⟨Ty.functional args T, ⟨rfl, [("T", none)], .fn [nat, .fn [tT] tT, tT] tT, rfl, ⟨trivial, (fun c h => by cases h), trivial⟩, rfl⟩, ?_⟩
    exact ⟨nat, _, _, rfl, ⟨rfl, rfl⟩, .fn [T] T, _, _, rfl, ⟨rfl, rfl⟩, T, _, _, rfl, ⟨rfl, rfl⟩, rfl⟩

theorem body_own : OwnCalls "iterate" ["T"] (Ty.functional args T) body := by
  have h : FullyApplied ["T"] [] nat := ⟨by simp [nat, tyNames, tysNames], fun _ p => rfl⟩
  have h' : FullyApplied ["T"] [] (.fn [nat] nat) := ⟨by simp [nat, tyNames, tysNames], fun _ p => rfl⟩
  refine ⟨trivial, ⟨by simpa [zero, EachConst] using h, trivial, ?_, ⟨trivial, ⟨?_, trivial, trivial, trivial, trivial⟩, trivial⟩, trivial⟩⟩
  · exact ⟨by simpa [EachConst] using h', trivial, trivial⟩
  · exact ⟨rfl, rfl⟩

theorem body_terminates : body.terminates "iterate" args.length = some true := by
  simp [Value.terminates, body, zero, suc, Value.shape, Value.shapes, Value.shapeCases, args, Termination.check, Termination.traverse, Termination.traverseAll,
    Termination.traverseCases, Termination.checkArgs, Termination.strictSub, Termination.Val.asName, Termination.Val.asVar, List.range, List.range.loop, List.replicate]

theorem tidy : Tidy [] env := by
  refine ⟨fun c hc => ?_, fun c hc d hd => ?_, fun f hf => by simp [env, nodeFacts] at hf⟩
  · simp only [env, List.mem_cons, List.not_mem_nil, or_false] at hc
    rcases hc with rfl | rfl <;> simp [TypeInScope, cZero, cSuc, nat, tyNames, tysNames]
  · simp only [env, List.mem_cons, List.not_mem_nil, or_false] at hc
    rcases hc with rfl | rfl <;> cases hd

end RecursionDemo

open RecursionDemo

/-! ### One meaning -/

section
variable {F : Frame.{u}} {C : String → List F.T → F.D} {θ : String → F.T}

/-- A definition `define f(args) -> ret { body }` that passes the termination check has exactly one meaning: in every frame there is exactly
one function of the declared type that has the values that the definition gives it, when the calls of `f` in the body
are calls of this function.

Partial: the calls of `f` in its definition must have the type arguments of the definition itself. -/
theorem C50_one_meaning_partial {S : Theory} {f : String} {ts : List F.T} {args : List Ty} {ret : Ty} {body : Value}
    (hs : SuitsApart F C θ S f) (hv : ValueOk S args body ret)
    (ho : EachConst (OwnCall F θ f ts (Ty.functional args ret)) body) (ht : body.terminates f args.length = some true) :
    ∃ g, Solves F C θ f ts args ret body g ∧ ∀ g', Solves F C θ f ts args ret body g' → g' = g :=
  solves_once hs hv ho ht

/-- The value of a definition with type parameters is stored in generic form, which means what the
evaluated value means. -/
theorem C50_stored_keeps_meaning {f : String} {params : List String} {t : Ty} (env : List F.D) (body : Value)
    (h : OwnCalls f params t body) : F.den C θ env (body.external f params) = F.den C θ env body :=
  den_external θ env body h

end

/-- An accepted definition of a module that passes the termination check assumes nothing: whatever the other constants mean, the
defined constant can be given a meaning of the declared type for which the stored definition is true.

Partial: constants without parameters of a datatype, whose calls of themselves have their own type parameters; no members of
typeclass instances. -/
theorem C50_accepted_definition_assumes_nothing_partial (F : Frame.{u}) {above : List EnvFact} {env env' : Env} {S : Theory} {f : String}
    {params : List String} {args : List (String × Ty)} {ret : Ty} {body : Value} (ok : Tidy above env)
    (he : addStmt env (.define (.const f) params (args.map fun a => (a.1, a.2.genericize params)) (ret.genericize params)
      (some (body.external f params))) = some env')
    (hS : Describes S env f) (hv : ValueOk S (args.map (·.2)) body ret)
    (ho : OwnCalls f params (Ty.functional (args.map (·.2)) ret) body) (ht : body.terminates f args.length = some true) :
    ¬ Assumes F env (.define (.const f) params (args.map fun a => (a.1, a.2.genericize params)) (ret.genericize params)
      (some (body.external f params))) := by
  have hg : ∀ as : List (String × Ty), (as.map fun a => (a.1, a.2.genericize params)).map (·.2) = Ty.genericizeAll params (as.map (·.2)) := by
    intro as
    induction as with
    | nil => rfl
    | cons a as ih => exact congrArg (_ :: ·) ih
  simp only [Assumes, Classical.not_not]
  unfold addStmt at he
  rw [Option.ite_none_left_eq_some] at he
  obtain ⟨hcond, _⟩ := he
  simp only [Bool.or_eq_true, not_or, Bool.not_eq_true, Bool.not_eq_false'] at hcond
  obtain ⟨⟨⟨_, hp⟩, _⟩, hn⟩ := hcond
  obtain ⟨hp, hd⟩ := paramsOk_spec hp
  rw [hg]
  exact checked_definable ok (inUse_fresh hn) hp hd hS hv ho (by rw [List.length_map]; exact ht)

/-! ### The hypotheses are met -/

namespace RecursionDemo

/-- The constructors as they are declared. -/
def cons : List Con := [⟨"Nat.zero", []⟩, ⟨"Nat.suc", [nat]⟩]

/-- The module of the natural numbers has a model made of sets. -/
theorem nat_model : ∃ data C : String → List SetModel.S → SetModel.S, ∀ θ : String → SetModel.S, Suits (setTypes data) C θ env.consts := by
  have ho : ∀ c ∈ cons, ∀ t ∈ c.args, TyOver [] t := by
    intro c hc t ht
    simp only [cons, List.mem_cons, List.not_mem_nil, or_false] at hc
    rcases hc with rfl | rfl <;> simp only [List.mem_cons, List.not_mem_nil, or_false] at ht
    subst ht
    simp [nat, TyOver, TyOverAll]
  have hd : ∀ c ∈ cons, ∀ t ∈ c.args, TyDirect "Nat" ([].map .arb) t := by
    intro c hc t ht
    simp only [cons, List.mem_cons, List.not_mem_nil, or_false] at hc
    rcases hc with rfl | rfl <;> simp only [List.mem_cons, List.not_mem_nil, or_false] at ht
    subst ht
    simp [nat, TyDirect]
  obtain ⟨data, C, _, _, _, facts, hf, h⟩ := C48_accepted_has_model_partial (data := DemoDatatypes.none) (C := fun _ _ => ∅)
    DemoDatatypes.none_small (lookup := fun _ => none) (name := "Nat") (params := []) (cs := cons) (by decide +kernel) ho hd (by decide)
  refine ⟨data, C, fun θ => ?_⟩
  obtain ⟨h1, h2⟩ := h θ (fun p hp => by cases hp)
  have h3 := (C48_inductive_facts_say_free (F := setTypes data) θ (fun c hc t ht p => noVar_of_over p (ho c hc t ht)) h1 hf).1 h2
  refine ⟨?_, ?_, ?_⟩
  · intro c hc ts hl
    simp only [env, List.mem_cons, List.not_mem_nil, or_false] at hc
    rcases hc with rfl | rfl
    · have : ts = [] := List.length_eq_zero_iff.1 hl
      subst this
      exact h1 ⟨"Nat.zero", []⟩ (by simp [cons])
    · have : ts = [] := List.length_eq_zero_iff.1 hl
      subst this
      exact h1 ⟨"Nat.suc", [nat]⟩ (by simp [cons])
  · intro c hc ht
    simp only [env, List.mem_cons, List.not_mem_nil, or_false] at hc
    rcases hc with rfl | rfl <;> cases ht
  · rintro d total ts ⟨c, hc, ⟨i, e⟩, hl⟩
    have : d = "Nat" ∧ total = 2 ∧ ts = [] := by
      simp only [env, List.mem_cons, List.not_mem_nil, or_false] at hc
      rcases hc with rfl | rfl <;> cases e <;> exact ⟨rfl, rfl, List.length_eq_zero_iff.1 hl⟩
    obtain ⟨rfl, rfl, rfl⟩ := this
    refine ⟨_, rfl, h3, fun c hc i e _ us hus => ?_⟩
    simp only [env, List.mem_cons, List.not_mem_nil, or_false] at hc
    rcases hc with rfl | rfl <;> cases e
    · cases us with
      | nil => rfl
      | cons u us => cases hus
    · cases us with
      | nil => cases hus
      | cons u us => cases hus; rfl

/-- In the model, `iterate` has exactly one meaning at each type. -/
example : ∃ (data C : String → List SetModel.S → SetModel.S), ∀ A : SetModel.S,
    SuitsApart (setTypes data) C (fun _ => A) theory "iterate" ∧ ValueOk theory args body T ∧
    EachConst (OwnCall (setTypes data) (fun _ => A) "iterate" [A] (Ty.functional args T)) body ∧
    body.terminates "iterate" args.length = some true := by
  obtain ⟨data, C, h⟩ := nat_model
  refine ⟨data, C, fun A => ⟨Suits.apart describes (by decide) (h _), body_ok, EachConst.mono (fun n ps t' h e => ?_) body_own, body_terminates⟩⟩
  rw [if_pos e] at h
  exact ⟨by rw [h.1]; rfl, h.2⟩

theorem iterate_assumes_nothing (F : Frame.{u}) : ¬ Assumes F env iterate :=
  C50_accepted_definition_assumes_nothing_partial F (args := [("n", nat), ("f", .fn [T] T), ("x", T)]) (ret := T) (body := body) tidy
    rfl describes body_ok body_own body_terminates

/-- A module of this one definition is elaborated and assumes nothing, in every frame. -/
example (F : Frame.{u}) : ElaboratedBody F env (.cons iterate .nil) := by
  refine EnvironmentDemo.elaborated_cons (env' := (addStmt env iterate).getD {}) ?_ (iterate_assumes_nothing F) rfl trivial
  unfold iterate Elaborated
  refine ⟨by decide, ?_, by simp [TypeInScope, tT, tyNames], ?_⟩
  · intro a ha
    simp only [List.mem_cons, List.not_mem_nil, or_false] at ha
    rcases ha with rfl | rfl | rfl <;> simp [TypeInScope, nat, tT, tyNames, tysNames]
  · rintro v ⟨⟩
    simp [stored, Within, WithinAll, WithinCases, nat, tT, zero, suc, tyNames, tysNames, Known, env, cZero, cSuc, DefinedName.constName]

end RecursionDemo

/-! ### Members of typeclass instances -/

namespace RecursionDemo

/-- `Flip.flip[D]`, in the definition of the member `flip` of `instance D: Flip`. -/
def flipD : Value := .const "Flip.flip[D]" [] (.fn [.data "D" []] .bool)

example : resolveInstanceImpl "Flip" "D" "flip" [] "Flip" "flip" [.data "D" []] (.fn [.data "D" []] .bool) = some flipD := rfl

/-- `define flip(self) -> Bool { not Flip.flip[D](self) }`. -/
def flipBody : Value := .not (.app flipD [.var 0 (.data "D" [])])

/-- `match self { Nat.zero { true } Nat.suc(p) { f(p) } }`, in the definition of the member `f` of `instance Nat: Cls`. -/
def memberBody : Value := .match_ (.var 0 nat)
  [.mk [] zero (.bool true) 0 2,
   .mk [nat] (suc (.var 1 nat)) (.app (.const "f" [] (.fn [nat] .bool)) [.var 1 nat]) 1 2]

/-- `define f(x: Nat) -> Bool { not Cls.f[Nat](Nat.suc(x)) }`. -/
def laterBody : Value := .not (.app (.const "Cls.f" [nat] (.fn [nat] .bool)) [suc (.var 0 nat)])

end RecursionDemo

/-- A value that is equal to its negation cannot be. -/
theorem RecursionDemo.no_flip (F : Frame.{u}) (y : F.D) (h : y = F.ofProp (y ≠ F.tt)) : False := by
  by_cases e : y = F.tt
  · rw [Frame.ofProp, if_neg (fun n => n e), e] at h
    exact F.tt_ne_ff h
  · rw [Frame.ofProp, if_pos e] at h
    exact e h

/-- In the definition of a member of a typeclass instance the termination check looks for calls by the plain
name of the member, but the member can also be called as an attribute of the typeclass, which is the constant that
is being defined.  Such a call is not checked: `define flip(self) -> Bool { not Flip.flip[D](self) }` is accepted,
and its definition is false if the type has an element. -/
theorem C50_disagreement_instance_member_unchecked : ∃ (name : DefinedName) (v body : Value) (env' : Env),
    name = .inst "Flip" "flip" "D" ∧
    resolveInstanceImpl "Flip" "D" "flip" [] "Flip" "flip" [.data "D" []] (.fn [.data "D" []] .bool) = some v ∧
    body = .not (.app v [.var 0 (.data "D" [])]) ∧
    body.terminates name.recursionName 1 = some true ∧
    addStmt {} (.define name [] [("self", .data "D" [])] .bool (some (body.external name.recursionName []))) = some env' ∧
    ∀ (F : Frame.{u}) (C : String → List F.T → F.D) (θ : String → F.T) (x : F.D), F.mem x (F.data "D" []) →
      ¬ AllHold F C θ (nodeFacts env'.nodes) := by
  refine ⟨_, flipD, flipBody, _, rfl, rfl, rfl, ?_, rfl, ?_⟩
  · simp [DefinedName.recursionName, Value.terminates, flipBody, flipD, Value.shape, Value.shapes, Termination.check, Termination.traverse,
      Termination.traverseAll, Termination.Val.asName, List.range, List.range.loop, List.replicate]
  · intro F C θ x hx h
    have h1 : C "Flip.flip[D]" [] = F.lam (F.data "D" []) fun x => F.ofProp (F.app (C "Flip.flip[D]" []) x ≠ F.tt) :=
      h (.defn "Flip.flip[D]" [] (.fn [.data "D" []] .bool) (.lam [.data "D" []] flipBody)) (by
        simp [nodeFacts, nodeFact, Env.defineConst, Env.addDefinition, Env.addNode, Env.addConst, Env.removeConst]
        exact ⟨rfl, rfl, rfl⟩) [] rfl
    have h2 : F.app (C "Flip.flip[D]" []) x = F.ofProp (F.app (C "Flip.flip[D]" []) x ≠ F.tt) := by
      rw [← F.beta _ (fun x => F.ofProp (F.app (C "Flip.flip[D]" []) x ≠ F.tt)) x hx, ← h1]
    exact RecursionDemo.no_flip F _ h2

/-- The definition of a member of a typeclass instance that calls itself by its plain name refers to a
constant that does not exist after the definition, and whose name is free.  So the recursion may be completed by a later definition:
with `instance Nat: Cls { define f(self) -> Bool { match self { Nat.zero { true } Nat.suc(p) { f(p) } } } }` and
`define f(x: Nat) -> Bool { not Cls.f[Nat](Nat.suc(x)) }`, which both pass the termination check, all is provable. -/
theorem C50_disagreement_instance_recursion_by_name : ∃ (name : DefinedName) (env1 env2 : Env),
    name = .inst "Cls" "f" "Nat" ∧
    memberBody.terminates name.recursionName 1 = some true ∧
    addStmt RecursionDemo.env (.define name [] [("self", nat)] .bool (some (memberBody.external name.recursionName []))) = some env1 ∧
    laterBody.terminates "f" 1 = some true ∧
    addStmt env1 (.define (.const "f") [] [("x", nat)] .bool (some (laterBody.external "f" []))) = some env2 ∧
    ∀ (F : Frame.{u}) (C : String → List F.T → F.D) (θ : String → F.T), Suits F C θ RecursionDemo.env.consts →
      C "Cls.f" [F.data "Nat" []] = C name.constName [] → ¬ AllHold F C θ (nodeFacts env2.nodes) := by
  refine ⟨_, _, _, rfl, ?_, rfl, ?_, rfl, ?_⟩
  · simp [DefinedName.recursionName, Value.terminates, memberBody, zero, suc, Value.shape, Value.shapes, Value.shapeCases, Termination.check,
      Termination.traverse, Termination.traverseAll, Termination.traverseCases, Termination.checkArgs, Termination.strictSub, Termination.Val.asName,
      Termination.Val.asVar, List.range, List.range.loop, List.replicate]
  · simp [Value.terminates, laterBody, suc, Value.shape, Value.shapes, Termination.check, Termination.traverse,
      Termination.traverseAll, Termination.Val.asName, List.range, List.range.loop, List.replicate]
  · intro F C θ hs he h
    obtain ⟨cs, _, hfree, hcs⟩ := hs.free "Nat" 2 [] ⟨cZero, by simp [RecursionDemo.env], ⟨0, rfl⟩, rfl⟩
    have c0 := hcs cZero (by simp [RecursionDemo.env]) 0 rfl rfl [] rfl
    have c1 := hcs cSuc (by simp [RecursionDemo.env]) 1 rfl rfl [nat] rfl
    have hz : F.mem (C "Nat.zero" []) (F.data "Nat" []) := hs.typed cZero (by simp [RecursionDemo.env]) [] rfl
    have hS : F.mem (C "Nat.suc" []) (F.fn (F.data "Nat" []) (F.data "Nat" [])) := hs.typed cSuc (by simp [RecursionDemo.env]) [] rfl
    have f1 : C "Cls.f[Nat]" [] = F.lam (F.data "Nat" []) fun x => F.den C (F.with_ θ []) [x] memberBody :=
      h (.defn "Cls.f[Nat]" [] (.fn [nat] .bool) (.lam [nat] memberBody)) (by
        simp [nodeFacts, nodeFact, Env.defineConst, Env.addDefinition, Env.addNode, Env.addConst, Env.removeConst, RecursionDemo.env]
        exact .inl ⟨rfl, rfl, rfl⟩) [] rfl
    have f2 : C "f" [] = F.lam (F.data "Nat" []) fun x => F.ofProp (F.app (C "Cls.f" [F.data "Nat" []]) (F.app (C "Nat.suc" []) x) ≠ F.tt) :=
      h (.defn "f" [] (.fn [nat] .bool) (.lam [nat] laterBody)) (by
        simp [nodeFacts, nodeFact, Env.defineConst, Env.addDefinition, Env.addNode, Env.addConst, Env.removeConst, RecursionDemo.env]
        exact .inr ⟨rfl, rfl, rfl⟩) [] rfl
    have he : C "Cls.f" [F.data "Nat" []] = C "Cls.f[Nat]" [] := he
    have hm := F.mem_app _ _ _ _ hS hz
    have key : F.den C (F.with_ θ []) [F.app (C "Nat.suc" []) (C "Nat.zero" [])] memberBody = F.app (C "f" []) (C "Nat.zero" []) := by
      simp only [memberBody, zero, suc, Frame.den, Frame.denAll, Frame.denCases, Frame.appN, Frame.tys, Frame.ty, nat, List.foldl]
      have hex : ∃ xs, F.Fits xs [F.data "Nat" []] ∧
          F.app (C "Nat.suc" []) (([F.app (C "Nat.suc" []) (C "Nat.zero" [])] ++ xs).getD 1 F.undef) =
            [F.app (C "Nat.suc" []) (C "Nat.zero" [])].getD 0 F.undef := ⟨[C "Nat.zero" []], ⟨hz, trivial⟩, rfl⟩
      unfold Frame.pick
      rw [dif_neg, dif_pos hex]
      · have hw := Classical.choose_spec hex
        generalize Classical.choose hex = w at hw
        match w, hw with
        | [p], ⟨hp, e⟩ =>
          have := hfree.injective _ (List.mem_of_getElem? c1) [p] [C "Nat.zero" []] hp ⟨hz, trivial⟩ e
          cases this
          rfl
      · rintro ⟨xs, _, e⟩
        exact hfree.distinct 0 1 _ _ (by simp) c0 c1 [] [C "Nat.zero" []] trivial ⟨hz, trivial⟩ e
    refine RecursionDemo.no_flip F (F.app (C "f" []) (C "Nat.zero" [])) ?_
    conv => lhs; rw [f2, F.beta _ _ _ hz, he, f1, F.beta _ _ _ hm, key]

/-- The type arguments of a call of the function itself are replaced by its own type parameters when the
definition is stored, whatever they were: a definition that calls `f[Bool]`, where the type of `f` does not
depend on its type parameter, is stored as one that calls `f[T]`, and this does not mean the same. -/
theorem C50_disagreement_phantom_parameter : ∃ body : Value,
    body = .app (.const "f" [.bool] (.fn [nat] .bool)) [.var 0 nat] ∧
    body.external "f" ["T"] = .app (.const "f" [.tvar "T"] (.fn [nat] .bool)) [.var 0 nat] ∧
    ∀ F : Frame.{u}, (∃ t, t ≠ F.bool) → (∃ x, F.mem x (F.data "Nat" [])) →
      ∃ (C : String → List F.T → F.D) (θ : String → F.T) (env : List F.D), F.Fits env (F.tys θ [nat]) ∧
        (∀ ts, F.mem (C "f" ts) (F.fn (F.data "Nat" []) F.bool)) ∧
        F.den C θ env (body.external "f" ["T"]) ≠ F.den C θ env body := by
  refine ⟨_, rfl, rfl, ?_⟩
  rintro F ⟨t, ht⟩ ⟨x, hx⟩
  refine ⟨fun _ ts => open Classical in F.lam (F.data "Nat" []) fun _ => F.ofProp (ts = [F.bool]), fun _ => t, [x], ⟨hx, trivial⟩, ?_, ?_⟩
  · intro ts
    refine F.mem_lam _ _ _ fun y _ => (F.mem_bool _).2 ?_
    unfold Frame.ofProp
    split
    · exact .inl rfl
    · exact .inr rfl
  · show F.app (F.lam (F.data "Nat" []) fun _ => F.ofProp ([t] = [F.bool])) x ≠ F.app (F.lam (F.data "Nat" []) fun _ => F.ofProp ([F.bool] = [F.bool])) x
    rw [F.beta _ _ _ hx, F.beta _ _ _ hx]
    unfold Frame.ofProp
    rw [if_neg (by simpa using ht), if_pos rfl]
    exact fun e => F.tt_ne_ff e.symm

end Acorn
