/-
C49: a module whose goals are proved adds no contradiction.
-/
import Verif.Lemmas.ModuleInduction
import Verif.Lemmas.LoweredModule
import Verif.Lemmas.ValueMeaning
namespace Acorn

open Elab Spec Spec.Modules

universe u

namespace EnvironmentDemo

/-- `Bool -> Bool`. -/
def fn1 : Ty := .fn [.bool] .bool

/-- `define id(x: Bool) -> Bool { x }`. -/
def sId : Stmt := .define (.const "id") [] [("x", .bool)] .bool (some (.var 0 .bool))

/-- `theorem keeps(x: Bool) { x implies id(x) }`. -/
def sKeeps : Stmt := .theorem_ (some "keeps") [] [("x", .bool)]
  (.bin .implies (.var 0 .bool) (.app (.const "id" [] fn1) [.var 0 .bool])) false .nil

/-- `let b: Bool satisfy { b }`. -/
def sChoose : Stmt := .varSatisfy [] [("b", .bool)] (.var 0 .bool)

/-- `if id(y) { keeps(y) }` with a claim after the citation. -/
def sIf : Stmt := .if_ (.app (.const "id" [] fn1) [.const "y" [] .bool])
  (.cons (.claim (.app (.const "keeps" [] fn1) [.const "y" [] .bool]))
    (.cons (.claim (.const "y" [] .bool)) .nil)) .nil

/-- `forall(y: Bool) { if id(y) { keeps(y) y } }`. -/
def sAll : Stmt := .forall_ [("y", .bool)] (.cons sIf .nil)

/-- The module. -/
def module1 : Body := .cons sId (.cons sKeeps (.cons sChoose (.cons sAll .nil)))

/-- The environment after the definition. -/
def cId : EnvConst := { name := "id", params := [], ty := fn1, definition := some (.lam [.bool] (.var 0 .bool)) }
def fId : EnvFact := .defn "id" [] fn1 (.lam [.bool] (.var 0 .bool))
def env1 : Env := { consts := [cId], nodes := [.structural fId] }

example : addStmt {} sId = some env1 := rfl

def keepsV : Value := .bin .implies (.var 0 .bool) (.app (.const "id" [] fn1) [.var 0 .bool])
def cKeeps : EnvConst := { name := "keeps", params := [], ty := fn1, definition := some (.lam [.bool] keepsV) }
def cX : EnvConst := { name := "x", params := [], ty := .bool }
def goalKeeps : Value := .app (.const "id" [] fn1) [.const "x" [] .bool]
def nKeeps : EnvNode := .block [.structural (.defn "keeps" [] fn1 (.lam [.bool] keepsV)),
    .structural (.prop [] (.const "x" [] .bool)),
    .claim [cId, cKeeps, cX] goalKeeps (.prop [] goalKeeps)] (some (.prop [] (.all [.bool] keepsV)))
def env2 : Env := { consts := [cId, { cKeeps with isTheorem := true }], nodes := [.structural fId, nKeeps] }

example : addStmt env1 sKeeps = some env2 := rfl

def cB : EnvConst := { name := "b", params := [], ty := .bool }
def someB : Value := .ex [.bool] (.var 0 .bool)
def nChoose : EnvNode := .block [.claim env2.consts someB (.prop [] someB)] (some (.prop [] (.const "b" [] .bool)))
def env3 : Env := { consts := env2.consts ++ [cB], nodes := env2.nodes ++ [nChoose] }

example : addStmt env2 sChoose = some env3 := rfl

def cY : EnvConst := { name := "y", params := [], ty := .bool }
def vY : Value := .const "y" [] .bool
def idY : Value := .app (.const "id" [] fn1) [vY]
def keepsY : Value := .app (.const "keeps" [] fn1) [vY]
def nIf : EnvNode := .block [.structural (.prop [] idY), .structural (.prop [] keepsY),
  .claim (env3.consts ++ [cY]) vY (.prop [] vY)] (some (.prop [] (.bin .implies idY vY)))
def nAll : EnvNode := .block [nIf] (some (.prop []
  (.all [.bool] (.bin .implies (.app (.const "id" [] fn1) [.var 0 .bool]) (.var 0 .bool)))))
def env4 : Env := { env3 with nodes := env3.nodes ++ [nAll] }
def envY : Env := { env3 with depth := 1, consts := env3.consts ++ [cY], nodes := [] }
def envIf : Env := { env3 with depth := 2, consts := env3.consts ++ [cY], nodes := [.structural (.prop [] idY)] }

example : addStmt env3 sAll = some env4 := rfl

theorem module1_adds : addBody {} module1 = some env4 := rfl

section
variable (F : Frame.{u})

theorem elaborated_cons {F : Frame.{u}} {env env' : Env} {s : Stmt} {b : Body} (h : Elaborated F env s) (hna : ¬ Assumes F env s)
    (he : addStmt env s = some env') (hb : ElaboratedBody F env' b) : ElaboratedBody F env (.cons s b) := by
  unfold ElaboratedBody
  refine ⟨h, hna, fun e h' => ?_⟩
  rw [he] at h'
  cases h'
  exact hb

/-- A definition of a function of truth values by a value without constants can be met. -/
theorem definable_bool {F : Frame.{u}} {env : Env} {n : String} {v : Value}
    (hc : ∀ (C C' : String → List F.T → F.D) (θ : String → F.T) xs, F.den C θ xs v = F.den C' θ xs v)
    (hb : ∀ (C : String → List F.T → F.D) (θ : String → F.T) x, F.mem x F.bool → F.mem (F.den C θ [x] v) F.bool) :
    Definable F env n [] [.bool] .bool v := by
  intro C θ _
  refine ⟨fun ts => F.lamN [F.bool] fun xs => F.den C (F.with_ θ ([].zip ts)) xs v, fun ts hl => ⟨mem_lamN fun xs hxs => ?_, fun xs hxs => ?_⟩⟩
  · match xs, hxs with
    | [x], hx => exact hb _ _ x hx.1
  · exact (appN_lamN (ts := [F.bool]) hxs).trans (hc _ _ _ _)

theorem elab_id : Elaborated F {} sId ∧ ¬ Assumes F {} sId := by
  refine ⟨?_, ?_⟩
  · simp [sId, Elaborated, DefinedName.recursionName, Env.names, TypeInScope, tyNames, Within]
  · simp only [sId, Assumes, Classical.not_not]
    exact definable_bool (fun _ _ _ _ => rfl) fun _ _ x hx => hx

theorem mem_id {F : Frame.{u}} {C : String → List F.T → F.D} {θ : String → F.T} {known : List EnvConst}
    (h : Suits F C θ known) (hk : cId ∈ known) : F.mem (C "id" []) (F.fn F.bool F.bool) :=
  h.typed cId hk [] rfl

theorem elab_keeps : Elaborated F env1 sKeeps ∧ ¬ Assumes F env1 sKeeps := by
  refine ⟨?_, by simp [sKeeps, Assumes]⟩
  unfold sKeeps Elaborated
  refine ⟨by simp [TypeInScope, tyNames], ?_, ?_, (fun c _ _ h => by cases h), trivial⟩
  · simp [InScope, Within, WithinAll, tyNames, tysNames, Known, env1, cId, fn1]
  · intro C θ env hs hf
    exact (F.mem_bool _).2 (by
      by_cases h : F.binary .implies (F.den C θ env (.var 0 .bool)) (F.den C θ env (.app (.const "id" [] fn1) [.var 0 .bool]))
      · exact .inl (if_pos h)
      · exact .inr (if_neg h))

theorem elab_choose : Elaborated F env2 sChoose ∧ ¬ Assumes F env2 sChoose := by
  refine ⟨?_, by simp [sChoose, Assumes]⟩
  simp [sChoose, Elaborated, InScope, Within, TypeInScope, tyNames, Ty.hasVar, EachConst]

theorem typed_y {known : List EnvConst} (hk : cY ∈ known) : Typed F known [] vY .bool :=
  fun _ _ _ hs _ => hs.typed cY hk [] rfl

theorem elab_if : Elaborated F envY sIf ∧ ¬ Assumes F envY sIf := by
  refine ⟨?_, by simp [sIf, Assumes]⟩
  unfold sIf Elaborated
  refine ⟨by simp [InScope, Within, WithinAll, tyNames, tysNames, Known, envY, env3, env2, cId, fn1, cY, cKeeps, cB], ?_, ?_, ?_, ?_⟩
  · show ElaboratedBody F envIf _
    refine elaborated_cons (env' := { envIf with nodes := envIf.nodes ++ [.structural (.prop [] keepsY)] }) ?_ (by simp [Assumes]) rfl
      (elaborated_cons (env' := { envIf with nodes := envIf.nodes ++ [.structural (.prop [] keepsY),
          .claim envIf.consts vY (.prop [] vY)] }) ?_ (by simp [Assumes]) rfl trivial)
    · refine ⟨by simp [InScope, Within, WithinAll, tyNames, tysNames, Known, envIf, env3, env2, cId, fn1, cY, cKeeps, cB], fun c hc _ hn => ?_⟩
      have : c = { cKeeps with isTheorem := true } := by
        simp [envIf, env3, env2] at hc
        rcases hc with rfl | rfl | rfl | rfl <;> first | rfl | (simp [Value.calledName, cId, cB, cY] at hn)
      subst this
      exact ⟨[.bool], [], fn1, [vY], rfl, rfl, rfl, typed_y F (by simp [envIf]), trivial⟩
    · refine ⟨by simp [InScope, Within, WithinAll, tyNames, tysNames, Known, envIf, env3, env2, cId, fn1, cY, cKeeps, cB], fun c hc ht hn => ?_⟩
      simp [envIf, env3, env2] at hc
      rcases hc with rfl | rfl | rfl | rfl <;> first | (cases ht; done) | (simp [Value.calledName, cId, cB, cKeeps] at hn; done)
  · intro sub h ps v hv
    have : sub = { envIf with nodes := envIf.nodes ++ [.structural (.prop [] keepsY),
          .claim envIf.consts vY (.prop [] vY)] } := (Option.some.inj h).symm
    subst this
    simp [nodeFact] at hv
    exact hv.1
  · trivial
  · intro sub h ps v hv
    cases h
    simp [Env.addPremise, Env.addNode, Env.child, nodeFact] at hv
    exact hv.1

theorem elab_all : Elaborated F env3 sAll ∧ ¬ Assumes F env3 sAll := by
  refine ⟨?_, by simp [sAll, Assumes]⟩
  unfold sAll Elaborated
  refine ⟨by simp [TypeInScope, tyNames], elaborated_cons (elab_if F).1 (elab_if F).2 (env' := { envY with nodes := [nIf] }) rfl trivial, ?_⟩
  intro sub h ps v hv
  have : sub = { envY with nodes := [nIf] } := (Option.some.inj h).symm
  subst this
  simp [nodeFact, nIf] at hv
  exact hv.1

theorem elab_module1 : ElaboratedBody F {} module1 :=
  elaborated_cons (elab_id F).1 (elab_id F).2 (env' := env1) rfl
    (elaborated_cons (elab_keeps F).1 (elab_keeps F).2 (env' := env2) rfl
      (elaborated_cons (elab_choose F).1 (elab_choose F).2 (env' := env3) rfl
        (elaborated_cons (elab_all F).1 (elab_all F).2 (env' := env4) rfl trivial)))

theorem id_app {F : Frame.{u}} {C : String → List F.T → F.D} {θ : String → F.T} (h : FactHolds F C θ fId) {x : F.D}
    (hx : F.mem x F.bool) : F.app (C "id" []) x = x := by
  have := h [] rfl
  rw [this]
  exact F.beta _ _ _ hx

theorem valid1 : GoalsValid F [] env4 := by
  intro g hg
  have hg : g ∈ [⟨[fId, .defn "keeps" [] fn1 (.lam [.bool] keepsV), .prop [] (.const "x" [] .bool)], [cId, cKeeps, cX], goalKeeps⟩,
      ⟨[fId, .prop [] (.all [.bool] keepsV)], env2.consts, someB⟩,
      ⟨[fId, .prop [] (.all [.bool] keepsV), .prop [] (.const "b" [] .bool), .prop [] idY, .prop [] keepsY], env3.consts ++ [cY], vY⟩] := hg
  simp only [List.mem_cons, List.not_mem_nil, or_false] at hg
  rcases hg with rfl | rfl | rfl
  · intro C θ hs hv
    have h1 := hv fId (by simp)
    have h2 : C "x" [] = F.tt := hv (.prop [] (.const "x" [] .bool)) (by simp) [] rfl
    show F.app (C "id" []) (C "x" []) = F.tt
    rw [id_app (x := C "x" []) h1 (hs.typed cX (by simp) [] rfl), h2]
  · intro C θ hs hv
    exact if_pos ⟨[F.tt], ⟨(F.mem_bool _).2 (.inl rfl), trivial⟩, rfl⟩
  · intro C θ hs hv
    have h1 := hv fId (by simp)
    have h2 : F.app (C "id" []) (C "y" []) = F.tt := hv (.prop [] idY) (by simp) [] rfl
    rwa [id_app (x := C "y" []) h1 (hs.typed cY (by simp) [] rfl)] at h2

end

theorem tidy_empty : Tidy [] {} :=
  ⟨fun c h => absurd h List.not_mem_nil, fun c h => absurd h List.not_mem_nil, fun f h => absurd h List.not_mem_nil⟩

theorem fulfils_empty (F : Frame.{u}) (C : String → List F.T → F.D) (θ : String → F.T) : Fulfils F C θ [] {} :=
  ⟨⟨fun c h => absurd h List.not_mem_nil, fun c h => absurd h List.not_mem_nil,
    fun d total ts ⟨c, h, _⟩ => absurd h List.not_mem_nil⟩,
   fun f h => absurd h List.not_mem_nil, fun c h => absurd h List.not_mem_nil⟩

end EnvironmentDemo

open EnvironmentDemo

variable {F : Frame.{u}}

/-! ### What a module makes known follows from its axioms and definitions -/

/-- When the goals of a module are valid, every fact of it, and every theorem of it, is true in each
interpretation that suits its constants and in which its axioms, definitions and the conditions of its
`satisfy` statements are true.

Partial: evaluation of the expressions is not modelled, `ElaboratedModule` says what it provides; a block
must not end with a statement that has type parameters; typeclasses, types with value parameters, imports
and local obligations are left out. -/
theorem C49_facts_follow_partial (above : List EnvFact) (env env' : Env) (b : Body) (he : addBody env b = some env')
    (hel : ElaboratedModule F env b) (ok : Tidy above env) (hg : GoalsValid F above env')
    (C : String → List F.T → F.D) (θ : String → F.T) (h : Fulfils F C θ above env) (hs : Suits F C θ env'.consts)
    (ha : AllHold F C θ (assumed env b)) :
    AllHold F C θ (nodeFacts env'.nodes) ∧ TheoremsTrue F C θ env'.consts :=
  have := (module_follows b env env' he hel ok).2 C θ h hs hg ha
  ⟨fun f hf => this.facts f (List.mem_append_right _ hf), this.theorems⟩

/-- Statements without assumptions: when their goals are valid, every interpretation in which all is true
can be extended to the new constants, changing none of those known before, so that all is true again. -/
theorem C49_extends_partial (above : List EnvFact) (env env' : Env) (b : Body) (he : addBody env b = some env')
    (hel : ElaboratedBody F env b) (ok : Tidy above env) (hg : GoalsValid F above env')
    (C : String → List F.T → F.D) (θ : String → F.T) (h : Fulfils F C θ above env) :
    ∃ C', (∀ n ∈ env.names, C n = C' n) ∧ Suits F C' θ env'.consts ∧ AllHold F C' θ (above ++ nodeFacts env'.nodes) ∧
      TheoremsTrue F C' θ env'.consts := by
  obtain ⟨C', h1, h2⟩ := (body_good F b above env env' he hel ok).2 C θ h hg
  exact ⟨C', h1, h2.suits, h2.facts, h2.theorems⟩

/-- A module without assumptions whose goals are valid never makes known a statement and its negation. -/
theorem C49_no_contradiction_partial (env' : Env) (b : Body) (he : addBody {} b = some env')
    (hel : ElaboratedBody F {} b) (hg : GoalsValid F [] env') (v : Value) :
    ¬ (EnvFact.prop [] v ∈ nodeFacts env'.nodes ∧ EnvFact.prop [] (.not v) ∈ nodeFacts env'.nodes) := by
  obtain ⟨C, _, _, h, _⟩ := C49_extends_partial [] {} env' b he hel tidy_empty hg (fun _ _ => F.tt) (fun _ => F.bool)
    (fulfils_empty F _ _)
  rintro ⟨h1, h2⟩
  have h1 := h _ h1 [] rfl
  have h2 : F.ofProp _ = F.tt := h _ h2 [] rfl
  unfold Frame.ofProp at h2
  split at h2
  · rename_i hn
    exact hn h1
  · exact F.tt_ne_ff h2.symm

/-- A module with a definition, a theorem, a `satisfy` statement, and a `forall` block with an `if` block in it that cites the
theorem: it is accepted, assumes nothing, and has three valid goals.  The block exports
`forall(y: Bool) { id(y) implies y }`. -/
example (F : Frame.{u}) : addBody {} module1 = some env4 ∧ ElaboratedBody F {} module1 ∧ Tidy [] {} ∧
    GoalsValid F [] env4 ∧ (goalsAt [] env4.nodes).length = 3 ∧
    (.prop [] (.all [.bool] (.bin .implies (.app (.const "id" [] fn1) [.var 0 .bool]) (.var 0 .bool)))) ∈
      nodeFacts env4.nodes :=
  ⟨rfl, elab_module1 F, tidy_empty, valid1 F, rfl, by simp [env4, env3, env2, nodeFacts, nodeFact, nAll]⟩

/-! ### The facts visible to a goal -/

/-- The goals of the lowered module are those of the environment, in order, each with the constants known at
it.  The facts visible to a goal are exactly those that the nodes before it make known, at its own level and
at the levels of the blocks around it, in order; a number that is not that of a goal is not found. -/
theorem C49_visible_facts (importable : EnvFact → Bool) (nodes : List EnvNode) :
    (lowerNodes importable true {} nodes).1.goals = (goalsAt [] nodes).map (fun g => (g.known, g.goal)) ∧
    (∀ i g, (goalsAt [] nodes)[i]? = some g → ∃ ids,
      visibleFor i [] (lowerNodes importable true {} nodes).2 = some ids ∧
      ids.map ((lowerNodes importable true {} nodes).1.facts[·]?) = g.visible.map some) ∧
    ∀ i, (goalsAt [] nodes).length ≤ i → visibleFor i [] (lowerNodes importable true {} nodes).2 = none := by
  obtain ⟨h1, h2⟩ := lowerNodes_spec importable nodes true {}
  have hl := h1.length []
  refine ⟨by simpa using h1.goals [], fun i g hi => ?_, fun i hi => ?_⟩
  · obtain ⟨ids, e, r⟩ := (h2 [] [] rfl i).inside g (Nat.zero_le _) (by simpa using hi)
    exact ⟨ids, e, r⟩
  · exact (h2 [] [] rfl i).outside (.inr (by rw [hl]; simpa using hi))

/-- The facts a module exports are the importable ones among those its top level makes known, in order. -/
theorem C49_exported_facts (importable : EnvFact → Bool) (nodes : List EnvNode) :
    (lowerNodes importable true {} nodes).1.moduleFacts.map ((lowerNodes importable true {} nodes).1.facts[·]?) =
      ((nodeFacts nodes).filter importable).map some := by
  obtain ⟨ids, e, r⟩ := (lowerNodes_spec importable nodes true {}).1.exported
  have e : (lowerNodes importable true {} nodes).1.moduleFacts = ids := by simpa using e
  rw [e]
  exact r

/-- The third goal of the module above sees the definition, the theorem, the fact about the chosen `b`, the
condition of the `if` and the cited theorem, and no fact from inside the first two blocks. -/
example : (lowerNodes (fun _ => true) true {} env4.nodes).1.goals.length = 3 ∧
    visibleFor 2 [] (lowerNodes (fun _ => true) true {} env4.nodes).2 = some [0, 4, 6, 7, 8] ∧
    (lowerNodes (fun _ => true) true {} env4.nodes).1.moduleFacts = [0, 4, 6, 11] := by decide +kernel

/-! ### A name that can be defined twice -/

namespace EnvironmentDemo

/-- `define f(x: Bool) -> Bool { true }`. -/
def first : Stmt := .define (.const "f") [] [("x", .bool)] .bool (some (.bool true))
/-- In `instance D: Cls`: `define f(x: Bool) -> Bool { true }`. -/
def member : Stmt := .define (.inst "Cls" "f" "D") [] [("x", .bool)] .bool (some (.bool true))
/-- `define f(x: Bool) -> Bool { false }`. -/
def second : Stmt := .define (.const "f") [] [("x", .bool)] .bool (some (.bool false))

def cF (n : String) (b : Bool) : EnvConst :=
  { name := n, params := [], ty := fn1, definition := some (.lam [.bool] (.bool b)) }
def fF (n : String) (b : Bool) : EnvFact := .defn n [] fn1 (.lam [.bool] (.bool b))
def envA : Env := { consts := [cF "f" true], nodes := [.structural (fF "f" true)] }
def envB : Env := { consts := [cF "Cls.f[D]" true], nodes := [.structural (fF "f" true), .structural (fF "Cls.f[D]" true)] }
def envC : Env := { consts := [cF "Cls.f[D]" true, cF "f" false], nodes := [.structural (fF "f" true), .structural (fF "Cls.f[D]" true),
  .structural (fF "f" false)] }

end EnvironmentDemo

/-- While the body of an instance member is evaluated, the member is known under its plain attribute name,
and this name is removed afterwards, also when it was that of another constant of the module.  So the name is
free again: a module without axioms and without goals, all of whose definitions are well typed and refer
to no other constant, defines a name twice with different values, and all is provable. -/
theorem C49_disagreement_instance_member_frees_name : ∃ (s1 s2 s3 : Stmt) (e1 e2 e3 : Env),
    addStmt {} s1 = some e1 ∧ addStmt e1 s2 = some e2 ∧ addStmt e2 s3 = some e3 ∧
    (∀ F : Frame.{u}, ¬ Assumes F {} s1 ∧ ¬ Assumes F e1 s2 ∧ ¬ Assumes F e2 s3) ∧
    goalsAt [] e3.nodes = [] ∧
    ∀ (F : Frame.{u}) (C : String → List F.T → F.D) (θ : String → F.T), ¬ AllHold F C θ (nodeFacts e3.nodes) := by
  have na : ∀ (F : Frame.{u}) (env : Env) (n : DefinedName) (b : Bool),
      ¬ Assumes F env (.define n [] [("x", .bool)] .bool (some (.bool b))) := by
    intro F env n b
    simp only [Assumes, Classical.not_not]
    refine definable_bool (fun _ _ _ _ => rfl) fun _ _ x _ => (F.mem_bool _).2 ?_
    cases b
    · exact .inr (if_neg (by simp))
    · exact .inl (if_pos rfl)
  refine ⟨first, member, second, envA, envB, envC, rfl, rfl, rfl, fun F => ⟨na F _ _ _, na F _ _ _, na F _ _ _⟩, rfl, ?_⟩
  intro F C θ h
  have h1 : C "f" [] = F.lam F.bool fun _ => F.ofProp (true = true) := h (fF "f" true) (by simp [envC, nodeFacts, nodeFact]) [] rfl
  have h2 : C "f" [] = F.lam F.bool fun _ => F.ofProp (false = true) := h (fF "f" false) (by simp [envC, nodeFacts, nodeFact]) [] rfl
  have ht : F.mem F.tt F.bool := (F.mem_bool _).2 (.inl rfl)
  have h3 : F.ofProp (true = true) = F.ofProp (false = true) := by
    rw [← F.beta F.bool (fun _ => F.ofProp (true = true)) F.tt ht, ← F.beta F.bool (fun _ => F.ofProp (false = true)) F.tt ht,
      ← h1, ← h2]
  simp only [Frame.ofProp, if_true] at h3
  exact F.tt_ne_ff (by simpa using h3)

end Acorn
