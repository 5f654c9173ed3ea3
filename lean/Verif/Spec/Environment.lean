/-
When a module is sound, over any frame: interpretations of the known constants, facts that hold in them,
goals that are valid given the facts visible to them.  Independent of how statements add facts, except for
the last part, which says what evaluation provides for each statement.
-/
import Verif.Spec.ValueMeaning
import Verif.Spec.Datatypes
import Verif.Model.Environment
namespace Acorn
namespace Spec
namespace Modules

open Elab

universe u

/-! ### Facts and goals -/

/-- What a node makes known to the nodes after it. -/
def nodeFact : EnvNode → List EnvFact
  | .structural f => [f]
  | .claim _ _ f => [f]
  | .block _ none => []
  | .block _ (some f) => [f]

/-- What nodes make known to what comes after them.  What is inside a block is not part of it. -/
def nodeFacts : List EnvNode → List EnvFact
  | [] => []
  | n :: r => nodeFact n ++ nodeFacts r

/-- A goal, the facts visible to it, and the constants known there. -/
structure GoalAt where
  visible : List EnvFact
  known : List EnvConst
  goal : Value

mutual

/-- The goals of a node, when the facts `above` are known before it. -/
def goalsOf (above : List EnvFact) : EnvNode → List GoalAt
  | .structural _ => []
  | .claim known g _ => [⟨above, known, g⟩]
  | .block ns _ => goalsAt above ns

/-- The goals of several nodes: each sees what the nodes before it make known, and nothing of the inside
of blocks it is not in. -/
def goalsAt (above : List EnvFact) : List EnvNode → List GoalAt
  | [] => []
  | n :: r => goalsOf above n ++ goalsAt (above ++ nodeFact n) r

end

/-- A fact is true: a proposition for all meanings of its type parameters; a definition when the constant
has the meaning of the definition, for all meanings of the type parameters. -/
def FactHolds (F : Frame.{u}) (C : String → List F.T → F.D) (θ : String → F.T) : EnvFact → Prop
  | .prop ps v => ∀ ts, ts.length = ps.length → F.Holds C (F.with_ θ (ps.zip ts)) [] v
  | .defn n ps _ d => ∀ ts, ts.length = ps.length → C n ts = F.den C (F.with_ θ (ps.zip ts)) [] d

/-- All of several facts are true. -/
def AllHold (F : Frame.{u}) (C : String → List F.T → F.D) (θ : String → F.T) (fs : List EnvFact) : Prop :=
  ∀ f ∈ fs, FactHolds F C θ f

/-- A known constructor of the datatype `d`, for the meanings `ts` of its type parameters. -/
def constructorIn (F : Frame.{u}) (C : String → List F.T → F.D) (θ : String → F.T) (d : String) (c : EnvConst) (ts : List F.T)
    (us : List Ty) : ConIn F where
  fn := C c.name ts
  args := F.tys (F.with_ θ (c.params.zip ts)) us
  self := us.map fun t => t = .data d (c.params.map .tvar)

/-- An interpretation suits the known constants. -/
structure Suits (F : Frame.{u}) (C : String → List F.T → F.D) (θ : String → F.T) (known : List EnvConst) :
    Prop where
  /-- Every constant has its type, for all meanings of its type parameters. -/
  typed : ∀ c ∈ known, ∀ ts, ts.length = c.params.length →
    F.mem (C c.name ts) (F.ty (F.with_ θ (c.params.zip ts)) c.ty)
  /-- The name of a theorem means what the theorem says. -/
  named : ∀ c ∈ known, c.isTheorem = true → ∀ d, c.definition = some d → ∀ ts, ts.length = c.params.length →
    C c.name ts = F.den C (F.with_ θ (c.params.zip ts)) [] d
  /-- A datatype with constructors is freely generated by as many constructors as it has; those that are
  known are the ones of their numbers. -/
  free : ∀ d total ts, (∃ c ∈ known, (∃ i, c.con = some (d, i, total)) ∧ ts.length = c.params.length) →
    ∃ cs : List (ConIn F), cs.length = total ∧ Freely F (F.data d ts) cs ∧
    ∀ c ∈ known, ∀ i, c.con = some (d, i, total) → ts.length = c.params.length →
      ∀ us, c.ty = Ty.functional us (.data d (c.params.map .tvar)) → cs[i]? = some (constructorIn F C θ d c ts us)

/-- A goal is valid: true in every interpretation that suits the known constants and in which the visible
facts are true. -/
def GoalAt.Valid (F : Frame.{u}) (g : GoalAt) : Prop :=
  ∀ C θ, Suits F C θ g.known → AllHold F C θ g.visible → F.Holds C θ [] g.goal

/-- The theorems among the constants are true for all arguments. -/
def TheoremsTrue (F : Frame.{u}) (C : String → List F.T → F.D) (θ : String → F.T) (known : List EnvConst) : Prop :=
  ∀ c ∈ known, c.isTheorem = true → ∀ us, c.ty = Ty.functional us .bool → ∀ ts, ts.length = c.params.length →
    ∀ xs, F.Fits xs (F.tys (F.with_ θ (c.params.zip ts)) us) → F.appN (C c.name ts) xs = F.tt

/-- The interpretation suits the constants, the facts are true, and so are the theorems. -/
structure Fulfils (F : Frame.{u}) (C : String → List F.T → F.D) (θ : String → F.T) (above : List EnvFact)
    (env : Env) : Prop where
  suits : Suits F C θ env.consts
  facts : AllHold F C θ (above ++ nodeFacts env.nodes)
  theorems : TheoremsTrue F C θ env.consts

/-- All the goals are valid. -/
def GoalsValid (F : Frame.{u}) (above : List EnvFact) (env : Env) : Prop :=
  ∀ g ∈ goalsAt above env.nodes, g.Valid F

/-! ### Names in scope -/

mutual

/-- The constants of a value, each with the number of its type arguments, have the property `cn`, the type
parameters in it have the property `tn`, and there are no explicit type applications. -/
def Within (cn : String → Nat → Prop) (tn : String → Prop) : Value → Prop
  | .var _ t => ∀ n ∈ tyNames t, tn n
  | .const m ps t => cn m ps.length ∧ (∀ n ∈ tysNames ps, tn n) ∧ ∀ n ∈ tyNames t, tn n
  | .app f as => Within cn tn f ∧ WithinAll cn tn as
  | .tapp _ _ _ => False
  | .lam ts b => (∀ n ∈ tysNames ts, tn n) ∧ Within cn tn b
  | .bin _ a b => Within cn tn a ∧ Within cn tn b
  | .not a => Within cn tn a
  | .try_ a t => Within cn tn a ∧ ∀ n ∈ tyNames t, tn n
  | .all ts b => (∀ n ∈ tysNames ts, tn n) ∧ Within cn tn b
  | .ex ts b => (∀ n ∈ tysNames ts, tn n) ∧ Within cn tn b
  | .group a => Within cn tn a
  | .bool _ => True
  | .ite c a b => Within cn tn c ∧ Within cn tn a ∧ Within cn tn b
  | .match_ s cs => Within cn tn s ∧ WithinCases cn tn cs

/-- Of several values. -/
def WithinAll (cn : String → Nat → Prop) (tn : String → Prop) : List Value → Prop
  | [] => True
  | v :: vs => Within cn tn v ∧ WithinAll cn tn vs

/-- Of the cases of a match. -/
def WithinCases (cn : String → Nat → Prop) (tn : String → Prop) : List Case → Prop
  | [] => True
  | .mk ts p r _ _ :: cs => (∀ n ∈ tysNames ts, tn n) ∧ Within cn tn p ∧ Within cn tn r ∧ WithinCases cn tn cs

end

/-- The environment knows a constant of this name with `k` type parameters. -/
def Known (env : Env) (n : String) (k : Nat) : Prop :=
  ∃ c, env.consts.find? (fun c => c.name == n) = some c ∧ c.params.length = k

/-- A value uses the constants of the environment with as many type arguments as they have parameters, its
arbitrary types and the given type parameters. -/
def InScope (env : Env) (params : List String) (v : Value) : Prop :=
  Within (Known env) (· ∈ params ++ env.types) v

/-- A type uses the arbitrary types of the environment and the given type parameters. -/
def TypeInScope (env : Env) (params : List String) (t : Ty) : Prop := ∀ n ∈ tyNames t, n ∈ params ++ env.types

/-- A fact uses the constants of the environment and its arbitrary types. -/
def FactInScope (env : Env) : EnvFact → Prop
  | .prop ps v => InScope env ps v
  | .defn n ps _ d => n ∈ env.names ∧ InScope env ps d

/-- What is known uses only what is known: the types and definitions of the constants, and the facts. -/
structure Tidy (above : List EnvFact) (env : Env) : Prop where
  types : ∀ c ∈ env.consts, TypeInScope env c.params c.ty
  definitions : ∀ c ∈ env.consts, ∀ d, c.definition = some d → InScope env c.params d
  facts : ∀ f ∈ above ++ nodeFacts env.nodes, FactInScope env f

/-! ### What evaluation provides -/

/-- The value has the type on a stack of these types, in every interpretation that suits the constants. -/
def Typed (F : Frame.{u}) (known : List EnvConst) (Γ : List Ty) (v : Value) (t : Ty) : Prop :=
  ∀ C θ env, Suits F C θ known → F.Fits env (F.tys θ Γ) → F.mem (F.den C θ env v) (F.ty θ t)

/-- Several values have the types, in order. -/
def TypedAll (F : Frame.{u}) (known : List EnvConst) (Γ : List Ty) : List Value → List Ty → Prop
  | [], [] => True
  | v :: vs, t :: ts => Typed F known Γ v t ∧ TypedAll F known Γ vs ts
  | _, _ => False

/-- A value that is a call of a theorem gives it arguments of the right types. -/
def CallsWell (F : Frame.{u}) (env : Env) (Γ : List Ty) (v : Value) : Prop :=
  ∀ c ∈ env.consts, c.isTheorem = true → v.calledName = some c.name → ∃ us ps t as, c.ty = Ty.functional us .bool ∧
    ps.length = c.params.length ∧ v = (Value.const c.name ps t).apply as ∧
    TypedAll F env.consts Γ as (Ty.instantiateAll (c.params.zip ps) us)

/-- The last proposition of a block has no type parameters of its own. -/
def EndsPlain (env : Env) (b : Body) : Prop :=
  ∀ sub, addBody env b = some sub → ∀ ps v, (.prop ps v) ∈ (sub.nodes.getLast?.toList.flatMap nodeFact) → ps = []

/-- Statements that introduce constants with a fact about them, or assume a fact. -/
def introduces : Stmt → Bool
  | .theorem_ _ _ _ _ trusted _ => trusted
  | .let_ .. => true
  | .define .. => true
  | .varSatisfy .. => true
  | .funSatisfy .. => true
  | _ => false

/-- The interpretation with another meaning for the constant `n`. -/
noncomputable def setConst (F : Frame.{u}) (C : String → List F.T → F.D) (n : String) (f : List F.T → F.D) :
    String → List F.T → F.D :=
  fun m ts => if m = n then f ts else C m ts

/-- A definition can be met: with some meaning for the constant that it defines, of the declared type, the constant has the values that the definition gives it,
whatever the other constants and the type parameters mean. -/
def Definable (F : Frame.{u}) (env : Env) (name : String) (params : List String) (args : List Ty) (ret : Ty) (v : Value) : Prop :=
  ∀ C θ, Suits F C θ env.consts → ∃ f : List F.T → F.D, ∀ ts, ts.length = params.length →
    F.mem (f ts) (F.fnN (F.tys (F.with_ θ (params.zip ts)) args) (F.ty (F.with_ θ (params.zip ts)) ret)) ∧
      ∀ xs, F.Fits xs (F.tys (F.with_ θ (params.zip ts)) args) →
        F.appN (f ts) xs = F.den (setConst F C name f) (F.with_ θ (params.zip ts)) xs v

/-- Statements that assume something: axioms, theorems without proof, definitions that cannot be met, and
values that are not of the declared types. -/
def Assumes (F : Frame.{u}) (env : Env) : Stmt → Prop
  | .theorem_ _ _ _ _ trusted _ => trusted = true
  | .let_ _ _ t (some v) => ¬ Typed F env.consts [] v t
  | .let_ _ _ _ none => True
  | .define name params args ret (some v) =>
    ¬ Definable F env name.constName params (args.map (·.2)) ret v
  | .define _ _ _ _ none => True
  | _ => False

mutual

/-- What evaluating the expressions of a statement provides: they use names in scope, and have the types
they should have.  Inside blocks nothing may be assumed. -/
def Elaborated (F : Frame.{u}) : Env → Stmt → Prop
  | env, .claim v => InScope env [] v ∧ CallsWell F env [] v
  | env, .theorem_ name params args claim _ body =>
    (∀ a ∈ args, TypeInScope env params a.2) ∧ InScope env params claim ∧
      Typed F env.consts (args.map (·.2)) claim .bool ∧
      CallsWell F env (args.map (·.2)) claim ∧
      ElaboratedBody F ((env.declareTheorem name params args claim).theoremBlock name params args claim) body
  | env, .forall_ args body =>
    (∀ a ∈ args, TypeInScope env [] a.2) ∧ ElaboratedBody F (env.child [] args) body ∧
      EndsPlain (env.child [] args) body
  | env, .if_ cond body els =>
    InScope env [] cond ∧
      ElaboratedBody F ((env.child [] []).addPremise (bindBlock [] cond)) body ∧
      EndsPlain ((env.child [] []).addPremise (bindBlock [] cond)) body ∧
      ElaboratedBody F ((env.child [] []).addPremise (bindBlock [] cond.negate)) els ∧
      EndsPlain ((env.child [] []).addPremise (bindBlock [] cond.negate)) els
  | env, .match_ s arms =>
    ∃ d ps total, InScope env [] s ∧ Typed F env.consts [] s (.data d ps) ∧
      ElaboratedArms F env s d ps total arms
  | env, .let_ _ params t value => TypeInScope env params t ∧ ∀ v, value = some v → InScope env params v
  | env, .define name params args ret value =>
    name.recursionName ∉ env.names ∧ (∀ a ∈ args, TypeInScope env params a.2) ∧ TypeInScope env params ret ∧
      ∀ v, value = some v →
        Within (fun n k => Known env n k ∨ n = name.constName ∧ k = params.length) (· ∈ params ++ env.types) v
  | env, .varSatisfy params decls cond =>
    (∀ a ∈ decls, TypeInScope env params a.2 ∧ ∀ p, a.2.hasVar p = false) ∧ InScope env params cond ∧
      EachConst (fun _ ps t => FullyApplied params ps t) cond
  | env, .funSatisfy _ params args ret cond body =>
    (∀ a ∈ args, TypeInScope env params a.2) ∧ TypeInScope env params ret ∧
      (params = [] → ∀ p, (Ty.functional (args.map (·.2)) ret).hasVar p = false) ∧ InScope env params cond ∧
      EachConst (fun _ ps t => FullyApplied params ps t) cond ∧
      ElaboratedBody F (env.child params args) body

/-- The statements of a block, each in the environment it is added to. -/
def ElaboratedBody (F : Frame.{u}) : Env → Body → Prop
  | _, .nil => True
  | env, .cons s b =>
    Elaborated F env s ∧ ¬ Assumes F env s ∧ ∀ env', addStmt env s = some env' → ElaboratedBody F env' b

/-- The cases of a match on a value `s` of type `d[ps]` with `total` constructors. -/
def ElaboratedArms (F : Frame.{u}) (env : Env) (s : Value) (d : String) (ps : List Ty) (total : Nat) : Arms → Prop
  | .nil => True
  | .cons con index n args body rest =>
    n = total ∧ index < total ∧
      (∃ c ∈ env.consts, c.con = some (d, index, total) ∧ ps.length = c.params.length ∧
        ∃ us t, c.ty = Ty.functional us (.data d (c.params.map .tvar)) ∧ con = .const c.name ps t ∧
          args.map (·.2) = Ty.instantiateAll (c.params.zip ps) us ∧ InScope env [] con) ∧
      (∀ a ∈ args, TypeInScope env [] a.2) ∧
      (let sub := (args.foldl (fun e a => e.addConst { name := a.1, params := [], ty := a.2 }) (env.child [] [])).addPremise
        (bindBlock [] (.bin .equals s (con.apply (args.map fun a => .const a.1 [] a.2))))
      ElaboratedBody F sub body ∧ EndsPlain sub body) ∧
      ElaboratedArms F env s d ps total rest

end

/-- The statements of a module, each in the environment it is added to.  Axioms are allowed. -/
def ElaboratedModule (F : Frame.{u}) : Env → Body → Prop
  | _, .nil => True
  | env, .cons s b => Elaborated F env s ∧ ∀ env', addStmt env s = some env' → ElaboratedModule F env' b

/-- The facts that the statements of a module introduce: axioms, definitions, and the conditions of
`satisfy` statements. -/
def assumed : Env → Body → List EnvFact
  | _, .nil => []
  | env, .cons s b =>
    match addStmt env s with
    | none => []
    | some env' =>
      (if introduces s then nodeFacts (env'.nodes.drop env.nodes.length) else []) ++ assumed env' b

end Modules
end Spec
end Acorn
