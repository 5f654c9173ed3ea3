/-
How a module becomes facts and goals: the nodes of an environment, and the statements that add to it
(/repo/src/elaborator/environment, /repo/src/elaborator/block.rs, /repo/src/elaborator/node.rs).

A statement is given with its expressions already evaluated, as types and values; the names in it are
those of the source.  The values of a generic statement are the generic ones, in which its type
parameters are type variables (binding_map.rs:2327-2520), except where it says otherwise.

Simplifications, for the whole file: one module, so a name stands for the pair of module and name.
Typeclasses of type parameters, types with value parameters, the obligations that arise while
evaluating an expression (`LocalObligation`), comments, lines, tokens and error messages are left out;
an error is `none`.  Statements that declare types, typeclasses and imports are left out: what they add
is in the environment to begin with.
-/
import Verif.Model.Datatypes
import Verif.Model.ValueTypes
namespace Acorn
namespace Elab

namespace Value

mutual

/-- `PartialEq` of `AcornValue` (derived, acorn_value.rs:724) with that of `ConstantInstance`
(acorn_value.rs:274-281), which does not look at the type of a constant. -/
def same : Value → Value → Bool
  | .var i t, .var j u => i == j && t.same u
  | .const n ps _, .const m qs _ => n == m && Ty.sameAll ps qs
  | .app f as, .app g bs => f.same g && sameAll as bs
  | .tapp f ns ts, .tapp g ms us => f.same g && ns == ms && Ty.sameAll ts us
  | .lam ts b, .lam us c => Ty.sameAll ts us && b.same c
  | .bin op a b, .bin op' a' b' => op == op' && a.same a' && b.same b'
  | .not a, .not b => a.same b
  | .try_ a t, .try_ b u => a.same b && t.same u
  | .all ts b, .all us c => Ty.sameAll ts us && b.same c
  | .ex ts b, .ex us c => Ty.sameAll ts us && b.same c
  | .group a, .group b => a.same b
  | .bool a, .bool b => a == b
  | .ite c a b, .ite c' a' b' => c.same c' && a.same a' && b.same b'
  | .match_ s cs, .match_ s' cs' => s.same s' && sameCases cs cs'
  | _, _ => false

/-- Of lists of values. -/
def sameAll : List Value → List Value → Bool
  | [], [] => true
  | v :: vs, w :: ws => v.same w && sameAll vs ws
  | _, _ => false

/-- Of the cases of a match. -/
def sameCases : List Case → List Case → Bool
  | [], [] => true
  | .mk ts p r i n :: cs, .mk us q s j m :: ds =>
    Ty.sameAll ts us && p.same q && r.same s && i == j && n == m && sameCases cs ds
  | _, _ => false

end

mutual

/-- The constants of a value with their type arguments, in the order in which
`find_unknown_scoped_constants` (binding_map.rs:2898-2952) meets them. -/
def constants : Value → List (String × List Ty)
  | .var _ _ => []
  | .const n ps _ => [(n, ps)]
  | .app f as => f.constants ++ constantsAll as
  | .tapp f _ _ => f.constants
  | .lam _ b => b.constants
  | .bin _ a b => a.constants ++ b.constants
  | .not a => a.constants
  | .try_ a _ => a.constants
  | .all _ b => b.constants
  | .ex _ b => b.constants
  | .group a => a.constants
  | .bool _ => []
  | .ite c a b => c.constants ++ (a.constants ++ b.constants)
  | .match_ s cs => s.constants ++ constantsCases cs

/-- Of several values. -/
def constantsAll : List Value → List (String × List Ty)
  | [] => []
  | v :: vs => v.constants ++ constantsAll vs

/-- Of the cases of a match. -/
def constantsCases : List Case → List (String × List Ty)
  | [] => []
  | .mk _ p r _ _ :: cs => p.constants ++ (r.constants ++ constantsCases cs)

end

/-- `is_named_function_call` or `as_name` (acorn_value.rs:3238-3253): the constant a value is, or is a
call of. -/
def calledName : Value → Option String
  | .const n _ _ => some n
  | .app (.const n _ _) _ => some n
  | .app (.tapp (.const n _ _) _ _) _ => some n
  | .tapp f _ _ => f.calledName
  | _ => none

/-- `as_simple_constant` (acorn_value.rs:3257-3268). -/
def simpleConstant : Value → Option String
  | .const n [] _ => some n
  | _ => none

end Value

/-! ### Environments -/

/-- What a binding map knows of a constant (`ConstantDefinition`, binding_map.rs:3352-3384, and `ConstructorInfo`, 3177-3187): its type, generic in
the parameters; its definition; whether it is a theorem; and, for a constructor, the datatype, its number
and the number of constructors. -/
structure EnvConst where
  name : String
  params : List String
  ty : Ty
  definition : Option Value := none
  isTheorem : Bool := false
  con : Option (String × Nat × Nat) := none

/-- `Fact` (fact.rs:21-40): a proposition with its type parameters, or the definition of a constant. -/
inductive EnvFact where
  | prop (params : List String) (v : Value)
  | defn (name : String) (params : List String) (ty : Ty) (definition : Value)

/-- `Node` (node.rs:23-50).  With a claim stand the constants that are known before it
(`bindings_before_node`, environment/mod.rs:306-308). -/
inductive EnvNode where
  | structural (fact : EnvFact)
  | claim (known : List EnvConst) (goal : Value) (fact : EnvFact)
  | block (nodes : List EnvNode) (fact : Option EnvFact)

/-- `Environment` (environment/mod.rs:57-110) with its binding map, as far as used here.  `types` are the
arbitrary types that are in scope; `aliases` are names that stand for other constants. -/
structure Env where
  depth : Nat := 0
  types : List String := []
  consts : List EnvConst := []
  aliases : List String := []
  nodes : List EnvNode := []

namespace Env

/-- The names of the constants. -/
def names (env : Env) : List String := env.consts.map (·.name)

/-- `check_unqualified_name_available` (binding_map.rs:882-889) and `constant_name_in_use`
(binding_map.rs:348-376), for an unqualified name. -/
def inUse (env : Env) (n : String) : Bool := env.names.contains n || env.aliases.contains n

/-- `add_constant_name` (binding_map.rs:1471-1593): a constant of the same name is replaced. -/
def addConst (env : Env) (c : EnvConst) : Env :=
  { env with consts := env.consts.filter (fun d => d.name != c.name) ++ [c] }

/-- `remove_constant` (binding_map.rs:1595-1603). -/
def removeConst (env : Env) (n : String) : Env :=
  { env with consts := env.consts.filter fun d => d.name != n }

/-- `mark_as_theorem` (binding_map.rs:1635-1640). -/
def markTheorem (env : Env) (n : String) : Env :=
  { env with consts := env.consts.map fun d => if d.name = n then { d with isTheorem := true } else d }

/-- `add_node` (environment/mod.rs:290-304). -/
def addNode (env : Env) (n : EnvNode) : Env := { env with nodes := env.nodes ++ [n] }

/-- `is_citation` (binding_map.rs:1940-1948): the value is a theorem or a call of one. -/
def isCitation (env : Env) (v : Value) : Bool :=
  match v.calledName with
  | some n => env.consts.any fun c => c.name == n && c.isTheorem
  | none => false

/-- `add_definition` (environment/mod.rs:317-350), for a constant that is known. -/
def addDefinition (env : Env) (c : EnvConst) : Env :=
  env.addNode (.structural (.defn c.name c.params c.ty
    (c.definition.getD (.const c.name (c.params.map .tvar) c.ty))))

/-- `define_constant` (environment/mod.rs:379-402). -/
def defineConst (env : Env) (c : EnvConst) : Env := (env.addConst c).addDefinition c

/-- The environment of a new block (block.rs:246-282): its type parameters are arbitrary types, its
arguments are constants.  In the types of the arguments the parameters are replaced by the arbitrary
types of the same names (block.rs:267-269), which is `to_arbitrary` here. -/
def child (env : Env) (params : List String) (args : List (String × Ty)) : Env :=
  args.foldl (fun e a => e.addConst { name := a.1, params := [], ty := a.2.toArbitrary })
    { env with depth := env.depth + 1, types := env.types ++ params, nodes := [] }

end Env

/-- The arguments of a block as values (block.rs:266-282). -/
def argValues (args : List (String × Ty)) : List Value := args.map fun a => .const a.1 [] a.2.toArbitrary

/-- `bind_block_value` (block.rs:155-160): a statement about the arguments, inside the block. -/
def bindBlock (args : List (String × Ty)) (v : Value) : Value := (v.bindValues 0 0 (argValues args)).toArbitrary

/-- `add_structural_premise` (block.rs:162-175). -/
def Env.addPremise (env : Env) (v : Value) : Env := env.addNode (.structural (.prop [] v))

/-- A goal of the block (block.rs:519-531), when `Goal::new` (goal.rs:43-92) accepts it: it has no type
variables. -/
def Env.addGoal (env : Env) (v : Value) : Option Env :=
  if v.hasGeneric then none else some (env.addNode (.claim env.consts v (.prop [] v)))

/-- `Node::proposition` (node.rs:161-172): the value of the proposition of a node. -/
def EnvNode.value : EnvNode → Option Value
  | .structural (.prop _ v) => some v
  | .claim _ _ (.prop _ v) => some v
  | .block _ (some (.prop _ v)) => some v
  | _ => none

/-- Insertion of a name into a sorted list of names without repetition, as into the keys of a `BTreeMap`. -/
def insertName (n : String) : List String → List String
  | [] => [n]
  | m :: ms => if n < m then n :: m :: ms else if n = m then m :: ms else m :: insertName n ms

/-- The names of constants of a value that the environment does not know (binding_map.rs:2898-2952),
sorted.  `none` is the assertion that they have no type arguments. -/
def Env.unknown (env : Env) (v : Value) : Option (List String) :=
  let cs := v.constants.filter fun c => !env.names.contains c.1
  if cs.all fun c => c.2.isEmpty then some (cs.foldl (fun ns c => insertName c.1 ns) []) else none

/-- `externalize_last_claim` (block.rs:612-631) with `externalize_bool` (block.rs:553-608): the last
proposition of the block, in the environment around it.  The types of the constants of the block are those
the block knows them with; the code takes them from the instances of the constants in the value. -/
def Env.exported (outer inner : Env) (args : List (String × Ty)) : Option Value := do
  let node ← inner.nodes.getLast?
  let v ← node.value
  let ns ← outer.unknown v
  let others := (ns.filter fun n => !(args.map (·.1)).contains n).filterMap fun n =>
    (inner.consts.find? fun c => c.name == n).map fun c => (n, c.ty)
  return v.externalize args others

/-! ### Statements -/

/-- `DefinedName` (names.rs:238-246): the name of a constant, or of an attribute in an `instance` block. -/
inductive DefinedName where
  | const (name : String)
  | inst (typeclass attr datatype : String)

/-- The name under which the constant is known. -/
def DefinedName.constName : DefinedName → String
  | .const n => n
  | .inst c a d => c ++ "." ++ a ++ "[" ++ d ++ "]"

/-- `recursion_name` (names.rs:372-385): the name by which the definition may call itself. -/
def DefinedName.recursionName : DefinedName → String
  | .const n => n
  | .inst _ a _ => a

mutual

/-- The statements that are modelled (`StatementInfo`, syntax/statement/ast.rs:309-400).
* `theorem_`: with its arguments and its claim on the stack of the arguments; `trusted` for axioms and
  for theorems that are taken without proof.
* `forall_`, `if_`, `match_`: blocks.
* `let_`: `none` for an axiom.  `define`: the value on the stack of the arguments.
* `varSatisfy`: `let (x, y) satisfy { cond }`; types and condition as evaluated while the parameters are
  arbitrary types.
* `funSatisfy`: `let f(args) -> r satisfy { cond } by { body }`. -/
inductive Stmt where
  | claim (v : Value)
  | theorem_ (name : Option String) (params : List String) (args : List (String × Ty)) (claim : Value)
      (trusted : Bool) (body : Body)
  | forall_ (args : List (String × Ty)) (body : Body)
  | if_ (cond : Value) (body els : Body)
  | match_ (scrutinee : Value) (arms : Arms)
  | let_ (name : String) (params : List String) (ty : Ty) (value : Option Value)
  | define (name : DefinedName) (params : List String) (args : List (String × Ty)) (ret : Ty)
      (value : Option Value)
  | varSatisfy (params : List String) (decls : List (String × Ty)) (cond : Value)
  | funSatisfy (name : String) (params : List String) (args : List (String × Ty)) (ret : Ty) (cond : Value)
      (body : Body)

/-- The statements between braces. -/
inductive Body where
  | nil
  | cons (s : Stmt) (b : Body)

/-- The cases of a match statement: a constructor, its number and the number of constructors, the
pattern's variables, and the statements. -/
inductive Arms where
  | nil
  | cons (con : Value) (index total : Nat) (args : List (String × Ty)) (body : Body) (rest : Arms)

end

/-- There are no statements. -/
def Body.isEmpty : Body → Bool
  | .nil => true
  | .cons _ _ => false

/-- The number of cases. -/
def Arms.length : Arms → Nat
  | .nil => 0
  | .cons _ _ _ _ _ r => r.length + 1

/-- The arguments of a theorem, a definition or a pattern are accepted: `bind_args_internal`
(evaluator.rs:1442-1508), `evaluate_pattern` (evaluator.rs:1594-1612). -/
def Env.argsOk (env : Env) (args : List (String × Ty)) : Bool :=
  args.all (fun a => !env.inUse a.1) && (args.map (·.1)).Nodup

/-- The type parameters of a statement are accepted: `evaluate_type_params` (evaluator.rs:4049-4074). -/
def Env.paramsOk (env : Env) (params : List String) : Bool :=
  params.all (fun p => !env.types.contains p) && params.Nodup

/-- The premise and the goal of a theorem (definitions.rs:1186-1199). -/
def splitClaim : Value → Option Value × Value
  | .bin .implies a b => (some a, b)
  | v => (none, v)

/-- The stack's variables with these types. -/
def varsOf (args : List (String × Ty)) : List Value := (args.map (·.2)).zipIdx.map fun (t, i) => .var i t

/-- The constant of a theorem (definitions.rs:1201-1217). -/
def theoremConst (n : String) (params : List String) (args : List (String × Ty)) (claim : Value) : EnvConst where
  name := n
  params := params
  ty := Ty.functional (args.map (·.2)) .bool
  definition := some (Value.mkLam (args.map (·.2)) claim)

/-- A theorem with a name becomes a constant (definitions.rs:1203-1217). -/
def Env.declareTheorem (env : Env) (name : Option String) (params : List String) (args : List (String × Ty))
    (claim : Value) : Env :=
  match name with
  | some n => env.addConst (theoremConst n params args claim)
  | none => env

/-- The node of a theorem is added, and its name is from now on that of a theorem
(definitions.rs:1255-1267). -/
def Env.finishTheorem (env : Env) (name : Option String) (node : EnvNode) : Env :=
  match name with
  | some n => (env.addNode node).markTheorem n
  | none => env.addNode node

/-- The environment that a theorem's proof starts from (definitions.rs:1226-1242, block.rs:318-356): the
theorem's own definition and the premise. -/
def Env.theoremBlock (env : Env) (name : Option String) (params : List String) (args : List (String × Ty))
    (claim : Value) : Env :=
  let sub := env.child params args
  let sub := match name with
    | none => sub
    | some n => match sub.consts.find? fun c => c.name == n with
      | some c => sub.addDefinition c
      | none => sub
  match (splitClaim claim).1 with
  | none => sub
  | some p => sub.addPremise (bindBlock args p.toArbitrary)

mutual

/-- `Environment::add_statement` (environment/add_statement.rs:141-330), for the statements above. -/
def addStmt : Env → Stmt → Option Env
  /- `add_claim_statement` (definitions.rs:1696-1743).  A cited theorem is left as it is; the code
  replaces it by its definition (`expand_citation`, binding_map.rs:2964-3100). -/
  | env, .claim v => if env.isCitation v then some (env.addPremise v) else env.addGoal v
  /- `add_theorem_statement` (definitions.rs:1094-1270).  That an argument may not have the theorem's name
  is the outcome of block.rs:330-342, where the argument would be applied to itself. -/
  | env, .theorem_ name params args claim trusted body =>
    if (match name with | some n => env.inUse n || (args.map (·.1)).contains n | none => false) ||
        !env.paramsOk params || !env.argsOk args || (env.isCitation claim && !body.isEmpty) then none
    else
      let fact := EnvFact.prop params (Value.mkAll (args.map (·.2)) claim)
      let env1 := env.declareTheorem name params args claim
      if trusted || env.isCitation claim then some (env1.finishTheorem name (.structural fact))
      else do
        let sub ← addBody (env1.theoremBlock name params args claim) body
        let sub ← sub.addGoal (bindBlock args (splitClaim claim).2.toArbitrary)
        return env1.finishTheorem name (.block sub.nodes (some fact))
  /- `add_forall_statement` (blocks.rs:5-41). -/
  | env, .forall_ args body =>
    if body.isEmpty then some env
    else if args.any fun a => env.inUse a.1 then none
    else do
      let sub ← addBody (env.child [] args) body
      let v ← env.exported sub args
      return env.addNode (.block sub.nodes (some (.prop [] v)))
  /- `add_if_statement` (blocks.rs:43-78) with `add_conditional` (environment/mod.rs:449-509). -/
  | env, .if_ cond body els => do
    let (env1, ifClaim) ←
      if body.isEmpty then some (env, none)
      else do
        let sub ← addBody ((env.child [] []).addPremise (bindBlock [] cond)) body
        let v ← env.exported sub []
        some (env.addNode (.block sub.nodes (some (.prop [] (.bin .implies cond v)))), some v)
    if els.isEmpty then return env1
    else
      let sub ← addBody ((env1.child [] []).addPremise (bindBlock [] cond.negate)) els
      let v ← env1.exported sub []
      let merged := match ifClaim with | some w => v.same w | none => false
      return env1.addNode (.block sub.nodes (some (.prop []
        (if merged then v else .bin .implies cond.negate v))))
  /- `add_match_statement` (blocks.rs:80-145). -/
  | env, .match_ s arms => addArms env s arms.length [] [] arms
  /- `add_let_statement` (definitions.rs:494-758). -/
  | env, .let_ n params t value =>
    if env.inUse n || (env.depth > 0 && !params.isEmpty) || !env.paramsOk params then none
    else match value.bind Value.simpleConstant with
      | some _ => some { env with aliases := env.aliases ++ [n] }
      | none => some (env.defineConst { name := n, params, ty := t, definition := value })
  /- `add_define_statement` (definitions.rs:892-1090).  While the value is evaluated the constant is known
  under its recursion name (binding_map.rs:2380-2412), and then this name is removed
  (binding_map.rs:2463-2465). -/
  | env, .define name params args ret value =>
    if (env.depth > 0 && !params.isEmpty) || !env.paramsOk params || !env.argsOk args ||
        (match name with | .const n => env.inUse n | .inst _ _ _ => env.names.contains name.constName) then none
    else
      let env1 := (env.addConst { name := name.recursionName, params, ty := Ty.functional (args.map (·.2)) ret }).removeConst
        name.recursionName
      some (env1.defineConst
        { name := name.constName, params, ty := Ty.functional (args.map (·.2)) ret,
          definition := value.map (Value.mkLam (args.map (·.2))) })
  /- `add_variable_satisfy_statement_named` (definitions.rs:1288-1469).  The test that the names are not in
  use is made while the constants are declared, so it also finds repetitions. -/
  | env, .varSatisfy params decls cond =>
    if (env.depth > 0 && !params.isEmpty) || !env.paramsOk params || !env.argsOk decls then none
    else do
      let sub ← (env.child params []).addGoal (bindBlock [] (.ex (decls.map (·.2)) cond))
      let env1 := decls.foldl (fun e d => e.addConst { name := d.1, params, ty := d.2.genericize params }) env
      let v := (cond.bindValues 0 decls.length (decls.map fun d => .const d.1 (params.map .arb) d.2)).genericize params
      return env1.addNode (.block sub.nodes (some (.prop params v)))
  /- `add_function_satisfy_statement_named` (definitions.rs:1488-1693). -/
  | env, .funSatisfy n params args ret cond body =>
    if env.inUse n || (env.depth > 0 && !params.isEmpty) || !env.paramsOk params || !env.argsOk args then none
    else do
      let sub ← addBody (env.child params args) body
      let sub ← sub.addGoal (Value.mkEx [ret.toArbitrary] (bindBlock args cond))
      let t := Ty.functional (args.map (·.2)) ret
      let env1 := env.addConst { name := n, params, ty := t.genericize params }
      let f := (Value.const n (params.map .arb) t).apply (varsOf args)
      let v := (Value.all (args.map (·.2)) (cond.bindValues args.length args.length [f])).genericize params
      return env1.addNode (.block sub.nodes (some (.prop params v)))

/-- The statements of a body in order (block.rs:495-497). -/
def addBody : Env → Body → Option Env
  | env, .nil => some env
  | env, .cons s b => do addBody (← addStmt env s) b

/-- The loop over the cases (blocks.rs:95-140); `count` is the number of cases of the statement. -/
def addArms (env : Env) (s : Value) (count : Nat) (indices : List Nat) (disjuncts : List Value) :
    Arms → Option Env
  | .nil => none
  | .cons con index total args body rest =>
    if !env.argsOk args || indices.contains index then none
    else do
      let sub := args.foldl (fun e a => e.addConst { name := a.1, params := [], ty := a.2 }) (env.child [] [])
      let sub := sub.addPremise (bindBlock [] (.bin .equals s (con.apply (args.map fun a => .const a.1 [] a.2))))
      let sub ← addBody sub body
      let v ← env.exported sub []
      if total = indices.length + 1 then
        if count > total then addArms env s count (indices ++ [index]) (disjuncts ++ [v]) rest
        else do
          let d ← Value.reduce .or (disjuncts ++ [v])
          return env.addNode (.block sub.nodes (some (.prop [] d)))
      else addArms (env.addNode (.block sub.nodes none)) s count (indices ++ [index]) (disjuncts ++ [v]) rest

end

end Elab
end Acorn
