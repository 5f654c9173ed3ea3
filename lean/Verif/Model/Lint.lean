/-
The warnings about unused imports (/repo/src/lint.rs).
-/
namespace Acorn
namespace Lint

/-! ### What the linter looks at -/

/-- A datatype or a typeclass: its module and its name. -/
structure Thing where
  moduleId : Nat
  name : String
  deriving DecidableEq, Repr

/-- `EntityKey` (lint.rs:44-51).  The name of a constant is a string. -/
inductive Key
  | constant (name : String)
  | datatype (d : Thing)
  | typeclass (c : Thing)
  | module (id : Nat)
  | other (text : String)
  deriving DecidableEq, Repr

/-- `NamedEntity` (/repo/src/elaborator/named_entity.rs), as far as `entity_key` looks: for a value the name that
`as_simple_constant` or `is_named_function_call` gives, for a type the datatype if it is one, and how it is shown. -/
inductive Entity
  | value (name : Option String) (shown : String)
  | type (data : Option Thing) (shown : String)
  | module (id : Nat)
  | typeclass (c : Thing)
  | unresolvedValue (name : String)
  | unresolvedType (data : Option Thing) (shown : String)
  deriving DecidableEq, Repr

/-- `EntityKey::value` (lint.rs:467-476). -/
def Key.ofValue (name : Option String) (shown : String) : Key :=
  match name with
  | some n => .constant n
  | none => .other ("value:" ++ shown)

/-- `EntityKey::acorn_type` (lint.rs:478-483). -/
def Key.ofType (data : Option Thing) (shown : String) : Key :=
  match data with
  | some d => .datatype d
  | none => .other ("type:" ++ shown)

/-- `entity_key` (lint.rs:453-464). -/
def Entity.key : Entity → Key
  | .value n s => .ofValue n s
  | .type d s => .ofType d s
  | .module id => .module id
  | .typeclass c => .typeclass c
  | .unresolvedValue n => .constant n
  | .unresolvedType d s => .ofType d s

/-- `ImportBindingInfo`; `key` is the position of the token. -/
structure Import where
  key : Nat
  line : Nat
  column : Nat
  importName : String
  moduleName : String
  moduleId : Nat
  entity : Entity
  deriving DecidableEq, Repr

mutual
  /-- `Environment`, as far as the linter looks: its own imports, the tokens in its map, and the environments of the
  blocks of its nodes. -/
  inductive Env
    | mk (imports : List Import) (tokens : List (Nat × Entity)) (blocks : Envs)
  /-- The blocks of an environment. -/
  inductive Envs
    | nil
    | cons (b : Env) (bs : Envs)
end

/-- The imports of the environment itself. -/
def Env.imports : Env → List Import
  | .mk is _ _ => is

/-- An atom (/repo/src/kernel/atom.rs, symbol.rs), as far as the linter looks. -/
inductive Atom
  | constant (moduleId id : Nat)
  | type (moduleId : Nat)
  | typeclass (moduleId : Nat)
  | other

/-- A clause: the atoms of the types of its variables and of its literals. -/
structure Clause where
  varTypes : List (List Atom)
  literals : List (List Atom)

/-- `try_name_for_global_id` of a symbol table. -/
abbrev Names := Nat → Nat → Option String

mutual
  /-- `AcornType` (/repo/src/elaborator/acorn_type.rs); a type parameter is its typeclass. -/
  inductive AType
    | data (d : Thing) (args : ATypes)
    | family (d : Thing) (args : AArgs)
    | variable (c : Option Thing)
    | arbitrary (c : Option Thing)
    | function (args : ATypes) (ret : AType)
    | constraint (c : Thing)
    | bool
    | type0
  /-- Types. -/
  inductive ATypes
    | nil
    | cons (t : AType) (ts : ATypes)
  /-- `DependentTypeArg`s.  A value is what `for_each_constant` and `for_each_type` visit. -/
  inductive AArgs
    | nil
    | type (t : AType) (as : AArgs)
    | value (constants : List String) (types : ATypes) (as : AArgs)
end

/-- `CertificateStep` (/repo/src/kernel/certificate_step.rs); the specialized clause of a claim can be missing. -/
inductive CertStep
  | claim (generic : Clause) (specialized : Option Clause)
  | satisfy (params : List (Option Thing)) (arguments : ATypes) (ret : AType) (constants : List String) (types : ATypes)
      (generic : Clause) (specialized : Option Clause) (more : Option Clause) (witnesses : List Clause)

/-- A certificate: its goal, and its lines with what parsing gives. -/
structure Cert where
  goal : String
  lines : List (String × Option CertStep)

/-- A goal of the lowered module.  What a line of a certificate means depends on the goal and the lines before it:
`read` gives the lines of a certificate as this goal reads them. -/
structure Goal where
  name : String
  names : Names
  clauses : List Clause
  read : Cert → Cert

/-- A module: its environment, what it exports (`exported_entity_matches`,
/repo/src/elaborator/binding_map.rs:477-520), its facts and goals, whether it needs no certificates
(lint.rs:196-200), and the cached certificates. -/
structure Module where
  path : String
  env : Env
  exported : String → Entity → Bool
  facts : List (Names × List Clause)
  goals : List Goal
  surface : Bool
  certs : Option (List Cert)

/-! ### The usage -/

/-- `Usage` (lint.rs:132-136). -/
structure Usage where
  exact : List Key := []
  modules : List Nat := []

/-- Insertion into `exact_entities`. -/
def Usage.add (u : Usage) (k : Key) : Usage := { u with exact := k :: u.exact }

/-- Insertion into `conservative_modules`. -/
def Usage.touch (u : Usage) (m : Nat) : Usage := { u with modules := m :: u.modules }

/-- `import_is_used` (lint.rs:139-142). -/
def Usage.isUsed (u : Usage) (i : Import) : Bool := u.exact.contains i.entity.key || u.modules.contains i.moduleId

/-- Both insertions for an import. -/
def Usage.mark (u : Usage) (i : Import) : Usage := (u.add i.entity.key).touch i.moduleId

mutual
  /-- `collect_imports` (lint.rs:112-119). -/
  def Env.allImports : Env → List Import
    | .mk is _ bs => is ++ bs.allImports
  /-- The loop over the nodes. -/
  def Envs.allImports : Envs → List Import
    | .nil => []
    | .cons b bs => b.allImports ++ bs.allImports
end

/-- `collect_exported_import_usage` (lint.rs:121-129). -/
def exportedUsage (exported : String → Entity → Bool) (is : List Import) (u : Usage) : Usage :=
  is.foldl (fun u i => if exported i.importName i.entity then u.mark i else u) u

mutual
  /-- `collect_source_token_usage` (lint.rs:145-161). -/
  def Env.tokenUsage (keys : List Nat) : Env → Usage → Usage
    | .mk _ ts bs, u => bs.tokenUsage keys (ts.foldl (fun u t => if keys.contains t.1 then u else u.add t.2.key) u)
  /-- The loop over the nodes. -/
  def Envs.tokenUsage (keys : List Nat) : Envs → Usage → Usage
    | .nil, u => u
    | .cons b bs, u => bs.tokenUsage keys (b.tokenUsage keys u)
end

/-- `collect_atom_usage` (lint.rs:353-379). -/
def atomUsage (names : Names) (u : Usage) : Atom → Usage
  | .constant m i =>
    match names m i with
    | some n => u.add (.constant n)
    | none => u.touch m
  | .type m => u.touch m
  | .typeclass m => u.touch m
  | .other => u

/-- `collect_clause_usage`, `collect_term_usage` (lint.rs:334-351). -/
def clauseUsage (names : Names) (u : Usage) (c : Clause) : Usage :=
  (c.varTypes ++ c.literals).foldl (fun u as => as.foldl (atomUsage names) u) u

/-- `collect_lowered_module_usage`, `collect_lowered_steps_usage` (lint.rs:163-186). -/
def loweredUsage (m : Module) (u : Usage) : Usage :=
  let u := m.facts.foldl (fun u f => f.2.foldl (clauseUsage f.1) u) u
  m.goals.foldl (fun u g => g.clauses.foldl (clauseUsage g.names) u) u

/-- `collect_type_param_usage` (lint.rs:423-430). -/
def paramUsage (u : Usage) : Option Thing → Usage
  | some c => (u.add (.typeclass c)).touch c.moduleId
  | none => u

/-- The constants of `collect_acorn_value_usage` (lint.rs:382-386). -/
def constantUsage (u : Usage) (ns : List String) : Usage := ns.foldl (fun u n => u.add (.constant n)) u

mutual
  /-- `collect_acorn_type_usage` (lint.rs:390-421). -/
  def AType.usage : AType → Usage → Usage
    | .data d ts, u => ts.usage ((u.add (.datatype d)).touch d.moduleId)
    | .family d as, u => as.usage ((u.add (.datatype d)).touch d.moduleId)
    | .variable c, u => paramUsage u c
    | .arbitrary c, u => paramUsage u c
    | .function ts r, u => r.usage (ts.usage u)
    | .constraint c, u => (u.add (.typeclass c)).touch c.moduleId
    | .bool, u => u
    | .type0, u => u
  /-- The loops over types. -/
  def ATypes.usage : ATypes → Usage → Usage
    | .nil, u => u
    | .cons t ts, u => ts.usage (t.usage u)
  /-- `collect_dependent_type_arg_usage` (lint.rs:440-445). -/
  def AArgs.usage : AArgs → Usage → Usage
    | .nil, u => u
    | .type t as, u => as.usage (t.usage u)
    | .value ns ts as, u => as.usage (ts.usage (constantUsage u ns))
end

/-- `collect_certificate_step_usage` (lint.rs:287-324); `none` is an error. -/
def certStepUsage (names : Names) (u : Usage) : CertStep → Option Usage
  | .claim g s => do
    let u := clauseUsage names u g
    return clauseUsage names u (← s)
  | .satisfy ps as r ns ts g s more ws => do
    let u := ps.foldl paramUsage u
    let u := ts.usage (constantUsage (r.usage (as.usage u)) ns)
    let u := clauseUsage names u g
    let u := clauseUsage names u (← s)
    let u := more.toList.foldl (clauseUsage names) u
    return ws.foldl (clauseUsage names) u

/-- Do some letters occur in others? -/
def hasPart (part : List Char) : List Char → Bool
  | [] => part.isEmpty
  | c :: cs => part.isPrefixOf (c :: cs) || hasPart part cs

/-- Does a text contain another (`str::contains`)? -/
def contains (text part : String) : Bool := hasPart part.toList text.toList

/-- `collect_trace_claim_text_usage` (lint.rs:271-285). -/
def textUsage (is : List Import) (u : Usage) (claim : String) : Usage :=
  is.foldl (fun u i =>
    if contains claim i.importName || contains claim ("lib(" ++ i.moduleName ++ ")") then u.mark i else u) u

/-- `collect_certificate_trace_usage` (lint.rs:248-269). -/
def traceUsage (is : List Import) (names : Names) (u : Usage) : List (String × Option CertStep) → Option Usage
  | [] => some u
  | (claim, s) :: ls => do
    let u := textUsage is u claim
    let u ← certStepUsage names u (← s)
    traceUsage is names u ls

/-- `mark_all_imports_used` (lint.rs:326-332). -/
def markAll (is : List Import) (u : Usage) : Usage := is.foldl Usage.mark u

/-- The loop over the certificates of a goal (lint.rs:229-243): `none` if one cannot be used. -/
def certsUsage (is : List Import) (g : Goal) (u : Usage) : List Cert → Option Usage
  | [] => some u
  | c :: cs =>
    if c.lines.isEmpty then none
    else do
      let u ← traceUsage is g.names u (g.read c).lines
      certsUsage is g u cs

/-- Why there is no result. -/
inductive Problem
  | noCertificates
  | noCertificate (goal : String)
  deriving DecidableEq, Repr

/-- The loop over the goals (lint.rs:210-246).  The usage that a certificate leaves when it fails is not kept in the
model: all imports are marked. -/
def goalsUsage (is : List Import) (cs : List Cert) (u : Usage) : List Goal → Except Problem Usage
  | [] => .ok u
  | g :: gs =>
    match cs.filter fun c => c.goal = g.name with
    | [] => .error (.noCertificate g.name)
    | c :: more =>
      match certsUsage is g u (c :: more) with
      | none => .ok (markAll is u)
      | some u => goalsUsage is cs u gs

/-- `collect_cached_certificate_usage` (lint.rs:188-246). -/
def certificateUsage (m : Module) (is : List Import) (u : Usage) : Except Problem Usage :=
  if m.goals.isEmpty || m.surface then .ok u
  else
    match m.certs with
    | none => .error .noCertificates
    | some cs => goalsUsage is cs u m.goals

/-- `LintWarning` (lint.rs:25-32). -/
structure Warning where
  path : String
  line : Nat
  column : Nat
  importName : String
  moduleName : String
  deriving DecidableEq, Repr

/-- The warning for an import (lint.rs:99-105). -/
def warn (path : String) (i : Import) : Warning := ⟨path, i.line, i.column, i.importName, i.moduleName⟩

/-- `lint_module` (lint.rs:72-110), without the errors about modules that could not be loaded. -/
def lintModule (m : Module) : Except Problem (List Warning) :=
  let is := m.env.allImports
  let keys := is.map (·.key)
  let u := exportedUsage m.exported m.env.imports {}
  let u := m.env.tokenUsage keys u
  let u := loweredUsage m u
  match certificateUsage m is u with
  | .error p => .error p
  | .ok u => .ok ((is.filter fun i => !u.isUsed i).map (warn m.path))

/-- The derived order of warnings (lint.rs:25). -/
def Warning.le (a b : Warning) : Bool :=
  decide (a.path < b.path) || (a.path == b.path &&
    (decide (a.line < b.line) || (a.line == b.line &&
      (decide (a.column < b.column) || (a.column == b.column &&
        (decide (a.importName < b.importName) || (a.importName == b.importName &&
          decide (a.moduleName ≤ b.moduleName))))))))

/-- The loop of `lint_targets` (lint.rs:65-68). -/
def lintAll : List Module → Except Problem (List Warning)
  | [] => .ok []
  | m :: ms =>
    match lintModule m with
    | .error p => .error p
    | .ok ws =>
      match lintAll ms with
      | .error p => .error p
      | .ok more => .ok (ws ++ more)

/-- `lint_targets` (lint.rs:58-71).  The targets are given in order. -/
def lintTargets (ms : List Module) : Except Problem (List Warning) :=
  match lintAll ms with
  | .error p => .error p
  | .ok ws => .ok (ws.mergeSort Warning.le)

end Lint
end Acorn
