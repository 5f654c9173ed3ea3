/-
The checker.  Models /repo/src/kernel/checker.rs.

Computations are in `Out`: `done`, `panic`, or `more` when the fuel does not suffice.  The dependency
lists of a step, which are only reported to the user, are not modelled.
-/
import Verif.Model.BoolReduce
import Verif.Model.Resolution
import Verif.Model.EqualityGraph
import Verif.Model.VariableMap
namespace Acorn

/-- `StepReason` (checker.rs:24-65).  The sources and the dependency list of `VariableSimplification` are
not modelled. -/
inductive StepReason
  | equalityGraph | variableSimplification | assumption | skolemization | witnessDeclaration
  | contradiction | previousClaim | testing
  | equalityResolution (step : Nat) | extensionality (step : Nat) | equalityFactoring (step : Nat)
  | injectivity (step : Nat) | booleanReduction (step : Nat)
  deriving DecidableEq, Repr

/-- What the checker uses from its surroundings. -/
structure CheckEnv where
  /-- The kernel context, for types. -/
  K : KCtx
  /-- Bound for the recursions of the called functions. -/
  fuel : Nat
  /-- Iteration order of the hash maps of the equality graph. -/
  ω : HashOrder
  /-- Iteration order of `exact_clauses`. -/
  order : List (Clause × Nat) → List (Clause × Nat)
  /-- It iterates over all entries. -/
  order_perm : ∀ l, (order l).Perm l
  /-- Which constants have value parameters recorded (`get_polymorphic_info`, clause.rs:800-834). -/
  vp : Symbol → Bool
  /-- `symbol_table.contains_symbol` (checker.rs:436). -/
  avail : Symbol → Bool
  /-- `provably_inhabited_without_local_elements` (checker.rs:263-269). -/
  inh : Term → LCtx → Bool
  /-- Does `evaluate_literal_with_dependencies` (equality_graph.rs:1285-1322) find the dependencies of its
  answer?  If not, it answers `None`. -/
  explain : EGraph → Literal → Bool

/-- `Checker` (checker.rs:141-177), without the dependencies of the contradiction. -/
structure Checker where
  graph : EGraph
  exact : AMap Clause Nat
  contra : Bool
  generations : AMap Clause Nat
  generation : Nat
  past : List Clause
  inhabited : List (Term × LCtx)
  reasons : List StepReason
  inserted : List Clause
  eager : Bool

/-- `Clause::has_any_variable` (clause.rs:396-398). -/
def Clause.hasAnyVar (c : Clause) : Bool := c.lits.any Literal.hasAnyVar

namespace Checker

/-- `Checker::new` (checker.rs:180-194). -/
def new : Checker :=
  ⟨EGraph.empty, AMap.empty, false, AMap.empty, 0, [], [], [], [], true⟩

/-- `has_contradiction` (checker.rs:1383-1385). -/
def hasContradiction (s : Checker) : Bool := s.contra || s.graph.contra

/-- `inhabited_type_key` (checker.rs:210-215); `none` is a panic. -/
def typeKey (T : Term) (Γ : LCtx) : Option (Term × LCtx) := do
  let (T', ids) ← T.normVars Γ []
  let Γ' ← Γ.remap ids
  return (T', Γ')

/-- The binder type of `positive_exists_witness_reduction` (clause.rs:1171-1225).  Outer `none`: the type
computation panics. -/
def existsType (K : KCtx) (c : Clause) : Option (Option Term) :=
  match c.lits with
  | [l] =>
    match Term.getType K c.ctx l.left with
    | none => none
    | some T =>
      if T ≠ .boolTy then some none
      else if !l.right.isTrue || !l.positive then some none
      else
        match l.left with
        | .bind .ex A _ => some (some A)
        | _ => some none
  | _ => some none

/-- `negated_exists_true_type_from_clause` (checker.rs:239-255); a panic of the key counts as `none`. -/
def emptyType (c : Clause) : Option (Term × LCtx) :=
  match c.lits with
  | [l] =>
    if l.positive || !l.right.isTrue then none
    else
      match l.left with
      | .bind .ex A body => if body.isTrue then typeKey A c.ctx else none
      | _ => none
  | _ => none

/-- `mark_inhabited_from_clause` (checker.rs:217-237): the key, if it was not there yet. -/
def markInhabited (K : KCtx) (s : Checker) (c : Clause) : Out (Option (Term × LCtx) × Checker) := do
  match ← Out.ofOption (existsType K c) with
  | none => return (none, s)
  | some A =>
    let key ← Out.ofOption (typeKey A c.ctx)
    if s.inhabited.contains key then return (none, s)
    else return (some key, { s with inhabited := key :: s.inhabited })

/-- `eliminated_vars_inhabited` (checker.rs:273-300), the test for one variable. -/
def varInhabited (env : CheckEnv) (s : Checker) (t : Trace) (v : Nat) : Bool :=
  if t.varIds.contains v then true
  else
    match t.preCtx.get v with
    | none => true
    | some T =>
      (match typeKey T t.preCtx with
        | some key => s.inhabited.contains key
        | none => false) || env.inh T t.preCtx

/-- `eliminated_vars_inhabited` (checker.rs:273-300). -/
def guard (env : CheckEnv) (s : Checker) (t : Trace) : Bool :=
  (List.range t.preCtx.length).all (varInhabited env s t)

/-- `normalize_checker_trace` (checker.rs:302-323) for this checker; `none` is a refusal, a panic, or not
enough fuel. -/
def normTrace (env : CheckEnv) (s : Checker) (t : Trace) : Option Clause :=
  t.checkerClause env.fuel (guard env s)

/-- `normalize_with_trace` followed by `normalize_checker_trace`, as at checker.rs:535-538, 565-568,
580-583. -/
def normFound (env : CheckEnv) (s : Checker) (ls : List Literal) (Γ : LCtx) : Option Clause := do
  let t ← Clause.normalizeWithTrace ⟨ls, Γ⟩
  normTrace env s t

/-- `checker_boolean_reductions` (checker.rs:325-341). -/
def boolReductions (env : CheckEnv) (s : Checker) (c : Clause) : Out (List Clause) := do
  let rs ← Out.ofOption (c.findBoolReductions env.fuel env.K)
  return rs.filterMap fun (_, _, t) => if s.past.contains t.clause then none else normTrace env s t

/-- `checker_boolean_reduction_sets` (checker.rs:343-397). -/
def reductionSets (env : CheckEnv) (s : Checker) (c : Clause) : Out (List (List Clause)) :=
  Out.ofOption (c.checkerReductionSets env.fuel env.K (guard env s))

/-- `term_symbols_available` (checker.rs:434-439). -/
def termAvailable (env : CheckEnv) (t : Term) : Bool :=
  t.atoms.all fun a => match a with
    | .sym s => env.avail s
    | _ => true

/-- `clause_symbols_available` (checker.rs:441-455). -/
def available (env : CheckEnv) (c : Clause) : Bool :=
  (c.ctx.all fun T => match T with
    | some T => termAvailable env T
    | none => true) &&
  c.lits.all fun l => termAvailable env l.left && termAvailable env l.right

/-- The loop of `insert_boolean_reductions_with_reason` (checker.rs:408-420); `ins` is
`insert_clause_internal`. -/
def insertReductions (ins : Checker → Clause → StepReason → Out Checker) (step : Nat) :
    Checker → List Clause → Out Checker
  | s, [] => .done s
  | s, r :: rs =>
    if s.past.contains r then insertReductions ins step s rs
    else do
      let s ← ins { s with past := r :: s.past } r (.booleanReduction step)
      insertReductions ins step s rs

/-- `insert_boolean_reductions_with_reason` (checker.rs:399-421). -/
def reduceBool (env : CheckEnv) (ins : Checker → Clause → StepReason → Out Checker) (s : Checker)
    (c : Clause) (step : Nat) : Out Checker :=
  if !available env c then .done s
  else do
    let rs ← boolReductions env s c
    insertReductions ins step s rs

/-- The loop of `reprocess_boolean_reductions` (checker.rs:429-431). -/
def reduceAll (env : CheckEnv) (ins : Checker → Clause → StepReason → Out Checker) :
    Checker → List (Clause × Nat) → Out Checker
  | s, [] => .done s
  | s, (c, step) :: rest => do
    let s ← reduceBool env ins s c step
    reduceAll env ins s rest

/-- `reprocess_boolean_reductions` (checker.rs:423-432). -/
def reprocess (env : CheckEnv) (ins : Checker → Clause → StepReason → Out Checker) (s : Checker) :
    Out Checker :=
  reduceAll env ins s (env.order s.exact.entries)

/-- `evaluate_literal_with_dependencies` (equality_graph.rs:1285-1322), without the dependencies. -/
def evaluate (env : CheckEnv) (s : Checker) (l : Literal) : Out (Option Bool × Checker) := do
  let (r, g) ← s.graph.evaluateLiteral env.ω env.fuel l
  return (if env.explain g l then r else none, { s with graph := g })

/-- The loop over the literals in the two simplifications (checker.rs:1317-1326, 1351-1364): the literals
without a value and whether one was false; `none` if one was true. -/
def simplifyLits (env : CheckEnv) :
    Checker → List Literal → Out (Option (List Literal × Bool) × Checker)
  | s, [] => .done (some ([], false), s)
  | s, l :: ls => do
    let (r, s) ← evaluate env s l
    match r with
    | some true => return (none, s)
    | some false =>
      let (rest, s) ← simplifyLits env s ls
      return (rest.map fun p => (p.1, true), s)
    | none =>
      let (rest, s) ← simplifyLits env s ls
      return (rest.map fun p => (l :: p.1, p.2), s)

/-- `simplify_variable_clause_with_concrete_facts` (checker.rs:1334-1373). -/
def simplifyVariable (env : CheckEnv) (s : Checker) (c : Clause) : Out (Option Clause × Checker) := do
  let (r, s) ← simplifyLits env s c.lits
  match r with
  | some (ls, true) =>
    let d ← Out.ofOption (Clause.new ls c.ctx)
    return (some d, s)
  | _ => return (none, s)

/-- The loops over resolutions, factorings and injectivities in `insert_clause_internal`
(checker.rs:532-547, 564-577, 579-592): normalize, skip refused and tautological results, insert. -/
def insertFound (env : CheckEnv) (ins : Checker → Clause → StepReason → Out Checker)
    (reason : StepReason) : Checker → List (List Literal × LCtx) → Out Checker
  | s, [] => .done s
  | s, (ls, Γ) :: rest =>
    match normFound env s ls Γ with
    | none => insertFound env ins reason s rest
    | some d =>
      if d.isTautology then insertFound env ins reason s rest
      else do
        let s ← ins s d reason
        insertFound env ins reason s rest

/-- The test for work already done (checker.rs:472-484, 635-647). -/
def seen (s : Checker) (c : Clause) : Bool :=
  if c.hasAnyVar then decide (s.generations.get? c = some s.generation) else s.exact.contains c

/-- Recording a clause (checker.rs:480-490, 643-652). -/
def record (s : Checker) (c : Clause) (reason : StepReason) : Checker :=
  { s with
    generations := if c.hasAnyVar then s.generations.insert c s.generation else s.generations
    exact := if s.exact.contains c then s.exact else s.exact.insert c s.reasons.length
    reasons := s.reasons ++ [reason]
    inserted := s.inserted ++ [c] }

/-- `not exists(x: T) { true }` for a type known to be inhabited is a contradiction
(checker.rs:496-501, 654-659). -/
def noteEmpty (s : Checker) (c : Clause) : Checker :=
  match emptyType c with
  | some key => if s.inhabited.contains key then { s with contra := true } else s
  | none => s

/-- `has_negated_exists_true_for` (checker.rs:257-261). -/
def knownEmpty (s : Checker) (key : Term × LCtx) : Bool :=
  s.exact.keys.any fun c => decide (emptyType c = some key)

/-- An inhabited type known to be empty is a contradiction (checker.rs:503-511, 660-665).  The first
component: was a new type marked as inhabited? -/
def noteInhabited (K : KCtx) (s : Checker) (c : Clause) : Out (Bool × Checker) := do
  let (key, s) ← markInhabited K s c
  match key with
  | none => return (false, s)
  | some key => return (true, if knownEmpty s key then { s with contra := true } else s)

/-- `should_reprocess_for_inhabitedness` (checker.rs:492-495). -/
def _root_.Acorn.StepReason.reprocesses : StepReason → Bool
  | .previousClaim | .witnessDeclaration | .testing => true
  | _ => false

/-- The part of `insert_clause_internal` for clauses with variables (checker.rs:513-556). -/
def insertVariable (env : CheckEnv) (ins : Checker → Clause → StepReason → Out Checker) (s : Checker)
    (c : Clause) (step : Nat) : Out Checker := do
  let (r, s) ← simplifyVariable env s c
  let s ← match r with
    | some d => ins s d .variableSimplification
    | none => .done s
  let fs ← Out.ofOption (findResolutions env.K env.fuel c)
  let s ← insertFound env ins (.equalityResolution step) s (fs.map fun f => (f.lits, f.ctx))
  match c.findExtensionality env.K env.vp with
  | none => return s
  | some (ls, _) =>
    let d ← Out.ofOption (Clause.new ls c.ctx)
    ins s d (.extensionality step)

/-- The part of `insert_clause_internal` for clauses without variables (checker.rs:557-562). -/
def insertConcrete (env : CheckEnv) (s : Checker) (c : Clause) (step : Nat) : Out Checker := do
  let g ← s.graph.insertClause env.ω env.fuel c.lits step
  return { s with generation := s.generation + 1, graph := g }

/-- The end of `insert_clause_internal` (checker.rs:564-592): factorings, injectivities. -/
def insertDerived (env : CheckEnv) (ins : Checker → Clause → StepReason → Out Checker) (s : Checker)
    (c : Clause) (step : Nat) : Out Checker := do
  let fs ← Out.ofOption (findFactorings env.K env.fuel c)
  let s ← insertFound env ins (.equalityFactoring step) s (fs.map fun f => (f.lits, f.ctx))
  let is ← Out.ofOption (findInjectivities c.lits)
  insertFound env ins (.injectivity step) s (is.map fun ls => (ls, c.ctx))

/-- The conditional reprocessing of `insert_clause_internal` (checker.rs:457-597). -/
def reprocessIf (env : CheckEnv) (ins : Checker → Clause → StepReason → Out Checker) (s : Checker)
    (b : Bool) : Out Checker :=
  if b then reprocess env ins s else .done s

/-- The two cases of `insert_clause_internal` (checker.rs:457-597): with or without variables. -/
def insertClass (env : CheckEnv) (ins : Checker → Clause → StepReason → Out Checker) (s : Checker)
    (c : Clause) (step : Nat) : Out Checker :=
  if c.hasAnyVar then insertVariable env ins s c step else insertConcrete env s c step

/-- `insert_clause_internal` (checker.rs:457-597).  The first number bounds the depth of the recursion,
which need not terminate. -/
def insertInternal (env : CheckEnv) : Nat → Checker → Clause → StepReason → Out Checker
  | 0, _, _, _ => .more
  | n + 1, s, c, reason =>
    if c.isImpossible then .done { s with contra := true }
    else if s.seen c then .done s
    else do
      let step := s.reasons.length
      let (new, s) ← noteInhabited env.K ((s.record c reason).noteEmpty c) c
      let s ← reprocessIf env (insertInternal env n) s (new && reason.reprocesses && s.eager)
      let s ← insertClass env (insertInternal env n) s c step
      let s ← insertDerived env (insertInternal env n) s c step
      if s.eager then reduceBool env (insertInternal env n) s c step else return s

/-- `normalize_clause_subterms(clause).normalized()`, at the start of the entry points. -/
def normal (env : CheckEnv) (c : Clause) : Out Clause := do
  let d ← Out.ofOption (c.normalizeSubterms env.fuel)
  Out.ofOption (Clause.new d.lits d.ctx)

/-- `insert_clause` (checker.rs:600-608). -/
def insert (env : CheckEnv) (s : Checker) (c : Clause) (reason : StepReason) : Out Checker := do
  let d ← normal env c
  insertInternal env env.fuel s d reason

/-- `insert_normalized_clause` (checker.rs:675-687). -/
def insertNormalized (env : CheckEnv) (s : Checker) (c : Clause) (reason : StepReason) : Out Checker :=
  insertInternal env env.fuel s c reason

/-- `insert_clause_shallow_for_trace` (checker.rs:620-672). -/
def insertShallow (env : CheckEnv) (s : Checker) (c : Clause) (reason : StepReason) : Out Checker :=
  if c.isImpossible then .done { s with contra := true }
  else if s.seen c then .done s
  else do
    let step := s.reasons.length
    let (_, s) ← noteInhabited env.K ((s.record c reason).noteEmpty c) c
    if c.hasAnyVar then return s else insertConcrete env s c step

/-- `insert_clause_for_trace` (checker.rs:610-618). -/
def insertTrace (env : CheckEnv) (s : Checker) (c : Clause) (reason : StepReason) : Out Checker := do
  let d ← normal env c
  insertShallow env s d reason

/-- `set_eager_boolean_reductions` (checker.rs:196-198). -/
def setEager (s : Checker) (b : Bool) : Checker := { s with eager := b }

/-- `enable_eager_boolean_reductions` (checker.rs:200-203). -/
def enableEager (env : CheckEnv) (s : Checker) : Out Checker :=
  reprocess env (insertInternal env env.fuel) { s with eager := true }

/-- `check_clause_direct` (checker.rs:691-719). -/
def checkDirect (env : CheckEnv) (s : Checker) (c : Clause) : Out (Option StepReason × Checker) :=
  if s.hasContradiction then .done (some .contradiction, s)
  else do
    let (b, g) ← s.graph.checkClause env.ω env.fuel c.lits
    let s := { s with graph := g }
    if b then return (some .equalityGraph, s)
    else
      match s.exact.get? c with
      | some step => do
        let r ← Out.ofOption s.reasons[step]?
        return (some r, s)
      | none => return (none, s)

/-- `check_clause_via_concrete_simplification` (checker.rs:1310-1332). -/
def checkConcrete (env : CheckEnv) (s : Checker) (c : Clause) : Out (Option StepReason × Checker) := do
  let (r, s) ← simplifyLits env s c.lits
  match r with
  | none => return (some .equalityGraph, s)
  | some (ls, changed) =>
    if !changed || ls.isEmpty then return (none, s)
    else do
      let d ← Out.ofOption (Clause.new ls c.ctx)
      checkDirect env s d

/-- One reduction set in `check_clause_via_boolean_reductions_inner` (checker.rs:1193-1216): are all its
clauses known?  `check` is the recursive call.  Returns the reasons; `first_reason` is the first one. -/
def checkSet (env : CheckEnv)
    (check : Checker → Clause → List Clause → Out (Option StepReason × List Clause × Checker)) :
    Checker → List Clause → List Clause → Out (Option (List StepReason) × Checker)
  | s, _, [] => .done (some [], s)
  | s, seen, d :: ds => do
    let (r, s) ← checkDirect env s d
    match r with
    | some r =>
      let (rest, s) ← checkSet env check s seen ds
      return (rest.map (r :: ·), s)
    | none =>
      let (r, seen, s) ← check s d seen
      match r with
      | some r =>
        let (rest, s) ← checkSet env check s seen ds
        return (rest.map (r :: ·), s)
      | none => return (none, s)

/-- The loop over the reduction sets (checker.rs:1193-1222). -/
def checkSets (env : CheckEnv)
    (check : Checker → Clause → List Clause → Out (Option StepReason × List Clause × Checker)) :
    Checker → List Clause → List (List Clause) → Out (Option StepReason × Checker)
  | s, _, [] => .done (none, s)
  | s, seen, d :: ds => do
    let (r, s) ← checkSet env check s seen d
    match r with
    | some rs => return (some (rs.head?.getD .equalityGraph), s)
    | none => checkSets env check s seen ds

/-- `check_clause_via_boolean_reductions_inner` (checker.rs:1183-1225); the middle component is `seen`. -/
def checkReductions (env : CheckEnv) :
    Nat → Checker → Clause → List Clause → Out (Option StepReason × List Clause × Checker)
  | 0, _, _, _ => .more
  | n + 1, s, c, seen =>
    if c.hasAnyVar || seen.contains c then .done (none, seen, s)
    else do
      let sets ← reductionSets env s c
      let (r, s) ← checkSets env (checkReductions env n) s (c :: seen) sets
      return (r, c :: seen, s)

/-- `check_clause_via_boolean_reductions` (checker.rs:1085-1092). -/
def checkBool (env : CheckEnv) (s : Checker) (c : Clause) : Out (Option StepReason × Checker) := do
  let (r, _, s) ← checkReductions env env.fuel s c []
  return (r, s)

/-- `Option::or_else` for checks that change the state. -/
def orElse (x : Out (Option StepReason × Checker))
    (f : Checker → Out (Option StepReason × Checker)) : Out (Option StepReason × Checker) := do
  let (r, s) ← x
  match r with
  | some r => return (some r, s)
  | none => f s

/-- `check_clause` (checker.rs:1229-1238). -/
def check (env : CheckEnv) (s : Checker) (c : Clause) : Out (Option StepReason × Checker) := do
  let d ← normal env c
  orElse (orElse (checkDirect env s d) fun s => checkBool env s d) fun s => checkConcrete env s d

/-- `check_clause_direct_for_trace` (checker.rs:721-732). -/
def checkTrace (env : CheckEnv) (s : Checker) (c : Clause) : Out (Option StepReason × Checker) := do
  let d ← normal env c
  if d.isTautology then return (some .equalityGraph, s)
  else orElse (checkDirect env s d) fun s => checkConcrete env s d

end Checker
end Acorn
