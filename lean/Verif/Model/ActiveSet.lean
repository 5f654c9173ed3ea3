/-
The active set: the clauses the prover has processed, the clauses it derives from them, and the
simplification of new clauses by known literals.  Models /repo/src/prover/active_set.rs, parts of
/repo/src/kernel/proof_step.rs, and the main loop of /repo/src/prover/prover.rs (lines 758-970).

`none` is a panic, or not enough fuel for a recursion of a called function.
-/
import Verif.Model.PassiveSet
import Verif.Model.Checker
import Verif.Model.Resolution
import Verif.Model.VariableMap
import Verif.Model.Path
namespace Acorn
namespace Active
open Passive (Step)

/-- `Truthiness` (proof_step.rs:38-51). -/
inductive Truthiness
  | factual | hypothetical | counterfactual
  deriving DecidableEq, Repr

/-- `Truthiness::combine` (proof_step.rs:53-64). -/
def Truthiness.combine : Truthiness → Truthiness → Truthiness
  | .counterfactual, _ => .counterfactual
  | _, .counterfactual => .counterfactual
  | .hypothetical, _ => .hypothetical
  | _, .hypothetical => .hypothetical
  | .factual, .factual => .factual

/-- Which rule made a step: the constructors of `Rule` (proof_step.rs) that the active set uses. -/
inductive RuleName
  | equalityResolution | equalityFactoring | injectivity | booleanReduction | extensionality
  | resolution | rewrite | simplification
  deriving DecidableEq, Repr

/-- The fields of `ProofStep` (proof_step.rs:384-414) next to the clause: the truthiness, whether the rule is
`Rewrite`, the proof size and the depth.  `rest` is what only reaches the scorer and the proof (shallow
status and origin, premises and variable maps). -/
structure Info (R : Type) where
  truth : Truthiness
  rewrite : Bool
  size : Nat
  depth : Nat
  rest : R

/-- `ResolutionTarget` (active_set.rs:84-95). -/
structure Target where
  step : Nat
  literal : Nat
  left : Bool
  deriving DecidableEq, Repr

/-- `SubtermInfo` and `SubtermLocation` (active_set.rs:98-130): the subterm, its places (the step, the side,
the path), the patterns that rewrite it (the step and the direction; the term and context kept with them
are computed again whenever they are used), and the step it was first seen in. -/
structure Subterm where
  term : Term
  places : List (Nat × Bool × List PathStep)
  rewrites : List (Nat × Bool)
  inspiration : Nat

/-- What the active set is given. -/
structure Env (R : Type) where
  /-- The kernel context, for types. -/
  K : KCtx
  /-- Bound for the recursions of the called functions. -/
  fuel : Nat
  /-- Iteration order of the hash maps of the equality graph. -/
  ω : HashOrder
  /-- The registered instance aliases. -/
  aliases : Aliases
  /-- Which constants have value parameters recorded (clause.rs:800-834). -/
  vp : Symbol → Bool
  /-- `provably_inhabited_without_local_elements` (active_set.rs:296-302). -/
  inh : LCtx → Term → Bool
  /-- `find_inhabitant` (kernel_context.rs:376-382). -/
  find : LCtx → Term → Option Term
  /-- `type_needs_explicit_inhabitance_source` (active_set.rs:334-349). -/
  needsSource : LCtx → Term → Bool
  /-- `open_positive_exists` of the registry of witnesses (active_set.rs:1192-1200), for the existential clause
  with the given number. -/
  opened : Nat → Clause → Option Trace
  /-- Which of the indexed patterns the rewrite tree returns for a term (`get_rewrites`,
  /repo/src/prover/rewrite_tree.rs).  The tree is not modelled: any selection. -/
  selects : Nat × Bool → Term → Bool
  /-- The rest of a new step, from the rule, the premises with their numbers, and the clause. -/
  rest : RuleName → List (Nat × Step (Info R)) → Clause → R

/-- `ActiveSet` (active_set.rs:46-82).  `subterm_map` is a search in `subterms`; `patterns` is the content of
`rewrite_tree`. -/
structure ActiveSet (R : Type) where
  steps : List (Step (Info R)) := []
  long : List Clause := []
  literals : Pdt.Tree Pdt.Entry := Pdt.Tree.empty
  positive : Fingerprint.Trees (List Fingerprint.Component) Target := .empty
  negative : Fingerprint.Trees (List Fingerprint.Component) Target := .empty
  graph : EGraph := EGraph.empty
  subterms : List Subterm := []
  subtermIndex : Fingerprint.Trees (List Fingerprint.Component) Nat := .empty
  patterns : List Nat := []
  inhabited : AMap (Term × LCtx) Nat := .empty

variable {R : Type}

/-- `ActiveSet::new` (active_set.rs:244-258). -/
def ActiveSet.new : ActiveSet R := {}

/-! ### Making steps -/

/-- A new step (proof_step.rs: `new_with_normalized_clause`). -/
def newStep (E : Env R) (rule : RuleName) (premises : List (Nat × Step (Info R))) (t : Truthiness) (size depth : Nat)
    (c : Clause) : Step (Info R) :=
  ⟨c, false, false, ⟨t, decide (rule = .rewrite), size, depth, E.rest rule premises c⟩⟩

/-- `ProofStep::direct` (proof_step.rs:862-881). -/
def direct (E : Env R) (rule : RuleName) (id : Nat) (s : Step (Info R)) (c : Clause) : Step (Info R) :=
  newStep E rule [(id, s)] s.info.truth (s.info.size + 1) s.info.depth c

/-- `ProofStep::direct_with_extra_dependencies` (proof_step.rs:883-915). -/
def directWith (E : Env R) (rule : RuleName) (id : Nat) (s : Step (Info R)) (extra : List (Nat × Step (Info R)))
    (c : Clause) : Step (Info R) :=
  newStep E rule ((id, s) :: extra)
    (extra.foldl (fun t x => t.combine x.2.info.truth) s.info.truth)
    (extra.foldl (fun n x => n + x.2.info.size) (s.info.size + 1))
    (extra.foldl (fun n x => max n x.2.info.depth) s.info.depth) c

/-- `boolean_reduction_is_sound` (active_set.rs:304-325): the dropped variables have inhabited types. -/
def dropsInhabited (E : Env R) (t : Trace) : Bool :=
  (List.range t.preCtx.length).all fun i =>
    t.varIds.contains i ||
      match t.preCtx.get i with
      | none => true
      | some T => E.inh t.preCtx T

/-- `VariableMap::from_var_ids`: the variable with the `j`-th id becomes the variable `j`. -/
def VMap.ofIds (ids : List Nat) : VMap :=
  (ids.zip (List.range ids.length)).foldl (fun m p => setSlot m p.1 (.fvar p.2)) []

/-- The loop of `witness_map_for_eliminated_vars` (active_set.rs:487-498): are witnesses found?  `m` maps to
the variables of the normalized clause. -/
def witnessLoop (E : Env R) (Γ Δ : LCtx) (ids : List Nat) : List Nat → VMap → Bool
  | [], _ => true
  | i :: is, m =>
    if ids.contains i then witnessLoop E Γ Δ ids is m
    else
      match Γ.get i with
      | none => false
      | some T =>
        match E.find Δ (m.apply T) with
        | none => false
        | some w => witnessLoop E Γ Δ ids is (setSlot m i w)

/-- `witness_map_for_eliminated_vars` (active_set.rs:477-501): does it return a map?  The context of the
normalized clause is that of the clause. -/
def witnessed (E : Env R) (t : Trace) : Bool :=
  witnessLoop E t.preCtx t.clause.ctx t.varIds (List.range t.preCtx.length) (VMap.ofIds t.varIds)

/-- `clause_is_well_typed` (active_set.rs:278-286). -/
def wellTyped (K : KCtx) (c : Clause) : Bool :=
  c.lits.all fun l =>
    match l.left.checkedType K c.ctx, l.right.checkedType K c.ctx with
    | some T, some U => decide (T = U)
    | _, _ => false

/-! ### Inferences from one clause -/

/-- `equality_resolution` (active_set.rs:1068-1110). -/
def equalityResolution (E : Env R) (id : Nat) (s : Step (Info R)) : Option (List (Step (Info R))) := do
  let fs ← findResolutions E.K E.fuel s.clause
  let ts ← fs.mapM fun f => Clause.normalizeWithTrace ⟨f.lits, f.ctx⟩
  return (ts.filter fun t => dropsInhabited E t && !t.clause.isTautology).map fun t =>
    direct E .equalityResolution id s t.clause

/-- `equality_factoring` (active_set.rs:1273-1306). -/
def equalityFactoring (E : Env R) (id : Nat) (s : Step (Info R)) : Option (List (Step (Info R))) := do
  let fs ← findFactorings E.K E.fuel s.clause
  let ts ← fs.mapM fun f => Clause.normalizeWithTrace ⟨f.lits, f.ctx⟩
  return (ts.filter (dropsInhabited E)).map fun t => direct E .equalityFactoring id s t.clause

/-- `injectivity` (active_set.rs:1118-1155). -/
def injectivity (E : Env R) (id : Nat) (s : Step (Info R)) : Option (List (Step (Info R))) := do
  let rs ← findInjectivities s.clause.lits
  let ts ← rs.mapM fun ls => Clause.normalizeWithTrace ⟨ls, s.clause.ctx⟩
  return (ts.filter (dropsInhabited E)).map fun t => direct E .injectivity id s t.clause

/-- `extensionality` (active_set.rs:1234-1262). -/
def extensionality (E : Env R) (id : Nat) (s : Step (Info R)) : Option (List (Step (Info R))) :=
  match s.clause.findExtensionality E.K E.vp with
  | none => some []
  | some (ls, _) => do
    let t ← Clause.normalizeWithTrace ⟨ls, s.clause.ctx⟩
    return [direct E .extensionality id s t.clause]

/-! ### Boolean reduction -/

/-- One round of the loop of `inhabitance_sources_for_reduction` (active_set.rs:369-401).  Inner `none`: the
reduction is rejected. -/
def sourceRound (E : Env R) (inhabited : AMap (Term × LCtx) Nat) (extra : Option ((Term × LCtx) × Nat)) (t : Trace)
    (ids : List Nat) (i : Nat) : Option (Option (List Nat)) :=
  if t.varIds.contains i then some (some ids)
  else
    match t.preCtx.get i with
    | none => some (some ids)
    | some T =>
      match Checker.typeKey T t.preCtx with
      | none => none
      | some key =>
        match (extra.bind fun x => if x.1 = key then some x.2 else none).or (inhabited.get? key) with
        | some id => some (some (if ids.contains id then ids else ids ++ [id]))
        | none => some (if E.needsSource t.preCtx T || !E.inh t.preCtx T then none else some ids)

/-- The loop of `inhabitance_sources_for_reduction` (active_set.rs:362-403). -/
def sources (E : Env R) (inhabited : AMap (Term × LCtx) Nat) (extra : Option ((Term × LCtx) × Nat)) (t : Trace) :
    List Nat → List Nat → Option (Option (List Nat))
  | ids, [] => some (some ids)
  | ids, i :: is =>
    match sourceRound E inhabited extra t ids i with
    | none => none
    | some none => some none
    | some (some ids) => sources E inhabited extra t ids is

/-- The step with a number, also if it is the one being activated (active_set.rs:444-456). -/
def stepOf (a : ActiveSet R) (extra : Option ((Term × LCtx) × Nat × Step (Info R))) (id : Nat) :
    Option (Nat × Step (Info R)) :=
  match extra with
  | some (_, x, s) => if id = x then some (id, s) else (a.steps[id]?).map fun s => (id, s)
  | none => (a.steps[id]?).map fun s => (id, s)

/-- One round of the loop of `boolean_reduction_steps_for_source` (active_set.rs:415-471). -/
def reductionStep (E : Env R) (a : ActiveSet R) (id : Nat) (s : Step (Info R))
    (extra : Option ((Term × LCtx) × Nat × Step (Info R))) (t : Trace) : Option (List (Step (Info R))) := do
  let ids ← sources E a.inhabited (extra.map fun x => (x.1, x.2.1)) t [] (List.range t.preCtx.length)
  match ids with
  | none => return []
  | some ids => do
    let more ← (ids.filter fun i => i ≠ id).mapM (stepOf a extra)
    return [directWith E .booleanReduction id s more t.clause]

/-- `boolean_reduction_steps_for_source` (active_set.rs:405-475). -/
def reductionSteps (E : Env R) (a : ActiveSet R) (id : Nat) (s : Step (Info R))
    (extra : Option ((Term × LCtx) × Nat × Step (Info R))) : Option (List (Step (Info R))) := do
  let rs ← s.clause.findBoolReductions E.fuel E.K
  let steps ← rs.mapM fun r => reductionStep E a id s extra r.2.2
  return steps.flatten

/-- `inhabited_type_from_step` (active_set.rs:351-360). -/
def stepType (E : Env R) (s : Step (Info R)) : Option (Option (Term × LCtx)) :=
  match Checker.existsType E.K s.clause with
  | none => none
  | some none => some none
  | some (some A) => (Checker.typeKey A s.clause.ctx).map some

/-- The last part of `boolean_reduction` (active_set.rs:1190-1226): an existential clause is opened with a
named witness. -/
def openExistsStep (E : Env R) (id : Nat) (s : Step (Info R)) : Option (List (Step (Info R))) :=
  match Checker.existsType E.K s.clause with
  | none => none
  | some none => some []
  | some (some _) =>
    match E.opened id s.clause with
    | none => none
    | some t => some (if dropsInhabited E t then [direct E .booleanReduction id s t.clause] else [])

/-- `boolean_reduction` (active_set.rs:1158-1230). -/
def booleanReduction (E : Env R) (a : ActiveSet R) (id : Nat) (s : Step (Info R)) :
    Option (List (Step (Info R))) := do
  let own ← reductionSteps E a id s none
  let others ← match ← stepType E s with
    | none => some []
    | some key =>
      (((List.range a.steps.length).zip a.steps).mapM fun x =>
        reductionSteps E a x.1 x.2 (some (key, id, s))).map List.flatten
  let opened ← openExistsStep E id s
  return own ++ others ++ opened

/-! ### Resolution -/

/-- A unifier whose left scope (1) and right scope (2) are two clauses (active_set.rs:632-634). -/
def pairUnifier (Γ Δ : LCtx) : UState :=
  Unifier.init fun s => if s = 1 then some Γ else if s = 2 then some Δ else none

/-- `apply` to the sides of several literals of the right scope (active_set.rs:655-663). -/
def applyRight (n : Nat) : UState → List Literal → Option (List Literal × UState)
  | st, [] => some ([], st)
  | st, l :: ls =>
    match Unifier.applyLit n st 2 l with
    | none => none
    | some (l', st1) =>
      match applyRight n st1 ls with
      | none => none
      | some (ls', st2) => some (l' :: ls', st2)

/-- Has the clause a variable? -/
def hasVars (c : Clause) : Bool := c.lits.any Literal.hasAnyVar

/-- The filters before the unification (active_set.rs:603-630). -/
def worthTrying (short : Clause) (i : Nat) (long : Clause) (j : Nat) : Bool :=
  (decide (short.lits.length ≤ 1) ||
    (decide (short.lits.length = 2) && decide (long.lits.length = 2) && !hasVars short && !hasVars long)) &&
  (short.lits.eraseIdx i).all fun l =>
    !l.hasAnyVar &&
      match long.lits.findIdx? (fun k => decide (k = l)) with
      | some k => decide (k ≠ j)
      | none => false

/-- The unification and the new clause (active_set.rs:632-694).  Inner `none`: no resolution. -/
def resolve (E : Env R) (short : Clause) (i : Nat) (long : Clause) (j : Nat) (flipped : Bool) :
    Option (Option Clause) :=
  match short.lits[i]?, long.lits[j]? with
  | some l, some k =>
    let (c, d) := if flipped then (k.right, k.left) else (k.left, k.right)
    match Unifier.unify E.K E.fuel (pairUnifier short.ctx long.ctx) 1 l.left 2 c with
    | none => none
    | some (false, _) => some none
    | some (true, st) =>
      match Unifier.unify E.K E.fuel st 1 l.right 2 d with
      | none => none
      | some (false, _) => some none
      | some (true, st) =>
        match applyRight E.fuel st (long.lits.eraseIdx j) with
        | none => none
        | some (ls, st) =>
          match Clause.normalizeWithTrace ⟨ls, st.out⟩ with
          | none => none
          | some t => some (if witnessed E t && wellTyped E.K t.clause then some t.clause else none)
  | _, _ => none

/-- Does the clause contain the other as a set of literals (`Clause::contains`)? -/
def contains (c d : Clause) : Bool := d.lits.all fun l => c.lits.contains l

/-- `ProofStep::resolution` (proof_step.rs:965-1021). -/
def resolutionStep (E : Env R) (longId : Nat) (long : Step (Info R)) (shortId : Nat) (short : Step (Info R))
    (c : Clause) : Step (Info R) :=
  newStep E .resolution [(longId, long), (shortId, short)] (short.info.truth.combine long.info.truth)
    (short.info.size + long.info.size + 1)
    (if long.info.depth ≤ short.info.depth then
      if contains long.clause c then short.info.depth else short.info.depth + 1
    else long.info.depth) c

/-- `try_resolution` (active_set.rs:574-718). -/
def tryResolution (E : Env R) (posId : Nat) (pos : Step (Info R)) (i : Nat) (negId : Nat) (neg : Step (Info R))
    (j : Nat) (flipped : Bool) : Option (Option (Step (Info R))) :=
  match pos.clause.lits[i]?, neg.clause.lits[j]? with
  | some l, some k =>
    if !l.positive || k.positive then none
    else if pos.clause.lits.length < neg.clause.lits.length then
      if worthTrying pos.clause i neg.clause j then
        (resolve E pos.clause i neg.clause j flipped).map (Option.map (resolutionStep E negId neg posId pos))
      else some none
    else
      if worthTrying neg.clause j pos.clause i then
        (resolve E neg.clause j pos.clause i flipped).map (Option.map (resolutionStep E posId pos negId neg))
      else some none
  | _, _ => none

/-- The resolutions of the literal with index `i` of the new step with one target
(active_set.rs:520-566). -/
def resolveTarget (E : Env R) (a : ActiveSet R) (s : Step (Info R)) (i : Nat) (l : Literal) (x : Target) :
    Option (Option (Step (Info R))) :=
  match a.steps[x.step]? with
  | none => none
  | some old =>
    if s.info.truth = .factual ∧ old.info.truth = .factual then some none
    else if l.positive then tryResolution E a.steps.length s i x.step old x.literal (!x.left)
    else tryResolution E x.step old x.literal a.steps.length s i (!x.left)

/-- `find_resolutions` (active_set.rs:505-568) for one literal of the new step. -/
def literalResolutions (E : Env R) (a : ActiveSet R) (s : Step (Info R)) (i : Nat) (l : Literal) :
    Option (List (Step (Info R))) := do
  let xs ← Fingerprint.findUnifying E.K (if l.positive then a.negative else a.positive) s.clause.ctx l.left
  let found ← xs.mapM (resolveTarget E a s i l)
  return found.filterMap id

/-- `find_resolutions` (active_set.rs:505-568). -/
def findAllResolutions (E : Env R) (a : ActiveSet R) (s : Step (Info R)) : Option (List (Step (Info R))) := do
  let l ← ((List.range s.clause.lits.length).zip s.clause.lits).mapM fun x => literalResolutions E a s x.1 x.2
  return l.flatten

/-! ### Rewriting -/

/-- `rewrite_preserves_subterm_type` (active_set.rs:260-271). -/
def sameType (K : KCtx) (u t : Term) (Γ : LCtx) : Bool :=
  match u.checkedType K [], t.checkedType K Γ with
  | some T, some U => decide (T = U)
  | _, _ => false

/-- The pattern `s -> t` over `Γ` applied to the concrete term `u` (active_set.rs:868-899, 972-992): the new
term and its context.  Inner `none`: it does not apply. -/
def rewriteTerm (E : Env R) (Γ : LCtx) (s t u : Term) : Option (Option (Term × LCtx)) :=
  match Unifier.unify E.K E.fuel (pairUnifier Γ []) 1 s 2 u with
  | none => none
  | some (false, _) => some none
  | some (true, st) =>
    match Unifier.apply E.fuel st 1 t with
    | none => none
    | some (t', st) => some (if sameType E.K u t' st.out then some (t', st.out) else none)

/-- The context of the rewritten literal (proof_step.rs:1069-1078). -/
def joinCtx (Γ Δ : LCtx) : LCtx :=
  (List.range Δ.length).foldl (fun out i =>
    match Δ.get i with
    | none => out
    | some T => setSlot out i T) Γ

/-- `Literal::replace_at_path` (/repo/src/kernel/literal.rs:370-389). -/
def replaceSide (l : Literal) (left : Bool) (p : List PathStep) (t : Term) : Option Literal :=
  if left then (l.left.replaceAt p t).map fun x => Literal.new l.positive x l.right
  else (l.right.replaceAt p t).map fun x => Literal.new l.positive l.left x

/-- `Literal::extended_kbo_cmp` (literal.rs:219-225): is the first smaller? -/
def smaller (a b : Literal) : Bool := (a.left.extCmp b.left).then (a.right.extCmp b.right) == .lt

/-- `ProofStep::rewrite` (proof_step.rs:1029-1115). -/
def rewriteStep (E : Env R) (patternId : Nat) (pattern : Step (Info R)) (targetId : Nat) (target : Step (Info R))
    (left : Bool) (p : List PathStep) (new : Term) (Δ : LCtx) : Option (Step (Info R)) :=
  match target.clause.lits with
  | [l] => do
    let l1 ← replaceSide l left p new
    let l2 := Literal.new l1.positive (E.aliases.canon l1.left) (E.aliases.canon l1.right)
    let t ← Clause.normalizeWithTrace ⟨[l2], joinCtx target.clause.ctx Δ⟩
    return newStep E .rewrite [(patternId, pattern), (targetId, target)]
      (pattern.info.truth.combine target.info.truth) (pattern.info.size + target.info.size + 1)
      (if smaller l2 l then max pattern.info.depth target.info.depth
        else max pattern.info.depth target.info.depth + 1) t.clause
  | _ => none

/-- `both_term_pairs` (literal.rs:140-145). -/
def bothPairs (l : Literal) : List (Bool × Term × Term) := [(true, l.left, l.right), (false, l.right, l.left)]

/-- The sides of a pattern, in a direction (active_set.rs:861-866). -/
def patternSides (l : Literal) (forwards : Bool) : Term × Term :=
  if forwards then (l.left, l.right) else (l.right, l.left)

/-- `add_to_term_graph` for a rewrite of concrete terms (active_set.rs:925-939, 1036-1050). -/
def graphEqual (E : Env R) (g : EGraph) (u t : Term) (patternId target : Nat) (forwards : Bool) :
    Option EGraph :=
  match EGraph.insertTerm E.ω E.fuel u g with
  | .done (i, g) =>
    match EGraph.insertTerm E.ω E.fuel t g with
    | .done (j, g) =>
      match EGraph.setTermsEqual E.ω E.fuel g (if forwards then i else j) (if forwards then j else i) patternId
          (some target) with
      | .done g => some g
      | _ => none
    | _ => none
  | _ => none

/-- One rewrite of a subterm of a new target (active_set.rs:844-942): the new step, if any, and the graph. -/
def applyRewrite (E : Env R) (a : ActiveSet R) (id : Nat) (s : Step (Info R)) (left : Bool) (p : List PathStep)
    (u : Term) (x : Nat × Bool) (g : EGraph) : Option (Option (Step (Info R)) × EGraph) :=
  if id = x.1 then some (none, g)
  else
    match a.steps[x.1]? with
    | none => none
    | some pattern =>
      if s.info.truth = .factual ∧ pattern.info.truth = .factual then some (none, g)
      else
        match pattern.clause.lits with
        | [] => none
        | l :: _ => do
          match ← rewriteTerm E pattern.clause.ctx (patternSides l x.2).1 (patternSides l x.2).2 u with
          | none => return (none, g)
          | some (t, Δ) => do
            let n ← rewriteStep E x.1 pattern id s left p t Δ
            if wellTyped E.K n.clause then
              if t.hasAnyVar then return (some n, g)
              else do
                let g ← graphEqual E g u t x.1 id x.2
                return (some n, g)
            else return (none, g)

/-- All rewrites of a subterm (active_set.rs:842-942). -/
def applyRewrites (E : Env R) (a : ActiveSet R) (id : Nat) (s : Step (Info R)) (left : Bool) (p : List PathStep)
    (u : Term) : List (Nat × Bool) → EGraph → Option (List (Step (Info R)) × EGraph)
  | [], g => some ([], g)
  | x :: xs, g => do
    let (n, g) ← applyRewrite E a id s left p u x g
    let (ns, g) ← applyRewrites E a id s left p u xs g
    return (n.toList ++ ns, g)

/-- The patterns for a new subterm (`get_rewrites`). -/
def selected (E : Env R) (a : ActiveSet R) (u : Term) : List (Nat × Bool) :=
  (a.patterns.flatMap fun i => [(i, true), (i, false)]).filter fun x => E.selects x u

/-- The entry of a subterm, made if it is new (active_set.rs:753-840). -/
def enterSubterm (E : Env R) (a : ActiveSet R) (id : Nat) (u : Term) : Option (Nat × ActiveSet R) :=
  match a.subterms.findIdx? fun x => decide (x.term = u) with
  | some k => some (k, a)
  | none => do
    let ix ← Fingerprint.insertTerm E.K a.subtermIndex [] u a.subterms.length
    return (a.subterms.length, { a with
      subterms := a.subterms ++ [⟨u, [], selected E a u, id⟩]
      subtermIndex := ix })

/-- The loop over the subterms of one side (active_set.rs:736-950). -/
def targetSubterms (E : Env R) (id : Nat) (s : Step (Info R)) (left : Bool) :
    List (List PathStep × Term) → ActiveSet R → Option (List (Step (Info R)) × ActiveSet R)
  | [], a => some ([], a)
  | (p, u) :: rest, a => do
    let T ← u.getType E.K []
    if T.hasBound then targetSubterms E id s left rest a
    else do
      let (k, a) ← enterSubterm E a id u
      let sub ← a.subterms[k]?
      let (ns, g) ← applyRewrites E a id s left p u sub.rewrites a.graph
      let a := { a with
        graph := g
        subterms := a.subterms.set k { sub with places := sub.places ++ [(id, left, p)] } }
      let (ms, a) ← targetSubterms E id s left rest a
      return (ns ++ ms, a)

/-- `activate_rewrite_target` (active_set.rs:724-952). -/
def rewriteTarget (E : Env R) (a : ActiveSet R) (id : Nat) (s : Step (Info R)) (l : Literal) :
    Option (List (Step (Info R)) × ActiveSet R) := do
  let us ← l.left.rewritableSubterms
  let (ns, a) ← targetSubterms E id s true us a
  let vs ← l.right.rewritableSubterms
  let (ms, a) ← targetSubterms E id s false vs a
  return (ns ++ ms, a)

/-- The rewrite of one place with a new pattern (active_set.rs:1001-1033). -/
def rewritePlace (E : Env R) (a : ActiveSet R) (id : Nat) (s : Step (Info R)) (t : Term) (Δ : LCtx)
    (x : Nat × Bool × List PathStep) : Option (Option (Step (Info R))) :=
  if x.1 = id then some none
  else
    -- The place may be in the step that is being activated.
    match a.steps[x.1]? with
    | none => none
    | some target =>
      if s.info.truth = .factual ∧ target.info.truth = .factual then some none
      else (rewriteStep E id s x.1 target x.2.1 x.2.2 t Δ).map fun n =>
        if wellTyped E.K n.clause then some n else none

/-- The rewrites of one known subterm with a new pattern (active_set.rs:968-1059). -/
def rewriteKnown (E : Env R) (id : Nat) (s : Step (Info R)) (forwards : Bool) (p t : Term) (a : ActiveSet R)
    (k : Nat) : Option (List (Step (Info R)) × ActiveSet R) := do
  let sub ← a.subterms[k]?
  match ← rewriteTerm E s.clause.ctx p t sub.term with
  | none => return ([], a)
  | some (t', Δ) => do
    let ns ← sub.places.mapM (rewritePlace E a id s t' Δ)
    let g ← if t'.hasAnyVar then some a.graph else graphEqual E a.graph sub.term t' id sub.inspiration forwards
    return (ns.filterMap _root_.id, { a with
      graph := g
      subterms := a.subterms.set k { sub with rewrites := sub.rewrites ++ [(id, forwards)] } })

/-- The loop over the known subterms. -/
def rewriteKnowns (E : Env R) (id : Nat) (s : Step (Info R)) (forwards : Bool) (p t : Term) :
    List Nat → ActiveSet R → Option (List (Step (Info R)) × ActiveSet R)
  | [], a => some ([], a)
  | k :: ks, a => do
    let (ns, a) ← rewriteKnown E id s forwards p t a k
    let (ms, a) ← rewriteKnowns E id s forwards p t ks a
    return (ns ++ ms, a)

/-- `activate_rewrite_pattern` (active_set.rs:944-1064), one direction. -/
def patternOneWay (E : Env R) (a : ActiveSet R) (id : Nat) (s : Step (Info R)) (x : Bool × Term × Term) :
    Option (List (Step (Info R)) × ActiveSet R) :=
  if x.2.1.isTrue then some ([], a)
  else do
    let ks ← Fingerprint.findUnifying E.K a.subtermIndex s.clause.ctx x.2.1
    rewriteKnowns E id s x.1 x.2.1 x.2.2 ks a

/-- `activate_rewrite_pattern` (active_set.rs:944-1064). -/
def rewritePattern (E : Env R) (a : ActiveSet R) (id : Nat) (s : Step (Info R)) (l : Literal) :
    Option (List (Step (Info R)) × ActiveSet R) := do
  let (ns, a) ← patternOneWay E a id s (true, l.left, l.right)
  let (ms, a) ← patternOneWay E a id s (false, l.right, l.left)
  return (ns ++ ms, a)

/-! ### Activation -/

/-- A concrete literal in the term graph (active_set.rs:1751-1766). -/
def graphLiteral (E : Env R) (g : EGraph) (l : Literal) (id : Nat) : Option EGraph :=
  match EGraph.insertTerm E.ω E.fuel l.left g with
  | .done (i, g) =>
    match EGraph.insertTerm E.ω E.fuel l.right g with
    | .done (j, g) =>
      match (if l.positive then EGraph.setTermsEqual E.ω E.fuel g i j id none
          else EGraph.setTermsNotEqual E.ω E.fuel g i j id) with
      | .done g => some g
      | _ => none
    | _ => none
  | _ => none

/-- The use of a literal as a rewrite target (active_set.rs:1749-1770). -/
def asTarget (E : Env R) (a : ActiveSet R) (s : Step (Info R)) (l : Literal) :
    Option (List (Step (Info R)) × ActiveSet R) :=
  if l.hasAnyVar then some ([], a)
  else do
    let g ← graphLiteral E a.graph l a.steps.length
    rewriteTarget E { a with graph := g } a.steps.length s l

/-- The use of a literal as a rewrite pattern (active_set.rs:1772-1784). -/
def asPattern (E : Env R) (a : ActiveSet R) (s : Step (Info R)) (l : Literal) :
    Option (List (Step (Info R)) × ActiveSet R) :=
  if l.positive && !s.info.rewrite then do
    let (ns, a) ← rewritePattern E a a.steps.length s l
    return (ns, { a with patterns := a.patterns ++ [a.steps.length] })
  else some ([], a)

/-- Are the identifiers of the symbol 16 bit numbers? -/
def fitsSymbol : Symbol → Bool
  | .type m l | .typeclass m l | .global m l => decide (m < 65536) && decide (l < 65536)
  | .scoped l => decide (l < 65536)
  | _ => true

/-- Are the identifiers of the atom 16 bit numbers?  The code has no others. -/
def fitsAtom : Atom → Bool
  | .fvar i | .bvar i => decide (i < 65536)
  | .sym s => fitsSymbol s

/-- Are all identifiers of the literal 16 bit numbers? -/
def fitsLit (l : Literal) : Bool := l.left.atoms.all fitsAtom && l.right.atoms.all fitsAtom

/-- The same for the exchanged literal that the set of literals also keeps. -/
def fitsReversed (l : Literal) (Γ : LCtx) : Bool :=
  match Pdt.normalizedReversed l Γ with
  | some (r, a, _, _) => r.atoms.all fitsAtom && a.atoms.all fitsAtom
  | none => true

/-- `activate_literal` (active_set.rs:1739-1791).  A literal whose identifiers are not 16 bit numbers does not
exist in the code: `none`. -/
def activateLiteral (E : Env R) (a : ActiveSet R) (s : Step (Info R)) (l : Literal) :
    Option (List (Step (Info R)) × ActiveSet R) := do
  let (ns, a) ← asTarget E a s l
  let (ms, a) ← asPattern E a s l
  let ls ← if fitsLit l && fitsReversed l s.clause.ctx then
      Pdt.insertLiteral a.literals l a.steps.length s.clause.ctx
    else none
  return (ns ++ ms, { a with literals := ls })

/-- `add_resolution_targets` (active_set.rs:1640-1673) for all literals of a step. -/
def addTargets (K : KCtx) (Γ : LCtx) (id : Nat) : Nat → List Literal → ActiveSet R → Option (ActiveSet R)
  | _, [], a => some a
  | i, l :: ls, a => do
    let tree := if l.positive then a.positive else a.negative
    let tree ← Fingerprint.insertTerm K tree Γ l.left ⟨id, i, true⟩
    let tree ← Fingerprint.insertTerm K tree Γ l.right ⟨id, i, false⟩
    addTargets K Γ id (i + 1) ls (if l.positive then { a with positive := tree } else { a with negative := tree })

/-- `insert` (active_set.rs:1677-1698). -/
def ActiveSet.insert (E : Env R) (a : ActiveSet R) (s : Step (Info R)) : Option (ActiveSet R) := do
  let inhabited := match ← stepType E s with
    | none => a.inhabited
    | some key => if (a.inhabited.get? key).isSome then a.inhabited else a.inhabited.insert key a.steps.length
  let a' ← addTargets E.K s.clause.ctx a.steps.length 0 s.clause.lits { a with inhabited := inhabited }
  return { a' with
    long := if s.clause.lits.length > 1 then s.clause :: a'.long else a'.long
    steps := a'.steps ++ [s] }

/-- `activate` (active_set.rs:1795-1844). -/
def ActiveSet.activate (E : Env R) (a : ActiveSet R) (s : Step (Info R)) :
    Option (List (Step (Info R)) × ActiveSet R) := do
  let id := a.steps.length
  let o1 ← equalityResolution E id s
  let o2 ← equalityFactoring E id s
  let o3 ← injectivity E id s
  let o4 ← booleanReduction E a id s
  let o5 ← extensionality E id s
  let o6 ← findAllResolutions E a s
  let (o7, a) ← match s.clause.lits with
    | [l] => activateLiteral E a s l
    | _ => some ([], a)
  let a ← a.insert E s
  return (o1 ++ o2 ++ o3 ++ o4 ++ o5 ++ o6 ++ o7, a)

/-! ### Simplification -/

/-- `evaluate_literal` (active_set.rs:1334-1358): the value, and the step that determines it (no step: the sides
are equal).  A literal whose identifiers are not 16 bit numbers does not exist in the code: `none`. -/
def evaluate (E : Env R) (a : ActiveSet R) (l : Literal) (Γ : LCtx) : Option (Option (Bool × Option Nat)) :=
  if l.left = l.right then some (some (l.positive, none))
  else if !fitsLit l then none
  else (Pdt.findWithMap E.K E.fuel a.literals l Γ).map (Option.map fun r => (r.1, some r.2.1))

/-- What the loop of `simplify` does with the literals. -/
inductive Filtered (R : Type)
  /-- The clause is known. -/
  | known
  /-- The literals that stay, and the steps that removed the others. -/
  | kept (ls : List Literal) (by_ : List (Nat × Step (Info R)))

/-- One literal put in front. -/
def Filtered.cons (l : Literal) : Filtered R → Filtered R
  | .known => .known
  | .kept ls by_ => .kept (l :: ls) by_

/-- One removing step put in front. -/
def Filtered.via (x : Nat × Step (Info R)) : Filtered R → Filtered R
  | .known => .known
  | .kept ls by_ => .kept ls (x :: by_)

/-- The loop of `simplify` (active_set.rs:1449-1516).  `keep`: the clause has one literal and is not factual. -/
def filterLits (E : Env R) (a : ActiveSet R) (Γ : LCtx) (keep : Bool) : List Literal → Option (Filtered R)
  | [] => some (.kept [] [])
  | l :: ls => do
    match ← evaluate E a l Γ with
    | none => return (← filterLits E a Γ keep ls).cons l
    | some (true, none) => return .known
    | some (true, some id) => do
      let s ← a.steps[id]?
      if keep && decide (s.info.truth = .factual) then return (← filterLits E a Γ keep ls).cons l
      else return .known
    | some (false, none) => filterLits E a Γ keep ls
    | some (false, some id) => do
      let s ← a.steps[id]?
      return (← filterLits E a Γ keep ls).via (id, s)

/-- The check of the variables that no literal has any more (active_set.rs:1518-1543). -/
def goneInhabited (E : Env R) (Γ : LCtx) (ls : List Literal) : Bool :=
  (List.range Γ.length).all fun i =>
    ls.any (fun l => l.left.hasVar i || l.right.hasVar i) ||
      match Γ.get i with
      | none => true
      | some T => E.inh Γ T

/-- `is_known_long_clause` (active_set.rs:292-294). -/
def knownLong (a : ActiveSet R) (c : Clause) : Bool := decide (c.lits.length > 1) && a.long.contains c

/-- `simplify` (active_set.rs:1426-1638).  Inner `none`: the clause is not needed. -/
def ActiveSet.simplify (E : Env R) (a : ActiveSet R) (s : Step (Info R)) : Option (Option (Step (Info R))) :=
  if s.clause.isTautology || knownLong a s.clause then some none
  else do
    match ← filterLits E a s.clause.ctx
        (decide (s.clause.lits.length = 1) && decide (s.info.truth ≠ .factual)) s.clause.lits with
    | .known => return none
    | .kept ls by_ =>
      if !goneInhabited E s.clause.ctx ls then return none
      else if ls.length = s.clause.lits.length then return some ⟨⟨ls, s.clause.ctx⟩, s.assumption, s.negatedGoal, s.info⟩
      else do
        let t ← Clause.normalizeWithTrace ⟨ls, s.clause.ctx⟩
        if t.clause.isTautology || knownLong a t.clause then return none
        else return some ⟨t.clause, false, s.negatedGoal,
          ⟨by_.foldl (fun t x => t.combine x.2.info.truth) s.info.truth, false,
            by_.foldl (fun n x => n + x.2.info.size) s.info.size,
            by_.foldl (fun n x => max n x.2.info.depth) s.info.depth,
            E.rest .simplification ((0, s) :: by_) t.clause⟩⟩

/-! ### The prover -/

/-- What the prover is given: next to the above, what the passive set needs, the iteration orders of the hash maps
of the passive set, and whether `expand_steps` finds an explanation of the contradiction in the equality graph
(`get_contradiction_trace`, /repo/src/kernel/equality_graph.rs:414-422). -/
structure Prover (R : Type) where
  env : Env R
  inhabited : LCtx → Term → Bool
  score : List (Step (Info R)) → Step (Info R) → Passive.Score
  usesGoal : Bool
  period : Option Nat
  order : Nat → List (Nat × Nat) → List (Nat × Nat)
  explained : EGraph → Bool

/-- The rest of a step simplified in the passive set (passive_set.rs:655-673). -/
def passiveInfo (E : Env R) (s act : Info R) (c : Clause) : Info R :=
  ⟨s.truth.combine act.truth, false, s.size + act.size, max s.depth act.depth, E.rest .simplification [] c⟩

/-- The setup of the passive set. -/
def Prover.setup (P : Prover R) : Passive.Setup (Info R) where
  K := P.env.K
  inhabited := P.inhabited
  score := P.score
  usesGoal := P.usesGoal
  period := P.period
  combine := passiveInfo P.env

/-- How a search ends (`final_step`, prover.rs). -/
inductive Final (R : Type)
  /-- An impossible clause. -/
  | step (s : Step (Info R))
  /-- `report_passive_contradiction`. -/
  | passive (a b : Step (Info R))
  /-- `report_equality_graph_contradiction`. -/
  | graph

/-- The parts of `Prover` (prover.rs) that the search changes. -/
structure State (R : Type) where
  passive : Passive.PassiveSet (Info R)
  active : ActiveSet R
  final : Option (Final R) := none

/-- A panic of the passive set is a panic. -/
def noPanic {α : Type} : Except Passive.Panic α → Option α
  | .ok a => some a
  | .error _ => none

/-- `automatic_reject` (proof_step.rs:1460-1474). -/
def automaticReject (s : Step (Info R)) : Bool :=
  (decide (s.info.truth = .factual) && decide (s.info.size > 2)) || decide (s.info.depth ≥ 30)

/-- The loop over the generated steps (prover.rs:911-941): a step that ends the search, or the simplified
steps. -/
def sift (E : Env R) (a : ActiveSet R) : List (Step (Info R)) → Option (Step (Info R) ⊕ List (Step (Info R)))
  | [] => some (.inr [])
  | s :: ss =>
    if s.clause.isImpossible then some (.inl s)
    else if automaticReject s then sift E a ss
    else do
      match ← a.simplify E s with
      | none => sift E a ss
      | some n =>
        if n.clause.isImpossible then return .inl n
        else
          match ← sift E a ss with
          | .inl f => return .inl f
          | .inr ns => return .inr (n :: ns)

/-- The simplification of the passive set by the new step (prover.rs:878-896). -/
def simplifyPassive (P : Prover R) (st : State R) (s : Step (Info R)) : Option (Passive.PassiveSet (Info R)) :=
  if s.clause.lits.length = 1 then
    noPanic (Passive.PassiveSet.simplify P.setup (P.order st.active.steps.length) s st.passive)
  else some st.passive

/-- The tests for contradictions after an activation (prover.rs:948-970).  `contradiction_info` is set together
with the flag (equality_graph.rs). -/
def conclude (P : Prover R) (st : State R) : Option (State R × Bool) := do
  match ← noPanic st.passive.getContradiction with
  | some (x, y) => return ({ st with final := some (.passive x y) }, true)
  | none =>
    if st.active.graph.contra && P.explained st.active.graph then
      return ({ st with final := some .graph }, true)
    else
      return (st, false)

/-- `activate` (prover.rs:869-972).  A step that ends the proof is always accepted
(`maybe_finish_with_step`, prover.rs:758-768). -/
def State.activate (P : Prover R) (st : State R) (s : Step (Info R)) : Option (State R × Bool) := do
  let passive ← simplifyPassive P st s
  let (new, active) ← st.active.activate P.env s
  match ← sift P.env active new with
  | .inl f => return ({ passive := passive, active := active, final := some (.step f) }, true)
  | .inr ns => do
    let passive ← noPanic (passive.push P.setup ns)
    conclude P { passive := passive, active := active, final := none }

/-- The next step (prover.rs:793-799). -/
def State.pop (P : Prover R) (st : State R) (shallowOnly : Bool) :
    Option (Option (Step (Info R)) × Passive.PassiveSet (Info R)) :=
  if shallowOnly then (noPanic st.passive.popShallow).map fun r => (r.1.map (·.step), r.2)
  else (noPanic (st.passive.pop P.setup)).map fun r => (r.1.map (·.1.step), r.2)

/-- `activate_next` (prover.rs:772-857): has the search ended?  Statistics and traces are left out. -/
def State.next (P : Prover R) (st : State R) (shallowOnly : Bool) : Option (State R × Bool) :=
  if st.final.isSome then some (st, true)
  else do
    match ← noPanic st.passive.getContradiction with
    | some (x, y) => return ({ st with final := some (.passive x y) }, true)
    | none => do
      match ← st.pop P shallowOnly with
      | (none, passive) => return ({ st with passive := passive }, true)
      | (some s, passive) =>
        if s.clause.isImpossible then return ({ st with passive := passive, final := some (.step s) }, true)
        else State.activate P { st with passive := passive } s

end Active
end Acorn
