/-
The checker of certificates.  Models `TraceChecker` in /repo/src/certificate_trace.rs and the parts of
`Claim` and `SatisfyStep` in /repo/src/kernel/certificate_step.rs it uses.

The code of a step is parsed into a claim or a witness declaration by the environment; parsing is not
modelled.  The kernel context, which parsing may extend by new constants, is the one at the end.  The lines
and reasons that are reported to the user are not modelled.
-/
import Verif.Model.TraceRules
namespace Acorn

/-- `Claim` (certificate_step.rs:22-34): a clause and terms for some of its variables. -/
structure Claim where
  clause : Clause
  map : VMap

/-- `validate_var_map_scope` (certificate_step.rs:84-104), for the pair of an index and an entry of the
map. -/
def Claim.entryOk (c : Claim) (p : Option Term × Nat) : Bool :=
  match p.1 with
  | none => true
  | some t => decide (p.2 < c.clause.ctx.length) && t.fvars.all (· < c.clause.ctx.length)

/-- `validate_var_map_scope` (certificate_step.rs:84-104). -/
def Claim.scopeOk (c : Claim) : Bool := c.map.zipIdx.all c.entryOk

/-- `normalized_specialized_clause` (certificate_step.rs:260-279).  `done none` is an error, `panic` a
panic. -/
def Claim.specialized (A : Aliases) (fuel : Nat) (c : Claim) : Out (Option Clause) :=
  if !c.scopeOk then .done none
  else do
    let d ← Out.ofOption (c.map.specClause A c.clause)
    let d ← Out.ofOption d.compact
    let d ← Out.ofOption (d.normalizeSubterms fuel)
    let d ← Out.ofOption (Clause.new d.lits d.ctx)
    return some d

/-- `SatisfyStep` (certificate_step.rs:314-327): the symbol and the clauses of a witness declaration. -/
structure Satisfy where
  name : Symbol
  justification : Claim
  specialized : Option Clause
  witnesses : List Clause

/-- What `Certificate::parse_code_line` makes of the code of a step.  The flag of a claim is
`is_synthetic_generic_wrapper` (certificate_trace.rs:58-61), a property of the code. -/
inductive TraceCode
  | claim (c : Claim) (wrapper : Bool)
  | satisfy (w : Satisfy)

/-- `TraceRule` (certificate_trace.rs:95-134). -/
inductive CertRule
  | fact | claim | br | brIntro | eq | er | ef | ext | inj | inst | wit | contra
  deriving DecidableEq, Repr

/-- `TraceStep` (certificate_trace.rs:31-53), with its code parsed. -/
structure CertStep where
  rule : CertRule
  code : TraceCode
  premises : List Nat
  generic : Bool
  brKind : Option BoolKind
  brIndex : Option Nat

/-- `StepClauses` (certificate_trace.rs:70-75). -/
structure StepClauses where
  primary : Clause
  aliases : List Clause

/-- `StepClauses::new` (certificate_trace.rs:77-87), the loop. -/
def StepClauses.dedup (primary : Clause) : List Clause → List Clause → List Clause
  | acc, [] => acc
  | acc, a :: as => dedup primary (if a ≠ primary ∧ a ∉ acc then acc ++ [a] else acc) as

/-- `StepClauses::new` (certificate_trace.rs:77-87). -/
def StepClauses.new (primary : Clause) (aliases : List Clause) : StepClauses :=
  ⟨primary, dedup primary [] aliases⟩

/-- `StepClauses::all` (certificate_trace.rs:89-91). -/
def StepClauses.all (s : StepClauses) : List Clause := s.primary :: s.aliases

/-- `claim_aliases` (certificate_trace.rs:1596-1602). -/
def claimAliases (generic specialized : Clause) : List Clause :=
  if generic = specialized then [] else [generic]

/-- `TraceChecker` (certificate_trace.rs:3724-3731). -/
structure TraceState where
  checker : Checker
  clauses : List StepClauses

/-- What the checker of certificates uses from its surroundings. -/
structure TraceEnv where
  env : CheckEnv
  aliases : Aliases

namespace TraceState
open Checker

/-- The clauses of a claim as the rules see them: `parse_required_claim_with_generic`
(certificate_trace.rs:4373-4403). -/
def claimParts (E : TraceEnv) (step : CertStep) : Out (Option (Clause × Clause × Bool)) :=
  match step.code with
  | .satisfy _ => .done none
  | .claim c wrapper =>
    if step.generic && wrapper then .done (some (c.clause, c.clause, wrapper))
    else do
      let r ← c.specialized E.aliases E.env.fuel
      return r.map fun d => (c.clause, d, wrapper)

/-- `parse_required_claim` (certificate_trace.rs:4342-4371). -/
def claimResult (E : TraceEnv) (step : CertStep) : Out (Option Clause) :=
  match step.code with
  | .satisfy _ => .done none
  | .claim c _ => if step.generic then .done (some c.clause) else c.specialized E.aliases E.env.fuel

/-- The loop of insertions in `accept_clause_with_aliases` (certificate_trace.rs:4423-4425), in
`check_witness_step` (4315-4323) and in the case `Eq` (4095-4104). -/
def insertAll (env : CheckEnv) (reason : StepReason) : Checker → List Clause → Out Checker
  | s, [] => .done s
  | s, c :: cs => do
    let s ← s.insertTrace env c reason
    insertAll env reason s cs

/-- `accept_clause_with_aliases` (certificate_trace.rs:4414-4427). -/
def accept (E : TraceEnv) (st : TraceState) (c : Clause) (aliases : List Clause) : Out (Option TraceState) := do
  let sc := StepClauses.new c aliases
  let s ← insertAll E.env .previousClaim st.checker sc.all
  return some ⟨s, st.clauses ++ [sc]⟩

/-- The clauses of one premise; `none` if it is missing. -/
def sources (st : TraceState) (i : Nat) : Option (List Clause) := (st.clauses[i]?).map StepClauses.all

/-- The clauses of all premises in order; `none` if one is missing. -/
def allSources (st : TraceState) : List Nat → Option (List Clause)
  | [] => some []
  | i :: is => do
    let a ← st.sources i
    let b ← allSources st is
    return a ++ b

/-- The aliases of a claim (certificate_trace.rs:3786-3790, 4020-4024). -/
def aliasesOf (generic specialized : Clause) (wrapper : Bool) : List Clause :=
  if wrapper then [] else claimAliases generic specialized

/-- The rules `Fact` and `Claim` (certificate_trace.rs:3778-3814). -/
def factStep (E : TraceEnv) (st : TraceState) (step : CertStep) : Out (Option TraceState) := do
  match ← claimParts E step with
  | none => return none
  | some (g, d, wrapper) => do
    let c := if step.generic then g else d
    let (r, s) ← orElse (orElse (checkTrace E.env st.checker g) fun s => checkTrace E.env s c)
      fun s => checkTrace E.env s d
    if r.isSome then accept E { st with checker := s } c (aliasesOf g d wrapper) else return none

/-- The test of the rule `Inst` (certificate_trace.rs:3843-3851): is the source the generic clause? -/
def sameClause (env : CheckEnv) (s : Checker) (c g : Clause) : Bool :=
  decide (c = g) || (match canonical env s g with
    | none => false
    | some d => decide (canonical env s c = some d))

/-- The rule `Inst` (certificate_trace.rs:3815-3861). -/
def instStep (E : TraceEnv) (st : TraceState) (step : CertStep) : Out (Option TraceState) :=
  match step.premises with
  | [i] =>
    match st.sources i with
    | none => .done none
    | some cs => do
      match ← claimParts E step with
      | none => return none
      | some (g, d, _) =>
        if cs.any fun c => sameClause E.env st.checker c g then accept E st d [] else return none
  | _ => .done none

/-- The test of the rule `Br` for one source (certificate_trace.rs:3899-3915). -/
def reduces (env : CheckEnv) (s : Checker) (k : BoolKind) (i : Nat) (targets : List Clause) (c : Clause) : Bool :=
  match applyReduction env s c k i with
  | none => false
  | some d => targets.contains d || (targets.filterMap (canonical env s)).contains d

/-- The rule `Br` (certificate_trace.rs:3862-3967). -/
def brStep (E : TraceEnv) (st : TraceState) (step : CertStep) : Out (Option TraceState) :=
  match step.premises with
  | [i] =>
    match st.sources i with
    | none => .done none
    | some cs => do
      match ← claimParts E step with
      | none => return none
      | some (g, d, _) =>
        let r := if step.generic then g else d
        match step.brKind, step.brIndex with
        | some k, some j =>
          if cs.any (reduces E.env st.checker k j [r, g, d]) then accept E st r [] else return none
        | _, _ => return none
  | _ => .done none

/-- Does one of the premises equal the member of the reduction set (certificate_trace.rs:4004-4019)? -/
def covered (env : CheckEnv) (s : Checker) (premises : List Clause) (d : Clause) : Bool :=
  premises.any fun p => decide (p = d) || (match canonical env s p with
    | none => false
    | some q => decide (canonical env s d = some q))

/-- The test with premises of the rule `BrIntro` for one target (certificate_trace.rs:3999-4022). -/
def introduces (env : CheckEnv) (s : Checker) (premises : List Clause) (c : Clause) : Out Bool := do
  let sets ← reductionSets env s c
  return sets.any fun ds => ds.all (covered env s premises)

/-- The test without premises of the rule `BrIntro` (certificate_trace.rs:3976-3984). -/
def provesAny (env : CheckEnv) : Checker → List Clause → Out (Bool × Checker)
  | s, [] => .done (false, s)
  | s, c :: cs => do
    let (b, s) ← reductionProves env s c
    if b then return (true, s) else provesAny env s cs

/-- The test of the rule `BrIntro` (certificate_trace.rs:3975-4025); the targets after the first are tried
again even if they are equal, which has no effect.  `none`: a premise is missing. -/
def introTest (E : TraceEnv) (st : TraceState) (step : CertStep) (r g d : Clause) :
    Out (Option (Bool × Checker)) :=
  if step.premises.isEmpty then do
    let p ← provesAny E.env st.checker [g, r, d]
    return some p
  else
    match st.allSources step.premises with
    | none => .done none
    | some ps => do
      let b ← Out.any (introduces E.env st.checker ps) [r, d, g]
      return some (b, st.checker)

/-- The rule `BrIntro` (certificate_trace.rs:3968-4045). -/
def brIntroStep (E : TraceEnv) (st : TraceState) (step : CertStep) : Out (Option TraceState) := do
  match ← claimParts E step with
  | none => return none
  | some (g, d, wrapper) =>
    let r := if step.generic then g else d
    match ← introTest E st step r g d with
    | some (true, s) => accept E { st with checker := s } r (aliasesOf g d wrapper)
    | _ => return none

/-- `sources.iter().any(|source| checker.equality_graph_derives_for_trace(..))`
(certificate_trace.rs:4070-4078, 4113-4121). -/
def graphAny (env : CheckEnv) (d : Clause) : Checker → List Clause → Out (Bool × Checker)
  | s, [] => .done (false, s)
  | s, c :: cs => do
    let (b, s) ← graphDerives env s c d
    if b then return (true, s) else graphAny env d s cs

/-- `ordered_premises.sort_by_key(..)` (certificate_trace.rs:4086-4091): first the premises without
variables.  The sort is stable. -/
def ordered (st : TraceState) (is : List Nat) : List Nat :=
  let late := fun i => match st.clauses[i]? with
    | some c => c.primary.hasAnyVar
    | none => true
  is.filter (fun i => !late i) ++ is.filter late

/-- The test of the rule `Eq` with only its premises (certificate_trace.rs:4082-4124).  `none`: a premise is
missing. -/
def localTest (E : TraceEnv) (st : TraceState) (step : CertStep) (d : Clause) : Out (Option Bool) :=
  match st.allSources (st.ordered step.premises) with
  | none => .done none
  | some cs => do
    let s ← insertAll E.env .previousClaim (Checker.new.setEager false) cs
    let (r, s) ← checkTrace E.env s d
    if r.isSome then return some true
    else do
      let (b, _) ← graphAny E.env d s cs
      return some b

/-- The test of the rule `Eq` with one premise and the facts (certificate_trace.rs:4054-4081).  `none`: the
premise is missing. -/
def oneTest (E : TraceEnv) (st : TraceState) (step : CertStep) (d : Clause) : Out (Option (Bool × Checker)) :=
  match step.premises with
  | [i] =>
    match st.sources i with
    | none => .done none
    | some cs => do
      let p ← graphAny E.env d st.checker cs
      return some p
  | _ => .done (some (false, st.checker))

/-- The test of the rule `Eq` (certificate_trace.rs:4046-4133): the new state if it succeeds. -/
def eqTest (E : TraceEnv) (st : TraceState) (step : CertStep) (d : Clause) : Out (Option Checker) :=
  if step.premises.isEmpty then do
    let (r, s) ← checkTrace E.env st.checker d
    return if r.isSome then some s else none
  else do
    match ← oneTest E st step d with
    | none => return none
    | some (true, s) => return some s
    | some (false, s) => do
      match ← localTest E st step d with
      | some true => return some s
      | _ => return none

/-- The rule `Eq` (certificate_trace.rs:4046-4135). -/
def eqStep (E : TraceEnv) (st : TraceState) (step : CertStep) : Out (Option TraceState) := do
  match ← claimResult E step with
  | none => return none
  | some d => do
    match ← eqTest E st step d with
    | none => return none
    | some s => accept E { st with checker := s } d []

/-- The test of the rules `Er`, `Ef`, `Ext`, `Inj` (certificate_trace.rs:4157-4179). -/
def derives (env : CheckEnv) (s : Checker) (rule : CertRule) (c d : Clause) : Out Bool :=
  match rule with
  | .er => resolutionDerives env s c d
  | .ef => factoringDerives env s c d
  | .ext => extensionalityDerives env c d
  | _ => injectivityDerives env s c d

/-- The rules `Er`, `Ef`, `Ext`, `Inj` (certificate_trace.rs:4136-4218). -/
def deriveStep (E : TraceEnv) (st : TraceState) (step : CertStep) : Out (Option TraceState) :=
  match step.premises with
  | [i] =>
    match st.sources i with
    | none => .done none
    | some cs => do
      match ← claimResult E step with
      | none => return none
      | some d => do
        let b ← Out.any (fun c => derives E.env st.checker step.rule c d) cs
        if b then accept E st d [] else return none
  | _ => .done none

/-- `check_witness_step` (certificate_trace.rs:4284-4340), after the justification was found. -/
def declare (E : TraceEnv) (st : TraceState) (w : Satisfy) (d : Clause) : Out (Option TraceState) := do
  let more := w.specialized.toList ++ w.witnesses
  let s ← insertAll E.env .witnessDeclaration st.checker (w.justification.clause :: d :: more)
  return some ⟨s, st.clauses ++ [StepClauses.new d (w.justification.clause :: more)]⟩

/-- `check_witness_step` (certificate_trace.rs:4284-4340). -/
def witStep (E : TraceEnv) (st : TraceState) (step : CertStep) : Out (Option TraceState) :=
  match step.code with
  | .claim _ _ => .done none
  | .satisfy w => do
    match ← w.justification.specialized E.aliases E.env.fuel with
    | none => return none
    | some d => do
      let (r, s) ← orElse (checkTrace E.env st.checker w.justification.clause) fun s => checkTrace E.env s d
      if r.isSome then declare E { st with checker := s } w d else return none

/-- The test of the rule `Contra` (certificate_trace.rs:4222-4279). -/
def contraTest (E : TraceEnv) (st : TraceState) (step : CertStep) : Out Bool :=
  match step.premises with
  | [] => .done st.checker.hasContradiction
  | [i] =>
    match st.sources i with
    | none => .done false
    | some cs => Out.any (reductionCloses E.env st.checker) cs
  | [i, j] =>
    match st.sources i, st.sources j with
    | some cs, some ds => Out.any (fun c => Out.any (clausesContradict E.env c) ds) cs
    | _, _ => .done false
  | _ => .done false

/-- The rule `Contra` (certificate_trace.rs:4220-4281). -/
def contraStep (E : TraceEnv) (st : TraceState) (step : CertStep) : Out (Option TraceState) := do
  let b ← contraTest E st step
  if b then accept E st ⟨[], []⟩ [] else return none

/-- `check_step` (certificate_trace.rs:3776-4283).  `done none` means that the step is rejected. -/
def checkStep (E : TraceEnv) (st : TraceState) (step : CertStep) : Out (Option TraceState) :=
  match step.rule with
  | .fact | .claim => factStep E st step
  | .inst => instStep E st step
  | .br => brStep E st step
  | .brIntro => brIntroStep E st step
  | .eq => eqStep E st step
  | .er | .ef | .ext | .inj => deriveStep E st step
  | .wit => witStep E st step
  | .contra => contraStep E st step

/-- The loop of `TraceChecker::check` (certificate_trace.rs:3762-3773).  The answer is the number of steps
that were used; `done none` means that the certificate is rejected. -/
def checkFrom : Nat → TraceState → List (TraceEnv × CertStep) → Out (Option Nat)
  | n, st, [] => .done (if st.checker.hasContradiction then some n else none)
  | n, st, (E, step) :: rest =>
    if st.checker.hasContradiction then .done (some n)
    else do
      match ← checkStep E st step with
      | none => return none
      | some st => checkFrom (n + 1) st rest

end TraceState

/-- `TraceChecker::check` (certificate_trace.rs:3758-3774) for a checker that was given the facts and the
negated goal.  The surroundings of each step are given with the step. -/
def checkCertificate (s : Checker) (steps : List (TraceEnv × CertStep)) : Out (Option Nat) :=
  TraceState.checkFrom 0 ⟨s, []⟩ steps

end Acorn
