/-
The rules by which the checker of certificates justifies a step.  Models the `*_for_trace` methods of
/repo/src/kernel/checker.rs.
-/
import Verif.Model.Checker
namespace Acorn

/-- A search through a list with a test that may panic. -/
def Out.any {α : Type} (f : α → Out Bool) : List α → Out Bool
  | [] => .done false
  | a :: l => do
    let b ← f a
    if b then return true else Out.any f l

namespace Checker

/-- `boolean_reduction_proves_for_trace` (checker.rs:734-742). -/
def reductionProves (env : CheckEnv) (s : Checker) (c : Clause) : Out (Bool × Checker) := do
  let d ← normal env c
  let (r, s) ← checkBool env s d
  return (r.isSome, s)

/-- `boolean_reduction_closes_for_trace` (checker.rs:744-763); the state is a copy. -/
def reductionCloses (env : CheckEnv) (s : Checker) (c : Clause) : Out Bool := do
  let d ← normal env c
  if d.isImpossible then return true
  else do
    let s ← insertTrace env (s.setEager false) d .previousClaim
    match s.exact.get? d with
    | none => return false
    | some step => do
      let s ← reduceBool env (insertInternal env env.fuel) (s.setEager true) d step
      return s.hasContradiction

/-- `canonical_clause_for_trace` (checker.rs:771-779); `none` is a refusal, a panic, or not enough fuel. -/
def canonical (env : CheckEnv) (s : Checker) (c : Clause) : Option Clause :=
  normFound env s c.lits c.ctx

/-- `apply_boolean_reduction_for_trace` (checker.rs:826-836). -/
def applyReduction (env : CheckEnv) (s : Checker) (c : Clause) (k : BoolKind) (i : Nat) : Option Clause := do
  let t ← c.boolReductionAt env.fuel env.K k i
  normTrace env s t

/-- `equality_resolution_derives_for_trace` (checker.rs:838-861). -/
def resolutionDerives (env : CheckEnv) (s : Checker) (c d : Clause) : Out Bool := do
  let fs ← Out.ofOption (findResolutions env.K env.fuel c)
  return fs.any fun f => decide (normFound env s f.lits f.ctx = some d)

/-- `equality_factoring_derives_for_trace` (checker.rs:863-876). -/
def factoringDerives (env : CheckEnv) (s : Checker) (c d : Clause) : Out Bool := do
  let fs ← Out.ofOption (findFactorings env.K env.fuel c)
  return fs.any fun f => decide (normFound env s f.lits f.ctx = some d)

/-- `injectivity_derives_for_trace` (checker.rs:878-892). -/
def injectivityDerives (env : CheckEnv) (s : Checker) (c d : Clause) : Out Bool := do
  let rs ← Out.ofOption (findInjectivities c.lits)
  return rs.any fun ls => decide (normFound env s ls c.ctx = some d)

/-- `extensionality_derives_for_trace` (checker.rs:894-904). -/
def extensionalityDerives (env : CheckEnv) (c d : Clause) : Out Bool :=
  match c.findExtensionality env.K env.vp with
  | none => .done false
  | some (ls, _) => do
    let r ← Out.ofOption (Clause.new ls c.ctx)
    return decide (r = d)

/-- `equality_graph_derives_for_trace` (checker.rs:906-926). -/
def graphDerives (env : CheckEnv) (s : Checker) (c d : Clause) : Out (Bool × Checker) := do
  let (r, s) ← simplifyVariable env s c
  if r = some d then return (true, s)
  else do
    let (r, s) ← checkTrace env s d
    return (r.isSome, s)

/-- `literals_match_with_var_map` (checker.rs:941-990).  The outer `none` is a panic. -/
def matchLits (K : KCtx) (Γ Δ : LCtx) (m : VMap) (g l : Literal) : Option (Option VMap) :=
  if g.positive ≠ l.positive then some none
  else VMap.orElse
    (VMap.andThen (VMap.matchTerms K Γ Δ m g.left l.left) fun m => VMap.matchTerms K Γ Δ m g.right l.right)
    (VMap.andThen (VMap.matchTerms K Γ Δ m g.left l.right) fun m => VMap.matchTerms K Γ Δ m g.right l.left)

/-- The elements of a list, each with the others: the unused literals of `match_from`
(checker.rs:1015-1018). -/
def picks {α : Type} : List α → List (α × List α)
  | [] => []
  | a :: l => (a, l) :: (picks l).map fun p => (p.1, a :: p.2)

/-- `match_from` (checker.rs:1001-1042).  The literals in use are not marked but taken out. -/
def matchFrom (K : KCtx) (Γ Δ : LCtx) : List Literal → List Literal → VMap → Out Bool
  | [], _, _ => .done true
  | g :: gs, ls, m => Out.any (fun p : Literal × List Literal => do
      match ← Out.ofOption (matchLits K Γ Δ m g p.1) with
      | none => return false
      | some m => matchFrom K Γ Δ gs p.2 m) (picks ls)

/-- `clause_matches_with_var_map` (checker.rs:992-1054). -/
def clauseMatches (K : KCtx) (c d : Clause) : Out Bool :=
  if c.lits.length ≠ d.lits.length then .done false else matchFrom K c.ctx d.ctx c.lits d.lits []

/-- `clause_specializes_for_trace` (checker.rs:928-939). -/
def specializes (env : CheckEnv) (c d : Clause) : Out Bool := do
  let c ← normal env c
  let d ← normal env d
  if c = d then return true else clauseMatches env.K c d

/-- `a || b` for tests that may panic. -/
def orTest (a b : Out Bool) : Out Bool := do
  let x ← a
  if x then return true else b

/-- The case of two literals in `clauses_contradict_for_trace` (checker.rs:1065-1073). -/
def unitsContradict (env : CheckEnv) (c d : Clause) (l r : Literal) : Out Bool := do
  let nl ← Out.ofOption (Clause.new [l.negate] c.ctx)
  let nr ← Out.ofOption (Clause.new [r.negate] d.ctx)
  orTest (specializes env c nr) (specializes env d nl)

/-- `clauses_contradict_for_trace` (checker.rs:1056-1083). -/
def clausesContradict (env : CheckEnv) (c d : Clause) : Out Bool :=
  if c.isImpossible || d.isImpossible then .done true
  else
    match c.lits, d.lits with
    | [l], [r] => unitsContradict env c d l r
    | _, _ =>
      if c.hasAnyVar || d.hasAnyVar then .done false
      else do
        let s ← insertTrace env new c .previousClaim
        let s ← insertTrace env s d .previousClaim
        return s.hasContradiction

end Checker
end Acorn
