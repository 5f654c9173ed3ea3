import Verif.Model.BuildSkip
import Verif.Model.Certificates
import Verif.Model.LoweredModule
/-
Verifying a module: the walk over its lowered items, the facts that are known at each goal, the use of
stored certificates and of proof search, and the certificates that are stored afterwards.

Models the non-benchmark paths of `src/builder.rs` (`verify_goal`, `verify_lowered_claim`,
`verify_lowered_items`, `verify_lowered_module`, `trim_unused_certificates`) and `src/processor.rs`.

Simplifications: checking a certificate, searching for a proof and writing the certificate of a found proof
are functions of the known facts and the goal (the checker is C23; the search is not modelled); adding a fact
succeeds, where the code reports an error for a lowered fact with a step that is no assumption; messages,
events other than "this goal is verified", timings and the eval (benchmark) mode are left out; so are package
interfaces, the strict mode that forbids `axiom`, and modules whose certificates are not stored.
-/
namespace Acorn.Vrf
open Elab (LowItem)
open Paths (Desc)

/-- `Outcome` (prover/mod.rs), as `search_finished` tells them apart (builder.rs:1890-2000): a proof was
found, the search was interrupted, or any other reason for there being no proof. -/
inductive Found where
  | proof | interrupted | nothing
  deriving DecidableEq

/-- `BuildStatus` (builder.rs:1190-1199). -/
inductive Status where
  | good | warning | error
  deriving DecidableEq

/-- `BuildStatus::warn` (builder.rs:1210-1214). -/
def Status.warn : Status → Status
  | .good => .warning
  | s => s

/-- `GoalFilter` (builder.rs), without the module it is for. -/
inductive LineFilter where
  | line (line : Nat) (index : Option Nat)
  | range (first last : Nat)

/-- Why the verification of a module was given up: the `BuildError`s of `verify_goal`, a module that is not
loaded, and the panic for an index that is not in the store. -/
inductive GaveUp where
  | interrupted | override | rejected | noCertificate | notWritten | missingModule | panic
  deriving DecidableEq

/-- Where facts come from.  `deps` is `all_dependencies`; `exports` the facts of `get_module_export`;
`initial` and `direct` are the `direct_dependencies` of the bindings of the module and of a goal; `fact` are
the lowered facts of the module. -/
structure Source (Fact : Type) where
  deps : Desc → List Desc
  exports : Desc → Option (List Fact)
  initial : List Desc
  direct : Nat → List Desc
  fact : Nat → Fact

/-- What a module is verified with.  `skipStore` is `print_found_proof || force_search`; `name` and
`firstLine` are those of a goal; `check` is `check_cert_with_usage` and gives the number of proof steps that
were used; `cancelled` tells whether the token is cancelled when a goal is reached. -/
structure Setting (Fact : Type) where
  src : Source Fact
  checkMode : Bool
  skipStore : Bool
  exitOnWarning : Bool
  filter : Option LineFilter
  override : Option Cert
  name : Nat → String
  firstLine : Nat → Nat
  check : List Fact → Nat → Cert → Option Nat
  search : List Fact → Nat → Found
  write : List Fact → Nat → Option Cert
  cancelled : Nat → Bool

/-- `Processor` (processor.rs:22-28): the facts given to the checker and the prover, in order, and the
modules that were imported. -/
structure Known (Fact : Type) where
  facts : List Fact := []
  imported : List Desc := []

/-- The part of the builder that `verify_goal` changes, with the arguments `new_certs` and `worklist`. -/
structure Progress where
  status : Status
  moduleGood : Bool
  done : Nat
  success : Nat
  lineCount : Nat
  verified : List Nat
  newCerts : List Cert
  work : Worklist

variable {Fact : Type}

/-- `add_lowered_fact` (processor.rs:205-232). -/
def Known.add (P : Known Fact) (f : Fact) : Known Fact := { P with facts := P.facts ++ [f] }

/-- `add_imported_module` (processor.rs:161-180). -/
def Known.addModule (M : Source Fact) (P : Known Fact) (m : Desc) : Except GaveUp (Known Fact) :=
  if m ∈ P.imported then .ok P
  else
    match M.exports m with
    | none => .error .missingModule
    | some fs => .ok ⟨P.facts ++ fs, m :: P.imported⟩

/-- The inner loop of `add_imports_from_bindings` (processor.rs:143-150). -/
def Known.addModules (M : Source Fact) : Known Fact → List Desc → Except GaveUp (Known Fact)
  | P, [] => .ok P
  | P, m :: ms => do (← P.addModule M m).addModules M ms

/-- `has_imports_for_bindings` (processor.rs:154-159). -/
def Known.hasImports (P : Known Fact) (direct : List Desc) : Bool := direct.all fun d => P.imported.contains d

/-- `add_imports_from_bindings` (processor.rs:133-152) and `processor_with_imports` (builder.rs:2576-2585). -/
def Known.addImports (M : Source Fact) (P : Known Fact) (direct : List Desc) : Except GaveUp (Known Fact) :=
  if P.hasImports direct then .ok P
  else P.addModules M (direct.flatMap fun d => M.deps d ++ [d])

/-- `trim_to_consumed_prefix` (certificate.rs:968-971). -/
def trimTo (c : Cert) (n : Nat) : Cert := { c with proof := c.proof.take n }

/-- The loop of `verify_goal` over the stored certificates (builder.rs:2306-2365): the index and the trimmed
certificate of the first one that is accepted. -/
def tryStored (S : Setting Fact) (facts : List Fact) (goal : Nat) (work : Worklist) :
    List Nat → Except GaveUp (Option (Nat × Cert))
  | [] => .ok none
  | i :: is =>
    match work.getCert i with
    | none => .error .panic
    | some c =>
      match S.check facts goal c with
      | some n => .ok (some (i, trimTo c n))
      | none => if S.checkMode then .error .rejected else tryStored S facts goal work is

/-- What is done when a goal was accepted (builder.rs:2292-2294, 2333-2336, 1925-1937). -/
def Progress.accept (st : Progress) (goal : Nat) : Progress :=
  { st with done := st.done + 1, success := st.success + 1, verified := st.verified ++ [goal] }

/-- The search phase of `verify_goal` (builder.rs:2372-2563) and `search_finished` (builder.rs:1890-2000). -/
def searchGoal (S : Setting Fact) (st : Progress) (facts : List Fact) (goal : Nat) : Except GaveUp Progress :=
  match S.search facts goal with
  | .proof =>
    match S.write facts goal with
    | none => .error .notWritten
    | some c => .ok ({ st with newCerts := st.newCerts ++ [c] }.accept goal)
  | .interrupted => .ok { st with done := st.done + 1, moduleGood := false, status := .error }
  | .nothing => .ok { st with done := st.done + 1, moduleGood := false, status := st.status.warn }

/-- `verify_goal` (builder.rs:2257-2567). -/
def verifyGoal (S : Setting Fact) (st : Progress) (facts : List Fact) (goal : Nat) : Except GaveUp Progress :=
  if S.cancelled goal then .error .interrupted
  else
    match S.override with
    | some c => if (S.check facts goal c).isSome then .ok (st.accept goal) else .error .override
    | none =>
      match tryStored S facts goal st.work (if S.skipStore then [] else st.work.getIndexes (S.name goal)) with
      | .error e => .error e
      | .ok (some (i, c)) =>
        .ok ({ st with newCerts := st.newCerts ++ [c], work := st.work.remove (S.name goal) i }.accept goal)
      | .ok none => if S.checkMode then .error .noCertificate else searchGoal S st facts goal

/-- `should_verify_for_line_filter` (builder.rs:2635-2662): the new `single_line_goal_count`, and whether the
goal is verified. -/
def LineFilter.takes (count firstLine : Nat) : LineFilter → Nat × Bool
  | .line l index =>
    if firstLine < l then (count, true)
    else if l < firstLine then (count, false)
    else
      (count + 1,
        match index with
        | some k => count + 1 ≤ k
        | none => true)
  | .range _ last => (count, firstLine ≤ last)

/-- `verify_lowered_claim` (builder.rs:2686-2759). -/
def verifyClaim (S : Setting Fact) (st : Progress) (P : Known Fact) (goal : Nat) : Except GaveUp Progress :=
  match S.filter with
  | none => do verifyGoal S st (← P.addImports S.src (S.src.direct goal)).facts goal
  | some f =>
    match f.takes st.lineCount (S.firstLine goal) with
    | (n, false) => .ok { st with lineCount := n }
    | (n, true) => do verifyGoal S { st with lineCount := n } (← P.addImports S.src (S.src.direct goal)).facts goal

/-- The test at the end of the loop of `verify_lowered_items` (builder.rs:2845-2847). -/
def Setting.stops (S : Setting Fact) (st : Progress) : Bool := S.exitOnWarning && st.status != .good

mutual

/-- One round of the loop of `verify_lowered_items` (builder.rs:2772-2844). -/
def verifyItem (S : Setting Fact) (top : Bool) (st : Progress) (P : Known Fact) :
    LowItem → Except GaveUp (Progress × Known Fact)
  | .fact i => .ok (st, P.add (S.src.fact i))
  | .claim goal i => do
    let P ← P.addImports S.src (S.src.direct goal)
    let st ← verifyClaim S st P goal
    return (st, P.add (S.src.fact i))
  | .block items external =>
    if items.isEmpty && top then .ok (st, (external.toList.map S.src.fact).foldl Known.add P)
    else do
      let (st, _) ← verifyItems S false st P items
      return (st, (external.toList.map S.src.fact).foldl Known.add P)

/-- `verify_lowered_items` (builder.rs:2761-2850). -/
def verifyItems (S : Setting Fact) (top : Bool) (st : Progress) (P : Known Fact) :
    List LowItem → Except GaveUp (Progress × Known Fact)
  | [] => .ok (st, P)
  | item :: items => do
    let (st, P) ← verifyItem S top st P item
    if S.stops st then return (st, P)
    verifyItems S top st P items

end

/-- What a module leaves behind: whether it is good, the counters of the builder, the goals reported as
verified, the number of unused certificates, and the certificates to store with the number of those that were
used; when there is a goal filter, none is counted or stored. -/
structure Verified where
  good : Bool
  status : Status
  done : Nat
  success : Nat
  verified : List Nat
  unused : Nat
  store : Option (List Cert × Nat)

/-- The state in which `verify_lowered_module` starts with the items (builder.rs:2878-2898). -/
def Progress.start (status : Status) (stored : List Cert) : Progress :=
  ⟨status, true, 0, 0, 0, [], [], Worklist.new stored⟩

/-- `verify_lowered_module` (builder.rs:2852-2975).  `stored` are the certificates of the module in the
cache, or none when the cache is not read; `order` is the order in which the hash map of the worklist is
iterated. -/
def verifyModule (S : Setting Fact) (status : Status) (stored : List Cert) (order : Worklist → List String)
    (items : List LowItem) : Except GaveUp Verified := do
  let st ←
    if items.isEmpty then .ok (Progress.start status stored)
    else do
      let P ← ({} : Known Fact).addImports S.src S.src.initial
      let (st, _) ← verifyItems S true (Progress.start status stored) P items
      .ok st
  return {
    good := st.moduleGood, status := st.status, done := st.done, success := st.success
    verified := st.verified, unused := if S.filter.isSome then 0 else st.work.unused
    store := if S.filter.isSome then none else some (appendUnused st.newCerts st.work (order st.work), st.newCerts.length) }

/-- The status of the build after a module (builder.rs:3459-3525, 2137-2149). -/
def statusAfter : Except GaveUp Verified → Status
  | .ok v => v.status
  | .error _ => .error

/-- `trim_unused_certificates` (builder.rs:3527-3538), when the whole build is good. -/
def trimUnused (store : List Cert × Nat) : List Cert := store.1.take store.2

/-- The facts `find_cert` (project.rs:3897-3935) checks certificates with: `with_imports_for_checking`
(processor.rs:119-131) and `add_visible_module_facts` (processor.rs:183-196). -/
def lookupFacts (M : Source Fact) (items : List LowItem) (goal : Nat) : Option (List Fact) :=
  match ({} : Known Fact).addImports M (M.direct goal), Elab.visibleFor goal [] items with
  | .ok P, some ids => some ((ids.map M.fact).foldl Known.add P).facts
  | _, _ => none

end Acorn.Vrf
