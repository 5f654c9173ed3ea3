/-
Model of certificate proof traces (certificate_trace.rs) and of the removal of unreferenced
auxiliary steps.
-/
namespace Acorn

/-- `TraceRule` (certificate_trace.rs:95-134). -/
inductive TraceRule where
  | fact | claim | br | brIntro | eq | er | ef | ext | inj | inst | wit | contra
  deriving DecidableEq, Repr, Inhabited

/-- `TraceStep` (certificate_trace.rs:29-48).  The claim is a list of characters; the kind of a
boolean reduction is a number. -/
structure TraceStep where
  rule : TraceRule
  claim : List Char
  premises : List Nat
  generic : Bool
  brKind : Option Nat
  brLiteral : Option Nat
  deriving DecidableEq, Repr, Inhabited

namespace Trace

/-- `is_serialized_generic_artifact` (certificate_trace.rs:54-56). -/
def isSerializedGenericArtifact (code : List Char) : Bool :=
  "(forall(".toList.isPrefixOf code || "forall(".toList.isPrefixOf code

/-- Marks the premises of one step (certificate_trace.rs:200-204); `get_mut` of an index out of range
does nothing. -/
def markPremises (referenced : List Bool) (premises : List Nat) : List Bool :=
  premises.foldl (fun r p => r.set p true) referenced

/-- The vector `referenced` (certificate_trace.rs:198-205). -/
def referencedSteps (steps : List TraceStep) : List Bool :=
  steps.foldl (fun r s => markPremises r s.premises) (List.replicate steps.length false)

/-- Whether the step at `index` is dropped (certificate_trace.rs:210-217). -/
def dropped (referenced : List Bool) (index : Nat) (step : TraceStep) : Bool :=
  let artifact := decide (step.rule = .claim) && step.premises.isEmpty && step.generic &&
    isSerializedGenericArtifact step.claim
  let auxiliary := step.generic || artifact
  auxiliary && !(referenced.getD index false)

/-- The loop that fills `remap` and `steps` (certificate_trace.rs:207-220), from index `i` on. -/
def retain (referenced : List Bool) : Nat → List TraceStep → List (Option Nat) × List TraceStep →
    List (Option Nat) × List TraceStep
  | _, [], acc => acc
  | i, s :: ss, (remap, kept) =>
    if dropped referenced i s then retain referenced (i + 1) ss (remap ++ [none], kept)
    else retain referenced (i + 1) ss (remap ++ [some kept.length], kept ++ [s])

/-- Renumbers premises (certificate_trace.rs:222-227); `none` is the panic of `expect`. -/
def renumber (remap : List (Option Nat)) : List Nat → Option (List Nat)
  | [] => some []
  | p :: ps => (remap[p]?.join).bind fun q => (renumber remap ps).map (q :: ·)

/-- Renumbers the premises of all steps (certificate_trace.rs:221-228). -/
def renumberAll (remap : List (Option Nat)) : List TraceStep → Option (List TraceStep)
  | [] => some []
  | s :: ss => (renumber remap s.premises).bind fun ps =>
      (renumberAll remap ss).map ({ s with premises := ps } :: ·)

/-- `ProofTrace::without_unreferenced_auxiliary_steps` (certificate_trace.rs:197-230). -/
def trim (steps : List TraceStep) : Option (List TraceStep) :=
  let (remap, kept) := retain (referencedSteps steps) 0 steps ([], [])
  renumberAll remap kept

end Trace
end Acorn
