import Verif.Model.Literal
import Verif.Model.AMap
/-
Model of `proof_order.rs`: the order in which certificate lines are suggested to be emitted.

A clause is its list of literals here; `unit_support_order` reads nothing else.  Array accesses and
the unsigned decrement are partial in Rust; they answer `none` here (a panic).
-/
namespace Acorn.ProofOrder

/-- One round of the loop that fills `positive_units` (proof_order.rs:12-19). -/
def addUnit (m : AMap Literal (List Nat)) (e : List Literal × Nat) : AMap Literal (List Nat) :=
  match e.1 with
  | [l] => if l.positive then m.insert l (((m.get? l).getD []) ++ [e.2]) else m
  | _ => m

/-- The map `positive_units` (proof_order.rs:11-19): positive literal ↦ indices of the clauses that
consist of just that literal. -/
def positiveUnits (cs : List (List Literal)) : AMap Literal (List Nat) :=
  cs.zipIdx.foldl addUnit AMap.empty

/-- Candidate edges of the first loop (proof_order.rs:24-46), in the order the three nested loops
visit them. -/
def unitCandidates (cs : List (List Literal)) : List (Nat × Nat) :=
  let units := positiveUnits cs
  cs.zipIdx.flatMap fun e =>
    if e.1.length ≤ 1 then [] else
      e.1.flatMap fun l =>
        if l.positive then [] else
          match units.get? l.negate with
          | none => []
          | some is => is.filterMap fun s => if s ≤ e.2 then none else some (s, e.2)

/-- Candidate edges of the second loop (proof_order.rs:47-68). -/
def memberCandidates (cs : List (List Literal)) : List (Nat × Nat) :=
  cs.zipIdx.flatMap fun e =>
    match e.1 with
    | [l] => cs.zipIdx.filterMap fun s =>
        if s.2 ≤ e.2 || decide (s.1.length ≤ 1) then none
        else if !(s.1.any fun x => x == l) then none
        else some (s.2, e.2)
    | _ => []

/-- The local variables `seen_edges`, `edges` and `indegree` (proof_order.rs:21-23). -/
structure Graph where
  seen : List (Nat × Nat)
  edges : List (List Nat)
  indegree : List Nat

/-- `if seen_edges.insert(…) { edges[s].push(d); indegree[d] += 1 }` (proof_order.rs:40-43,64-67). -/
def addEdge (g : Graph) (e : Nat × Nat) : Option Graph :=
  if g.seen.contains e then some g
  else if e.1 < g.edges.length ∧ e.2 < g.indegree.length then
    some ⟨e :: g.seen, g.edges.modify e.1 (· ++ [e.2]), g.indegree.modify e.2 (· + 1)⟩
  else none

/-- Adds edges one by one. -/
def addEdges (g : Graph) : List (Nat × Nat) → Option Graph
  | [] => some g
  | e :: es => (addEdge g e).bind fun g => addEdges g es

/-- The inner loop over `edges[index]` (proof_order.rs:83-88). -/
def relax (indegree ready : List Nat) : List Nat → Option (List Nat × List Nat)
  | [] => some (indegree, ready)
  | d :: ds =>
    match indegree[d]? with
    | none => none
    | some 0 => none
    | some (k + 1) =>
      let ready := if k = 0 then (if ready.contains d then ready else d :: ready) else ready
      relax (indegree.set d k) ready ds

/-- `BTreeSet::pop_first`: the least element of the set, and the rest. -/
def popFirst (ready : List Nat) : Option (Nat × List Nat) :=
  ready.min?.map fun x => (x, ready.erase x)

/-- The `while` loop (proof_order.rs:81-89).  `fuel` bounds the number of rounds; running out of it
is reported as a failure, and `C31_*` show that `n` rounds suffice. -/
def kahn (edges : List (List Nat)) :
    Nat → (indegree ready ordered : List Nat) → Option (List Nat)
  | fuel, indegree, ready, ordered =>
    match popFirst ready with
    | none => some ordered
    | some (x, ready) =>
      match fuel with
      | 0 => none
      | fuel + 1 =>
        match edges[x]? with
        | none => none
        | some ds =>
          match relax indegree ready ds with
          | none => none
          | some (indegree, ready) => kahn edges fuel indegree ready (ordered ++ [x])

/-- `unit_support_order` (proof_order.rs:10-103).  The outer `none` is a panic. -/
def unitSupportOrder (cs : List (List Literal)) : Option (Option (List Nat)) :=
  let n := cs.length
  match addEdges ⟨[], List.replicate n [], List.replicate n 0⟩
      (unitCandidates cs ++ memberCandidates cs) with
  | none => none
  | some g =>
    if g.seen.isEmpty then some none
    else
      let ready := (g.indegree.zipIdx.filter fun e => e.1 == 0).map Prod.snd
      match kahn g.edges n g.indegree ready [] with
      | none => none
      | some ordered =>
        if ordered.length ≠ n then some none
        else if ordered.zipIdx.all fun e => e.2 == e.1 then some none
        else some (some ordered)

end Acorn.ProofOrder
