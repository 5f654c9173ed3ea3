/-
Proof obligations of local bindings (/repo/src/elaborator/local.rs and
/repo/src/elaborator/environment/add_statement/local_obligations.rs).

Names, ranges, tokens, bodies and `canonicalize_proposition` are left out; so is `genericize`.
-/
import Verif.Model.AcornValue
namespace Acorn
namespace LocalObl
open Elab

mutual
  /-- `LocalObligation` with its kind (local.rs:88-111): the types of the stack, then the parts of the kind. -/
  inductive Obl
    | claim (ts : List Ty) (premises : List Value) (claim : Value) (guarded : Bool)
    | witness (ts : List Ty) (existence : Value) (premises : List Value) (witness : Value)
    | block (ts : List Ty) (premises : List Value) (obls : Obls)
  /-- Some obligations. -/
  inductive Obls
    | nil
    | cons (o : Obl) (os : Obls)
end

/-- The types of the stack of an obligation. -/
def Obl.types : Obl → List Ty
  | .claim ts _ _ _ => ts
  | .witness ts _ _ _ => ts
  | .block ts _ _ => ts

/-- `conjoin_values` (local.rs:519-523). -/
def conjoin : List Value → Option Value
  | [] => none
  | v :: vs => some (vs.foldl (.bin .and) v)

/-- `conjoin_premises` (local.rs:436-442, 511-517). -/
def conjoinPremises (ps : List Value) : Value := (conjoin ps).getD (.bool true)

/-- `guarded_value` (local.rs:444-450), and the same for blocks (local.rs:544-548). -/
def guard (ps : List Value) (v : Value) : Value := if ps.isEmpty then v else .bin .implies (conjoinPremises ps) v

mutual
  /-- `exported_value_for_context_len` (local.rs:334-358). -/
  def Obl.exported (n : Nat) : Obl → Option Value
    | .claim ts ps c g => if ts.length ≠ n then none else if g then some (guard ps c) else none
    | .witness _ _ _ _ => none
    | .block ts ps os =>
      if ts.length ≠ n then none
      else
        match conjoin (os.exported ts.length) with
        | none => none
        | some c =>
          let v := Value.mkAll ts (guard ps c)
          if n = 0 then some v
          else
            match v with
            | .all _ b => some b
            | _ => none
  /-- The loop of `external_value` (local.rs:537-542). -/
  def Obls.exported (n : Nat) : Obls → List Value
    | .nil => []
    | .cons o os => (o.exported n).toList ++ os.exported n
end

/-- `LocalProofBlock::external_value` (local.rs:536-550). -/
def externalBlock (ts : List Ty) (ps : List Value) (os : Obls) : Option Value :=
  (conjoin (os.exported ts.length)).map fun c => Value.mkAll ts (guard ps c)

mutual
  /-- A node with a block (/repo/src/elaborator/node.rs): its arguments, what may be assumed in it, what is to be proved
  in it, the nodes in it, and the fact that others may use. -/
  inductive BNode
    | mk (ts : List Ty) (premises : List Value) (goal : Option Value) (inner : BNodes) (fact : Option Value)
  /-- Some nodes. -/
  inductive BNodes
    | nil
    | cons (b : BNode) (bs : BNodes)
end

/-- The fact of a node. -/
def BNode.fact : BNode → Option Value
  | .mk _ _ _ _ f => f

mutual
  /-- `add_local_obligations` for one obligation (local_obligations.rs:57-210).  Of a witness the node with the proof of
  existence is modelled; what is known of the witness is a definition. -/
  def Obl.node : Obl → BNode
    | .claim ts ps c g => .mk ts ps (some c) .nil (if g then some (Value.mkAll ts (guard ps c)) else none)
    | .witness ts e _ _ => .mk ts [] (some e) .nil (some (Value.mkAll ts e))
    | .block ts ps os => .mk ts ps none os.nodes (externalBlock ts ps os)
  /-- For all of them. -/
  def Obls.nodes : Obls → BNodes
    | .nil => .nil
    | .cons o os => .cons o.node os.nodes
end

end LocalObl
end Acorn
