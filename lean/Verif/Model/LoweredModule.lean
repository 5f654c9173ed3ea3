import Verif.Model.Environment
/-
The lowered form of a module, as in `src/elaborator/lowered_module.rs`, and the pass over the nodes of an
environment that makes it (`src/elaborator/environment/mod.rs`).

Simplifications: facts and goals are kept as they are in the environment, where the code keeps their
lowered forms, which are the subject of C46; lowering succeeds, where the code reports an error for the
whole module otherwise; line numbers, contexts and the ranges of axioms are left out.
-/
namespace Acorn
namespace Elab

/-- `LoweredItem` (lowered_module.rs:40-58); facts and goals are numbers. -/
inductive LowItem where
  | fact (id : Nat)
  | claim (goal postFact : Nat)
  | block (items : List LowItem) (external : Option Nat)

/-- The facts, goals and exported facts of `LoweredModule` (lowered_module.rs:155-165). -/
structure LowModule where
  facts : List EnvFact := []
  goals : List (List EnvConst × Value) := []
  moduleFacts : List Nat := []

/-- `add_fact` (lowered_module.rs:181-185), and the test for exported facts (environment/mod.rs:932-933,
973-974, 1026-1027). -/
def LowModule.addFact (m : LowModule) (importable : EnvFact → Bool) (top : Bool) (f : EnvFact) : LowModule × Nat :=
  ({ m with
    facts := m.facts ++ [f]
    moduleFacts := if top && importable f then m.moduleFacts ++ [m.facts.length] else m.moduleFacts },
   m.facts.length)

/-- `add_goal` (lowered_module.rs:187-194). -/
def LowModule.addGoal (m : LowModule) (known : List EnvConst) (g : Value) : LowModule × Nat :=
  ({ m with goals := m.goals ++ [(known, g)] }, m.goals.length)

mutual

/-- One step of the loop of `lower_nodes_pass` (environment/mod.rs:923-1036). -/
def lowerNode (importable : EnvFact → Bool) (top : Bool) (m : LowModule) : EnvNode → LowModule × LowItem
  | .structural f =>
    let (m, i) := m.addFact importable top f
    (m, .fact i)
  | .claim known g f =>
    let (m, j) := m.addGoal known g
    let (m, i) := m.addFact importable top f
    (m, .claim j i)
  | .block nodes external =>
    let (m, items) := lowerNodes importable false m nodes
    match external with
    | none => (m, .block items none)
    | some f =>
      let (m, i) := m.addFact importable top f
      (m, .block items (some i))

/-- `lower_nodes_pass` (environment/mod.rs:903-1045). -/
def lowerNodes (importable : EnvFact → Bool) (top : Bool) (m : LowModule) : List EnvNode → LowModule × List LowItem
  | [] => (m, [])
  | n :: ns =>
    let (m, item) := lowerNode importable top m n
    let (m, items) := lowerNodes importable top m ns
    (m, item :: items)

end

mutual

/-- One step of the loop of `visible_fact_ids_for_goal` (lowered_module.rs:289-320): the result when the
goal is found, and the facts visible afterwards when it is not. -/
def visibleItem (goal : Nat) (visible : List Nat) : LowItem → List Nat ⊕ List Nat
  | .fact i => .inr (visible ++ [i])
  | .claim j i => if j = goal then .inl visible else .inr (visible ++ [i])
  | .block items external =>
    match visibleFor goal visible items with
    | some r => .inl r
    | none => .inr (visible ++ external.toList)

/-- `visible_fact_ids_for_goal` (lowered_module.rs:283-323). -/
def visibleFor (goal : Nat) (visible : List Nat) : List LowItem → Option (List Nat)
  | [] => none
  | item :: items =>
    match visibleItem goal visible item with
    | .inl r => some r
    | .inr visible => visibleFor goal visible items

end

end Elab
end Acorn
