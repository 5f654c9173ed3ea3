/-
The passive set of the prover: the clauses that wait to be activated.
Models /repo/src/prover/passive_set.rs and the order of /repo/src/prover/score.rs.
-/
import Verif.Model.Fingerprint
import Verif.Model.Pdt
import Verif.Model.BoolReduce
namespace Acorn
namespace Passive

/-- The ways the passive set can panic: "Queue and clauses are out of sync" (passive_set.rs:480), an
index or an `unwrap` out of range (319-693), the assertion of `simplify` (719), and the panics of the
term functions that are called. -/
inductive Panic
  | sync
  | index
  | single
  | term
  deriving DecidableEq, Repr

/-- `Score` (/repo/src/prover/score.rs:11-22).  The shallow status that is ordered is its position in
`Deep < Spent < Unspent < Contradiction` (/repo/src/kernel/proof_step.rs:78-84).  The floating point
value stands for its position among the floating point numbers (`OrderedFloat` is a linear order). -/
structure Score where
  contradiction : Bool
  tier : Nat
  value : Int
  shallow : Bool
  deriving DecidableEq, Repr, Inhabited

/-- `Ord for Score` (score.rs:106-125): whether the score is shallow is not compared. -/
def Score.lt (a b : Score) : Bool :=
  (!a.contradiction && b.contradiction) ||
    (a.contradiction == b.contradiction &&
      (a.tier < b.tier || (a.tier == b.tier && decide (a.value < b.value))))

/-- The order of the pairs in `queue` (passive_set.rs:58). -/
def entryLt (a b : Score × Nat) : Bool := a.1.lt b.1 || (!b.1.lt a.1 && decide (a.2 < b.2))

/-- `df_key` (passive_set.rs:463-469). -/
def dfKey (s : Score) (id : Nat) : Bool × Nat × Nat := (s.contradiction, s.tier, id)

/-- The order of the triples in `df_queue` (passive_set.rs:88). -/
def dfLt (a b : Bool × Nat × Nat) : Bool :=
  (!a.1 && b.1) || (a.1 == b.1 && (a.2.1 < b.2.1 || (a.2.1 == b.2.1 && decide (a.2.2 < b.2.2))))

section
variable {α : Type}

/-- `BTreeSet::insert`: an element that is equal in the order is kept instead. -/
def setInsert (lt : α → α → Bool) (q : List α) (a : α) : List α :=
  if q.any (fun x => !lt x a && !lt a x) then q else a :: q

/-- `BTreeSet::remove`: the element that is equal in the order. -/
def setRemove (lt : α → α → Bool) (q : List α) (a : α) : List α := q.filter fun x => lt x a || lt a x

/-- The last element of a `BTreeSet`. -/
def setLast (lt : α → α → Bool) : List α → Option α
  | [] => none
  | a :: q =>
    match setLast lt q with
    | none => some a
    | some b => if lt b a then some a else some b

end

/-- The parts of `ProofStep` (proof_step.rs:384-414) that the passive set looks at: the clause, whether
the rule is `Assumption`, and `is_underlying_negated_goal` (proof_step.rs:366-372).  The rest (truthiness,
sizes, depth, shallow status, the premises) only reaches the scorer and the proof: it is `info`. -/
structure Step (R : Type) where
  clause : Clause
  assumption : Bool
  negatedGoal : Bool
  info : R

/-- What the passive set is given: the kernel context, `provably_inhabited`
(/repo/src/kernel/kernel_context.rs:368-374), the scorer (as a function of the negated goal steps seen so
far and the step), `uses_goal_features`, `df_interleave_period` (/repo/src/prover/scorer.rs:66-72, never zero), and
how the rest of a simplified step is made from the two steps and the new clause (passive_set.rs:653-673,
`ProofStep::simplification`). -/
structure Setup (R : Type) where
  K : KCtx
  inhabited : LCtx → Term → Bool
  score : List (Step R) → Step R → Score
  usesGoal : Bool
  period : Option Nat
  combine : R → R → Clause → R

/-- `PassiveSet` (passive_set.rs:50-97).  `goal` is `goal_symbols`: the steps they were harvested from.
The stored feature vectors are left out: they are only exported. -/
structure PassiveSet (R : Type) where
  clauses : List (Option (Step R × Score)) := []
  queue : List (Score × Nat) := []
  literals : Fingerprint.Trees (List Fingerprint.Component × List Fingerprint.Component) (Nat × Nat) := .empty
  singles : AMap (Term × Term) (Bool × Nat) := .empty
  contradiction : Option (Nat × Nat) := none
  allShallow : Bool := true
  goal : List (Step R) := []
  dfQueue : Option (List (Bool × Nat × Nat)) := none
  popCount : Nat := 0

/-- `PassiveEntry` (passive_set.rs:36-44). -/
structure Entry (R : Type) where
  id : Nat
  step : Step R
  score : Score

variable {R : Type}

/-- `PassiveSet::with_config` (passive_set.rs:248-269). -/
def PassiveSet.new (S : Setup R) : PassiveSet R := { dfQueue := S.period.map fun _ => [] }

/-- A panic of a term function. -/
def orTerm {α : Type} : Option α → Except Panic α
  | none => .error .term
  | some a => .ok a

/-- `pair_specialization_map` (passive_set.rs:107-133).  Outer `none` is a panic. -/
def pairMap (K : KCtx) (Γ Δ : LCtx) (l r l' r' : Term) : Option (Option VMap) :=
  VMap.andThen (VMap.matchTerms K Γ Δ [] l l') fun m => VMap.matchTerms K Γ Δ m r r'

/-- Whether `remap_var_map_keys` (passive_set.rs:135-145) finds all the variables of the map.  What it
returns is only kept for the proof. -/
def keysRemap (m : VMap) : Option (List Nat) → Bool
  | none => true
  | some ids => (List.range m.length).all fun i => (m.get i).isNone || decide (i < ids.length)

/-- The loop of `make_simplified` (passive_set.rs:171-226): the literals that stay, `none` if the clause is
dropped. -/
def keepLits (K : KCtx) (Γ Δ : LCtx) (l r : Term) (positive : Bool) (ids : Option (List Nat)) :
    List Literal → Except Panic (Option (List Literal))
  | [] => .ok (some [])
  | a :: as => do
    let removed ← match ← orTerm (pairMap K Γ Δ l r a.left a.right) with
      | some m => pure (some m)
      | none => orTerm (pairMap K Γ Δ l r a.right a.left)
    match removed with
    | some m =>
      if a.positive == positive then .ok none
      else if keysRemap m ids then keepLits K Γ Δ l r positive ids as
      else .ok none
    | none =>
      match ← keepLits K Γ Δ l r positive ids as with
      | some ls => .ok (some (a :: ls))
      | none => .ok none

/-- `make_simplified` (passive_set.rs:155-238). -/
def makeSimplified (K : KCtx) (Γ Δ : LCtx) (l r : Term) (positive : Bool) (ids : Option (List Nat))
    (lits : List Literal) : Except Panic (Option Clause) := do
  match ← keepLits K Γ Δ l r positive ids lits with
  | none => .ok none
  | some ls =>
    let t ← orTerm (Clause.normalizeWithTrace ⟨ls, Δ⟩)
    return some t.clause

/-- The test that all the variables of a context have provably inhabited types
(passive_set.rs:407-422, 638-647). -/
def allInhabited (S : Setup R) (Γ : LCtx) : Bool :=
  Γ.all fun
    | none => true
    | some T => S.inhabited Γ T

/-- The loop that indexes the literals of a clause (passive_set.rs:392-395). -/
def indexLits (K : KCtx) (Γ : LCtx) (id : Nat) : Nat → List Literal →
    Fingerprint.Trees (List Fingerprint.Component × List Fingerprint.Component) (Nat × Nat) →
    Option (Fingerprint.Trees (List Fingerprint.Component × List Fingerprint.Component) (Nat × Nat))
  | _, [], ts => some ts
  | i, l :: ls, ts => do
    let ts ← Fingerprint.insertLiteral K ts Γ l (id, i)
    indexLits K Γ id (i + 1) ls ts

/-- The table of the clauses with one literal (passive_set.rs:396-437): the new table and the
contradiction. -/
def recordSingle (S : Setup R) (p : PassiveSet R) (c : Clause) :
    Except Panic (AMap (Term × Term) (Bool × Nat) × Option (Nat × Nat)) :=
  match c.lits with
  | [l] =>
    match p.singles.get? (l.left, l.right) with
    | none => .ok (p.singles.insert (l.left, l.right) (l.positive, p.clauses.length), p.contradiction)
    | some (positive, old) =>
      if positive != l.positive then
        match p.clauses[old]? with
        | none => .error .index
        | some none => .ok (p.singles, p.contradiction)
        | some (some e) =>
          if allInhabited S c.ctx && allInhabited S e.1.clause.ctx then
            .ok (p.singles, some (old, p.clauses.length))
          else .ok (p.singles, p.contradiction)
      else .ok (p.singles, p.contradiction)
  | _ => .ok (p.singles, p.contradiction)

/-- `push_with_score_inner` (passive_set.rs:383-445). -/
def PassiveSet.pushOne (S : Setup R) (p : PassiveSet R) (s : Step R) (sc : Score) :
    Except Panic (PassiveSet R) := do
  let ts ← orTerm (indexLits S.K s.clause.ctx p.clauses.length 0 s.clause.lits p.literals)
  let (singles, contradiction) ← recordSingle S p s.clause
  return { p with
    literals := ts
    singles := singles
    contradiction := contradiction
    clauses := p.clauses ++ [some (s, sc)]
    queue := setInsert entryLt p.queue (sc, p.clauses.length)
    dfQueue := p.dfQueue.map fun q => setInsert dfLt q (dfKey sc p.clauses.length) }

/-- One round of the loop of `rescore_all` (passive_set.rs:299-314). -/
def PassiveSet.rescoreOne (S : Setup R) (p : PassiveSet R) (id : Nat) : PassiveSet R :=
  match p.clauses[id]? with
  | some (some (s, old)) =>
    let new := S.score p.goal s
    { p with
      queue := setInsert entryLt (setRemove entryLt p.queue (old, id)) (new, id)
      dfQueue := p.dfQueue.map fun q => setInsert dfLt (setRemove dfLt q (dfKey old id)) (dfKey new id)
      clauses := p.clauses.set id (some (s, new)) }
  | _ => p

/-- `rescore_all` (passive_set.rs:284-315).  The scores only depend on the steps and the goal, which do not
change in the loop. -/
def PassiveSet.rescoreAll (S : Setup R) (p : PassiveSet R) : PassiveSet R :=
  (List.range p.clauses.length).foldl (PassiveSet.rescoreOne S) p

/-- The loop of `push_batch` (passive_set.rs:350-359). -/
def PassiveSet.pushAll (S : Setup R) : PassiveSet R → List (Step R) → Except Panic (PassiveSet R)
  | p, [] => .ok p
  | p, s :: ss => do
    let p ← p.pushOne S s (S.score p.goal s)
    PassiveSet.pushAll S p ss

/-- `push_batch` (passive_set.rs:318-368). -/
def PassiveSet.push (S : Setup R) (p : PassiveSet R) (steps : List (Step R)) : Except Panic (PassiveSet R) :=
  let found := steps.filter (·.negatedGoal)
  let p1 := { p with goal := p.goal ++ found }
  let p2 := if !found.isEmpty && p.goal.isEmpty && S.usesGoal then p1.rescoreAll S else p1
  p2.pushAll S steps

/-- `next_shallow_entry` (passive_set.rs:455-461). -/
def PassiveSet.nextShallow (p : PassiveSet R) : Option (Score × Nat) :=
  setLast entryLt (p.queue.filter (·.1.shallow))

/-- `can_pop_for_verification` (passive_set.rs:448-453). -/
def PassiveSet.canPopForVerification (p : PassiveSet R) : Bool := p.allShallow && p.nextShallow.isSome

/-- `take_entry` (passive_set.rs:471-482). -/
def PassiveSet.take (p : PassiveSet R) (id : Nat) : Except Panic (Entry R × PassiveSet R) :=
  match p.clauses[id]? with
  | none => .error .index
  | some none => .error .sync
  | some (some (s, sc)) => .ok (⟨id, s, sc⟩, { p with clauses := p.clauses.set id none })

/-- `pop_df_entry` (passive_set.rs:508-520), with whether the score was shallow. -/
def PassiveSet.popDf (p : PassiveSet R) : Except Panic (Option (Entry R × Bool) × PassiveSet R) :=
  match p.dfQueue with
  | none => .ok (none, p)
  | some q =>
    match setLast dfLt q with
    | none => .ok (none, p)
    | some key =>
      let p := { p with dfQueue := some (setRemove dfLt q key) }
      match p.clauses[key.2.2]? with
      | none => .error .index
      | some none => .ok (none, p)
      | some (some (_, sc)) => do
        let (e, p) ← { p with
          queue := setRemove entryLt p.queue (sc, key.2.2)
          allShallow := p.allShallow && sc.shallow }.take key.2.2
        return (some (e, sc.shallow), p)

/-- The last part of `pop_entry_with_shallow` (passive_set.rs:494-504). -/
def PassiveSet.popBest (p : PassiveSet R) : Except Panic (Option (Entry R × Bool) × PassiveSet R) :=
  match setLast entryLt p.queue with
  | none => .ok (none, p)
  | some (sc, id) => do
    let (e, p) ← { p with
      queue := setRemove entryLt p.queue (sc, id)
      dfQueue := p.dfQueue.map fun q => setRemove dfLt q (dfKey sc id)
      allShallow := p.allShallow && sc.shallow }.take id
    return (some (e, sc.shallow), p)

/-- `pop_entry_with_shallow` (passive_set.rs:485-505). -/
def PassiveSet.pop (S : Setup R) (p : PassiveSet R) : Except Panic (Option (Entry R × Bool) × PassiveSet R) := do
  let p := { p with popCount := p.popCount + 1 }
  match S.period with
  | some n =>
    if p.popCount % n == 0 then
      match ← p.popDf with
      | (some e, p) => return (some e, p)
      | (none, p) => p.popBest
    else p.popBest
  | none => p.popBest

/-- `pop_shallow_entry` (passive_set.rs:527-534). -/
def PassiveSet.popShallow (p : PassiveSet R) : Except Panic (Option (Entry R) × PassiveSet R) :=
  match p.nextShallow with
  | none => .ok (none, p)
  | some (sc, id) => do
    let (e, p) ← { p with
      queue := setRemove entryLt p.queue (sc, id)
      dfQueue := p.dfQueue.map fun q => setRemove dfLt q (dfKey sc id) }.take id
    return (some e, p)

/-- The activated literal in one direction: the sides, the sign, their context, and
`activated_var_ids` (the arguments of `simplify_one_direction`, passive_set.rs:550-563). -/
structure Simplifier where
  left : Term
  right : Term
  positive : Bool
  ctx : LCtx
  ids : Option (List Nat)

/-- The removal of a clause from the set (passive_set.rs:610-615). -/
def PassiveSet.forget (p : PassiveSet R) (id : Nat) (sc : Score) : PassiveSet R :=
  { p with
    clauses := p.clauses.set id none
    queue := setRemove entryLt p.queue (sc, id)
    dfQueue := p.dfQueue.map fun q => setRemove dfLt q (dfKey sc id) }

/-- One round of the loop of `simplify_one_direction` (passive_set.rs:565-690). -/
def PassiveSet.visit (S : Setup R) (act : Step R) (f : Simplifier) (p : PassiveSet R) (id i : Nat) :
    Except Panic (PassiveSet R × Option (Step R)) :=
  match p.clauses[id]? with
  | none => .error .index
  | some none => .ok (p, none)
  | some (some (s, sc)) =>
    match s.clause.lits[i]? with
    | none => .error .index
    | some l => do
      match ← orTerm (pairMap S.K f.ctx s.clause.ctx f.left f.right l.left l.right) with
      | none => return (p, none)
      | some _ =>
        if s.assumption && f.positive == l.positive then return (p, none)
        let p := p.forget id sc
        if f.positive == l.positive then return (p, none)
        match ← makeSimplified S.K f.ctx s.clause.ctx f.left f.right f.positive f.ids s.clause.lits with
        | none => return (p, none)
        | some c =>
          if c.isImpossible && !(allInhabited S f.ctx && allInhabited S s.clause.ctx) then return (p, none)
          return (p, some ⟨c, false, s.negatedGoal, S.combine s.info act.info c⟩)

/-- The loop of `simplify_one_direction`: the set, and the new steps. -/
def PassiveSet.visitAll (S : Setup R) (act : Step R) (f : Simplifier) :
    PassiveSet R → List (Nat × Nat) → Except Panic (PassiveSet R × List (Step R))
  | p, [] => .ok (p, [])
  | p, (id, i) :: hits => do
    let (p, new) ← p.visit S act f id i
    let (p, news) ← PassiveSet.visitAll S act f p hits
    return (p, new.toList ++ news)

/-- `simplify_one_direction` (passive_set.rs:550-693).  `order` is the order in which the hash maps of the
index give what was found. -/
def PassiveSet.simplifyOne (S : Setup R) (order : List (Nat × Nat) → List (Nat × Nat)) (act : Step R)
    (f : Simplifier) (p : PassiveSet R) : Except Panic (PassiveSet R) := do
  let hits ← orTerm (Fingerprint.findSpecializing S.K p.literals f.ctx f.left f.right)
  let (p, news) ← p.visitAll S act f (order hits)
  p.push S news

/-- `simplify` (passive_set.rs:711-749). -/
def PassiveSet.simplify (S : Setup R) (order : List (Nat × Nat) → List (Nat × Nat)) (act : Step R)
    (p : PassiveSet R) : Except Panic (PassiveSet R) :=
  match act.clause.lits with
  | [l] => do
    let p ← p.simplifyOne S order act ⟨l.left, l.right, l.positive, act.clause.ctx, none⟩
    if ← orTerm (Pdt.strictKbo l) then return p
    let (right, left, Γ, ids) ← orTerm (Pdt.normalizedReversed l act.clause.ctx)
    p.simplifyOne S order act ⟨right, left, l.positive, Γ, some ids⟩
  | _ => .error .single

/-- `get_contradiction` (passive_set.rs:695-706). -/
def PassiveSet.getContradiction (p : PassiveSet R) : Except Panic (Option (Step R × Step R)) :=
  match p.contradiction with
  | none => .ok none
  | some (i, j) =>
    match p.clauses[i]?, p.clauses[j]? with
    | some (some a), some (some b) => .ok (some (a.1, b.1))
    | some _, some _ => .ok none
    | _, _ => .error .index

/-- `len` (passive_set.rs:752-754). -/
def PassiveSet.len (p : PassiveSet R) : Nat := p.queue.length

/-- What the prover does with the passive set. -/
inductive Op (R : Type)
  | push (steps : List (Step R))
  | pop
  | popShallow
  | simplify (order : List (Nat × Nat) → List (Nat × Nat)) (act : Step R)

/-- One operation, with the entry that was popped. -/
def PassiveSet.op (S : Setup R) (p : PassiveSet R) : Op R → Except Panic (PassiveSet R × Option (Entry R))
  | .push steps => do return (← p.push S steps, none)
  | .pop => do
    let (e, p) ← p.pop S
    return (p, e.map Prod.fst)
  | .popShallow => do
    let (e, p) ← p.popShallow
    return (p, e)
  | .simplify order act => do return (← p.simplify S order act, none)

/-- A sequence of operations, with the entries that were popped, in order. -/
def PassiveSet.run (S : Setup R) : PassiveSet R → List (Op R) → Except Panic (PassiveSet R × List (Entry R))
  | p, [] => .ok (p, [])
  | p, o :: os => do
    let (p, e) ← p.op S o
    let (p, es) ← PassiveSet.run S p os
    return (p, e.toList ++ es)

end Passive
end Acorn
