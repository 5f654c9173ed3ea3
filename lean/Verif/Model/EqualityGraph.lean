/-
The equality graph: congruence closure over concrete terms, with ground clauses.
Models /repo/src/kernel/equality_graph.rs.

Simplifications:
 * ids are unbounded numbers (`u32` in Rust);
 * the variable map and context stored with a rewrite are left out;
 * hash maps are iterated in the order given by a parameter `ω` (any permutation);
 * recursive functions and loops take a number of steps `fuel`; `Out.more` is the result when it does
   not suffice, `Out.panic` stands for any panic.  `pending` is a stack whose head is the last element
   of the vector in Rust.
-/
import Verif.Model.ClauseSet
import Verif.Model.Clause
namespace Acorn

/-- Result of a computation: a value, a panic, or not enough steps allowed. -/
inductive Out (α : Type) where
  | done (a : α)
  | panic
  | more

/-- Sequencing. -/
def Out.bind {α β : Type} : Out α → (α → Out β) → Out β
  | .done a, f => f a
  | .panic, _ => .panic
  | .more, _ => .more

instance : Monad Out where
  pure := .done
  bind := Out.bind

/-- A computation that may panic. -/
def Out.ofOption {α : Type} : Option α → Out α
  | some a => .done a
  | none => .panic

/-- The iteration orders of hash maps and hash sets. -/
structure HashOrder where
  keys : List Nat → List Nat
  keys_perm : ∀ l, (keys l).Perm l
  sets : List GClause → List GClause
  sets_perm : ∀ l, (sets l).Perm l

/-- `RewriteSource` (equality_graph.rs:35-57). -/
structure RewriteSource where
  pattern : Nat
  inspiration : Option Nat
  left : Nat
  right : Nat
deriving DecidableEq, Repr

/-- `Decomposition` (equality_graph.rs:140-151). -/
inductive GDecomp where
  | atomic (a : Atom)
  | application (f a : Nat)
  | «opaque»
deriving DecidableEq, Repr

/-- `TermInfo` (equality_graph.rs:154-164). -/
structure TermInfo where
  term : Term
  group : Nat
  decomp : GDecomp
  adjacent : List (Nat × Option RewriteSource)

/-- `GroupInfo` (equality_graph.rs:175-187). -/
structure GroupInfo where
  terms : List Nat
  apps : List Nat
  ineqs : AMap Nat (Nat × Nat × Nat)

/-- `PossibleGroupInfo` (equality_graph.rs:167-172). -/
inductive Group where
  | remapped (g : Nat)
  | info (i : GroupInfo)

/-- `ApplicationInfo` with its `ApplicationKey` (equality_graph.rs:215-256). -/
structure AppInfo where
  key : Nat × Nat
  result : Nat
deriving DecidableEq, Repr

/-- `SemanticOperation` (equality_graph.rs:280-293). -/
inductive Op where
  | rewrite (s : RewriteSource)
  | eq (a b : Nat)
  | neq (a b step : Nat)
  | clause (c : GClause)
deriving DecidableEq, Repr

/-- `EqualityGraph` (equality_graph.rs:300-336). -/
structure EGraph where
  terms : List TermInfo
  groups : List Group
  apps : List (Option AppInfo)
  cset : ClauseSet
  appMap : AMap (Nat × Nat) Nat
  decomps : AMap GDecomp Nat
  pending : List Op
  contra : Bool
  contraInfo : Option (Nat × Nat × Nat)
  opaques : AMap Term Nat

namespace EGraph

/-- `EqualityGraph::new` (equality_graph.rs:345-358). -/
def empty : EGraph :=
  ⟨[], [], [], ClauseSet.empty, AMap.empty, AMap.empty, [], false, none, AMap.empty⟩

/-- `get_term` (equality_graph.rs:393-395). -/
def term? (g : EGraph) (t : Nat) : Option Term := (g.terms[t]?).map (·.term)

/-- `get_group_id` (equality_graph.rs:397-399). -/
def group? (g : EGraph) (t : Nat) : Option Nat := (g.terms[t]?).map (·.group)

/-- `get_group_info` (equality_graph.rs:424-431). -/
def info? (g : EGraph) (k : Nat) : Option GroupInfo :=
  match g.groups[k]? with
  | some (.info i) => some i
  | _ => none

/-- Replace the information of a group. -/
def setInfo (g : EGraph) (k : Nat) (i : GroupInfo) : EGraph :=
  { g with groups := g.groups.set k (.info i) }

/-- Push a semantic operation. -/
def push (g : EGraph) (op : Op) : EGraph := { g with pending := op :: g.pending }

/-- Make a new term and a new group for it (the common part of equality_graph.rs:442-459, 484-499,
534-548). -/
def newTerm (g : EGraph) (t : Term) (d : GDecomp) : Nat × EGraph :=
  (g.terms.length,
    { g with
      terms := g.terms ++ [⟨t, g.groups.length, d, []⟩]
      groups := g.groups ++ [.info ⟨[g.terms.length], [], AMap.empty⟩] })

/-- `insert_atom` (equality_graph.rs:436-462). -/
def insertAtom (g : EGraph) (a : Atom) : Nat × EGraph :=
  match g.decomps.get? (.atomic a) with
  | some id => (id, g)
  | none =>
    let (id, g) := g.newTerm (.atom a) (.atomic a)
    (id, { g with decomps := g.decomps.insert (.atomic a) id })

/-- `insert_opaque_term` (equality_graph.rs:528-551). -/
def insertOpaque (g : EGraph) (t : Term) : Nat × EGraph :=
  match g.opaques.get? t with
  | some id => (id, g)
  | none =>
    let (id, g) := g.newTerm t .opaque
    (id, { g with opaques := g.opaques.insert t id })

/-- `ApplicationKey::groups` (equality_graph.rs:230-238). -/
def keyGroups (k : Nat × Nat) : List Nat :=
  if k.1 = k.2 then [k.1] else if k.1 ≤ k.2 then [k.1, k.2] else [k.2, k.1]

/-- Record an application with the groups of its key (equality_graph.rs:572-586). -/
def addAppTo (app : Nat) : List Nat → EGraph → Option EGraph
  | [], g => some g
  | k :: ks, g => do
    let i ← g.info? k
    addAppTo app ks (g.setInfo k { i with apps := i.apps ++ [app] })

/-- `insert_group_application` (equality_graph.rs:555-590). -/
def insertGroupApp (g : EGraph) (f a result : Nat) : Option EGraph := do
  let rg ← g.group? result
  match g.appMap.get? (f, a) with
  | some ex => do
    let eg ← g.group? ex
    if eg ≠ rg then return g.push (.eq ex result) else return g
  | none => do
    let g ← addAppTo g.apps.length (keyGroups (f, a)) g
    return { g with
      apps := g.apps ++ [some ⟨(f, a), result⟩]
      appMap := g.appMap.insert (f, a) result }

/-- `ApplicationKey::remap_group` (equality_graph.rs:221-228). -/
def remapKey (old new : Nat) (k : Nat × Nat) : Nat × Nat :=
  (if k.1 = old then new else k.1, if k.2 = old then new else k.2)

/-- The loop over the applications of the merged group (equality_graph.rs:709-742). -/
def rekeyApps (old new : Nat) : List Nat → List Nat → EGraph → Option (List Nat × EGraph)
  | [], keep, g => some (keep, g)
  | i :: is, keep, g =>
    match g.apps[i]? with
    | none => none
    | some none => rekeyApps old new is keep g
    | some (some app) =>
      let key := remapKey old new app.key
      let map := g.appMap.erase app.key
      match map.get? key with
      | some ex =>
        rekeyApps old new is keep
          { g with
            apps := g.apps.set i none
            appMap := map
            pending := .eq app.result ex :: g.pending }
      | none =>
        rekeyApps old new is (keep ++ [i])
          { g with
            apps := g.apps.set i (some ⟨key, app.result⟩)
            appMap := map.insert key app.result }

/-- The loop over the disequalities of the merged group (equality_graph.rs:744-768). -/
def rekeyIneqs (old new : Nat) :
    List Nat → List (Nat × Nat) → EGraph → Option (List (Nat × Nat) × EGraph)
  | [], disc, g => some (disc, g)
  | u :: us, disc, g => do
    let i ← g.info? u
    let value ← i.ineqs.get? old
    let i' := { i with ineqs := i.ineqs.erase old }
    if u = new then
      rekeyIneqs old new us disc
        { g.setInfo u i' with contra := true, contraInfo := some value }
    else if i'.ineqs.contains new then
      rekeyIneqs old new us disc (g.setInfo u i')
    else
      rekeyIneqs old new us (disc ++ [(u, new)])
        (g.setInfo u { i' with ineqs := i'.ineqs.insert new value })

/-- `handle_inequality` (equality_graph.rs:1133-1154). -/
def handleInequality (ω : HashOrder) (g : EGraph) (g1 g2 : Nat) : EGraph :=
  let (pos, cs) := g.cset.removeLiteral (GLit.new g1 g2 true)
  let (neg, cs) := cs.removeLiteral (GLit.new g1 g2 false)
  { g with
    cset := cs
    pending := (ω.sets pos ++ ω.sets neg).foldl (fun p c => .clause c :: p) g.pending }

/-- Handle several discovered disequalities (equality_graph.rs:770-773, 824-827). -/
def handleAll (ω : HashOrder) : List (Nat × Nat) → EGraph → EGraph
  | [], g => g
  | (a, b) :: rest, g => handleAll ω rest (g.handleInequality ω a b)

/-- Merge the disequalities of the old group into those of the new one (equality_graph.rs:785-790). -/
def mergeIneqs (new : Nat) : List (Nat × (Nat × Nat × Nat)) → AMap Nat (Nat × Nat × Nat) →
    AMap Nat (Nat × Nat × Nat)
  | [], m => m
  | (k, v) :: rest, m =>
    if k ≠ new ∧ m.contains k = false then mergeIneqs new rest (m.insert k v)
    else mergeIneqs new rest m

/-- The reverse updates (equality_graph.rs:809-822). -/
def reverseIneqs (new : Nat) (ineqs : AMap Nat (Nat × Nat × Nat)) :
    List Nat → List (Nat × Nat) → EGraph → List (Nat × Nat) × EGraph
  | [], acc, g => (acc, g)
  | k :: ks, acc, g =>
    match ineqs.get? k, g.info? k with
    | some v, some i =>
      if i.ineqs.contains new then reverseIneqs new ineqs ks acc g
      else reverseIneqs new ineqs ks (acc ++ [(k, new)])
        (g.setInfo k { i with ineqs := i.ineqs.insert new v })
    | _, _ => reverseIneqs new ineqs ks acc g

/-- Rewrite the groups of a clause (equality_graph.rs:834-847). -/
def remapLit (old new : Nat) (l : GLit) : GLit :=
  GLit.new (if l.left = old then new else l.left) (if l.right = old then new else l.right) l.positive

/-- Requeue the clauses of the merged group (equality_graph.rs:829-863). -/
def migrate (old new : Nat) : List GClause → EGraph → EGraph
  | [], g => g
  | c :: cs, g =>
    match GClause.new (c.map (remapLit old new)) with
    | .tt => migrate old new cs g
    | .ff => migrate old new cs { g with contra := true }
    | .clause c' => migrate old new cs (g.push (.clause c'))

/-- Add an edge to the rewrite graph (equality_graph.rs:865-870). -/
def addEdge (g : EGraph) (a b : Nat) (src : Option RewriteSource) : EGraph :=
  { g with terms := g.terms.modify a fun i => { i with adjacent := i.adjacent ++ [(b, src)] } }

/-- `remap_group` (equality_graph.rs:688-871). -/
def remapGroup (ω : HashOrder) (g : EGraph) (oldTerm old newTerm new : Nat)
    (src : Option RewriteSource) : Option EGraph := do
  let oi ← g.info? old
  let g := { g with groups := g.groups.set old (.remapped new) }
  let g := { g with
    terms := oi.terms.foldl (fun ts t => ts.modify t fun i => { i with group := new }) g.terms }
  let (keep, g) ← rekeyApps old new oi.apps [] g
  let (disc, g) ← rekeyIneqs old new (ω.keys oi.ineqs.keys) [] g
  let g := handleAll ω disc g
  let ni ← g.info? new
  let ni := { ni with
    terms := ni.terms ++ oi.terms
    apps := ni.apps ++ keep
    ineqs := mergeIneqs new oi.ineqs.entries ni.ineqs }
  let g := g.setInfo new ni
  let (more, g) := reverseIneqs new ni.ineqs (ω.keys ni.ineqs.keys) [] g
  let g := handleAll ω more g
  let (removed, cs) := g.cset.removeGroup old
  let g := migrate old new (ω.sets removed) { g with cset := cs }
  return (g.addEdge oldTerm newTerm src).addEdge newTerm oldTerm src

/-- `heuristic_size` (equality_graph.rs:190-192). -/
def GroupInfo.size (i : GroupInfo) : Nat := i.terms.length + i.apps.length

/-- `set_terms_equal_once` (equality_graph.rs:1061-1082). -/
def setEqualOnce (ω : HashOrder) (g : EGraph) (t1 t2 : Nat) (src : Option RewriteSource) :
    Option EGraph := do
  let g1 ← g.group? t1
  let g2 ← g.group? t2
  if g1 = g2 then return g
  else do
    let i1 ← g.info? g1
    let i2 ← g.info? g2
    let s1 := GroupInfo.size i1
    let s2 := GroupInfo.size i2
    if s1 < s2 ∨ (s1 = s2 ∧ g2 < g1) then g.remapGroup ω t1 g1 t2 g2 src
    else g.remapGroup ω t2 g2 t1 g1 src

/-- `set_terms_not_equal_once` (equality_graph.rs:1158-1191). -/
def setNotEqualOnce (ω : HashOrder) (g : EGraph) (t1 t2 step : Nat) : Option EGraph := do
  let g1 ← g.group? t1
  let g2 ← g.group? t2
  if g1 = g2 then return { g with contra := true, contraInfo := some (t1, t2, step) }
  else do
    let i1 ← g.info? g1
    let _ ← g.info? g2
    if i1.ineqs.contains g2 then return g
    else do
      let g := g.setInfo g1 { i1 with ineqs := i1.ineqs.insert g2 (t1, t2, step) }
      let i2 ← g.info? g2
      if i2.ineqs.contains g1 then none
      else
        let g := g.setInfo g2 { i2 with ineqs := i2.ineqs.insert g1 (t1, t2, step) }
        return g.handleInequality ω g1 g2

/-- Follow the remapping of a group (equality_graph.rs:1524-1540); also returns the visited groups.
Following more links than there are groups would be an endless loop (`none`). -/
def followGroup (g : EGraph) : Nat → Nat → Option (List Nat × Nat)
  | 0, _ => none
  | fuel + 1, k =>
    match g.groups[k]? with
    | none => none
    | some (.info _) => some ([], k)
    | some (.remapped next) => do
      let (chain, r) ← followGroup g fuel next
      return (k :: chain, r)

/-- `update_group_id` (equality_graph.rs:1524-1552): follow the links and shorten them. -/
def updateGroup (g : EGraph) (k : Nat) : Option (Nat × EGraph) := do
  let (chain, r) ← g.followGroup (g.groups.length + 1) k
  return (r, { g with
    groups := chain.dropLast.foldl (fun gs i => gs.set i (.remapped r)) g.groups })

/-- The loop over the literals in `insert_clause_normalized` (equality_graph.rs:879-911).  The list is
`none` when a literal is true. -/
def reduceLits : List GLit → List GLit → EGraph → Option (Option (List GLit) × EGraph)
  | [], acc, g => some (some acc, g)
  | l :: ls, acc, g => do
    let (a, g) ← g.updateGroup l.left
    let (b, g) ← g.updateGroup l.right
    if a = b then
      if l.positive then return (none, g) else reduceLits ls acc g
    else do
      let i ← g.info? a
      if i.ineqs.contains b then
        if !l.positive then return (none, g) else reduceLits ls acc g
      else reduceLits ls (acc ++ [GLit.new a b l.positive]) g

/-- Flip the sign of the literal with index `i` (equality_graph.rs:983-997). -/
def flipAt (c : GClause) (i : Nat) : GClause :=
  c.modify i fun l => GLit.new l.left l.right (!l.positive)

/-- Resolve a clause with the stored clauses that differ from it in one sign
(equality_graph.rs:978-1029). -/
def resolveAll (c : GClause) : List Nat → EGraph → EGraph
  | [], g => g
  | i :: is, g =>
    if g.cset.contains (flipAt c i) then
      match GClause.new (c.eraseIdx i) with
      | .tt => resolveAll c is g
      | .ff => resolveAll c is { g with contra := true }
      | .clause r =>
        if g.cset.contains r then resolveAll c is g else resolveAll c is (g.push (.clause r))
    else resolveAll c is g

/-- The end of `insert_clause_normalized` (equality_graph.rs:958-1031). -/
def storeClause (ls : List GLit) (g : EGraph) : EGraph :=
  match GClause.new ls with
  | .tt => g
  | .ff => { g with contra := true }
  | .clause c =>
    if g.cset.contains c then g
    else resolveAll c (List.range c.length) { g with cset := g.cset.insert c }

/-- `insert_clause_normalized` (equality_graph.rs:874-1032). -/
def insertClauseNormalized (g : EGraph) (c : GClause) : Option EGraph := do
  let (r, g) ← reduceLits c [] g
  match r with
  | none => return g
  | some [] => return { g with contra := true }
  | some [l] => do
    let (a, g) ← g.updateGroup l.left
    let (b, g) ← g.updateGroup l.right
    let ai ← g.info? a
    let bi ← g.info? b
    match ai.terms, bi.terms with
    | s :: _, t :: _ => if l.positive then return g.push (.eq s t) else return g.push (.neq s t 0)
    | _, _ => return storeClause [l] g
  | some ls => return storeClause ls g

/-- One iteration of the loop of `process_pending` (equality_graph.rs:1041-1054). -/
def exec (ω : HashOrder) (op : Op) (g : EGraph) : Option EGraph :=
  match op with
  | .rewrite s => g.setEqualOnce ω s.left s.right (some s)
  | .eq a b => g.setEqualOnce ω a b none
  | .neq a b step => g.setNotEqualOnce ω a b step
  | .clause c => g.insertClauseNormalized c

/-- `process_pending` (equality_graph.rs:1034-1056). -/
def process (ω : HashOrder) : Nat → EGraph → Out EGraph
  | fuel, g =>
    match g.pending with
    | [] => .done g
    | op :: rest =>
      let g := { g with pending := rest }
      if g.contra then .done g
      else
        match fuel with
        | 0 => .more
        | fuel + 1 =>
          match exec ω op g with
          | none => .panic
          | some g => process ω fuel g

/-- The swapped orientation of an embedded equation (equality_graph.rs:512-516). -/
def swappedEq (t : Term) : Option Term :=
  match t.args with
  | [ty, x, y] =>
    if t.headAtom = .sym .eq_ then
      let s := Term.eq ty y x
      if s ≠ t then some s else none
    else none
  | _ => none

/-- `insert_application` (equality_graph.rs:467-523); `ins` is `insert_term`. -/
def insertApplication (ins : Term → EGraph → Out (Nat × EGraph)) (g : EGraph) (f a : Nat) :
    Out (Nat × EGraph) :=
  match g.decomps.get? (.application f a) with
  | some id => .done (id, g)
  | none => do
    let ft ← Out.ofOption (g.term? f)
    let at' ← Out.ofOption (g.term? a)
    let t := Term.app ft at'
    let (id, g) := g.newTerm t (.application f a)
    let g := { g with decomps := g.decomps.insert (.application f a) id }
    let fg ← Out.ofOption (g.group? f)
    let ag ← Out.ofOption (g.group? a)
    let g ← Out.ofOption (g.insertGroupApp fg ag id)
    match swappedEq t with
    | none => return (id, g)
    | some s => do
      let (sid, g) ← ins s g
      return (id, g.push (.eq id sid))

/-- `insert_term` (equality_graph.rs:595-640). -/
def insertTerm (ω : HashOrder) : Nat → Term → EGraph → Out (Nat × EGraph)
  | 0, _, _ => .more
  | fuel + 1, t, g => do
    let (id, g) ← match t with
      | .atom a => .done (g.insertAtom a)
      | .app f a => do
        let (fid, g) ← insertTerm ω fuel f g
        let (aid, g) ← insertTerm ω fuel a g
        insertApplication (insertTerm ω fuel) g fid aid
      | .bind _ _ _ => .done (g.insertOpaque t)
    let g ← process ω fuel g
    return (id, g)

/-- `set_terms_equal` (equality_graph.rs:1087-1123). -/
def setTermsEqual (ω : HashOrder) (fuel : Nat) (g : EGraph) (l r pattern : Nat)
    (inspiration : Option Nat) : Out EGraph :=
  process ω fuel (g.push (.rewrite ⟨pattern, inspiration, l, r⟩))

/-- `set_terms_not_equal` (equality_graph.rs:1125-1129). -/
def setTermsNotEqual (ω : HashOrder) (fuel : Nat) (g : EGraph) (l r step : Nat) : Out EGraph :=
  process ω fuel (g.push (.neq l r step))

/-- Insert the terms of the literals and translate them (equality_graph.rs:649-666, 1357-1364). -/
def litIds (ω : HashOrder) (fuel : Nat) : List Literal → EGraph → Out (List GLit × EGraph)
  | [], g => .done ([], g)
  | l :: ls, g => do
    let (a, g) ← insertTerm ω fuel l.left g
    let (b, g) ← insertTerm ω fuel l.right g
    let ag ← Out.ofOption (g.group? a)
    let bg ← Out.ofOption (g.group? b)
    let (rest, g) ← litIds ω fuel ls g
    return (GLit.new ag bg l.positive :: rest, g)

/-- `insert_clause` (equality_graph.rs:646-685). -/
def insertClause (ω : HashOrder) (fuel : Nat) (g : EGraph) (ls : List Literal) (step : Nat) :
    Out EGraph :=
  match ls with
  | [l] => do
    let (a, g) ← insertTerm ω fuel l.left g
    let (b, g) ← insertTerm ω fuel l.right g
    if l.positive then setTermsEqual ω fuel g a b step none else setTermsNotEqual ω fuel g a b step
  | _ => do
    let (ids, g) ← litIds ω fuel ls g
    match GClause.new ids with
    | .tt => process ω fuel g
    | .ff => process ω fuel { g with contra := true }
    | .clause c => process ω fuel (g.push (.clause c))

/-- `evaluate_literal` (equality_graph.rs:1206-1234). -/
def evaluateLiteral (ω : HashOrder) (fuel : Nat) (g : EGraph) (l : Literal) :
    Out (Option Bool × EGraph) :=
  if l.left.hasAnyVar || l.right.hasAnyVar then .done (none, g)
  else do
    let (a, g) ← insertTerm ω fuel l.left g
    let (b, g) ← insertTerm ω fuel l.right g
    let ag ← Out.ofOption (g.group? a)
    let bg ← Out.ofOption (g.group? b)
    if ag = bg then return (some l.positive, g)
    else do
      let i ← Out.ofOption (g.info? ag)
      if i.ineqs.contains bg then return (some !l.positive, g) else return (none, g)

/-- `clause_exists` (equality_graph.rs:1345-1383). -/
def clauseExists (ω : HashOrder) (fuel : Nat) (g : EGraph) (ls : List Literal) :
    Out (Bool × EGraph) :=
  if ls.isEmpty then .done (false, g)
  else if ls.any (fun l => l.left.hasAnyVar || l.right.hasAnyVar) then .done (false, g)
  else do
    let (ids, g) ← litIds ω fuel ls g
    match GClause.new ids with
    | .tt => return (true, g)
    | .ff => return (g.contra, g)
    | .clause c => return (g.cset.contains c, g)

/-- The loop of `check_clause` (equality_graph.rs:1329-1333). -/
def anyTrue (ω : HashOrder) (fuel : Nat) : List Literal → EGraph → Out (Bool × EGraph)
  | [], g => .done (false, g)
  | l :: ls, g => do
    let (r, g) ← evaluateLiteral ω fuel g l
    if r = some true then return (true, g) else anyTrue ω fuel ls g

/-- `check_clause` (equality_graph.rs:1324-1341). -/
def checkClause (ω : HashOrder) (fuel : Nat) (g : EGraph) (ls : List Literal) :
    Out (Bool × EGraph) :=
  if g.contra then .done (true, g)
  else do
    let (b, g) ← anyTrue ω fuel ls g
    if b then return (true, g) else clauseExists ω fuel g ls

end EGraph
end Acorn
