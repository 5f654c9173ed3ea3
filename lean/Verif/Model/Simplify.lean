import Verif.Model.VerifyModule
/-
`acorn simplify`: removing the lines of claims that are not needed.

Models `src/simplifier.rs`, on top of the model of verification (C55).

Simplifications: loading a project in which the file has a given text, and the search with its limits, are
functions; the other files do not change while the command runs; the lines of a claim and whether it is
anonymous are given by the numbers of its goal and its fact, where the code keeps the lines in the item; options
are valid and the target is found; writing a file succeeds and is one step; line numbers are unbounded; the
messages are left out.
-/
namespace Acorn.Simp
open Elab (LowItem)

abbrev Text := List Char

/-- `str::split_inclusive('\n')`, used in simplifier.rs:480. -/
def splitLines : Text → List Text
  | [] => []
  | c :: cs =>
    if c = '\n' then [c] :: splitLines cs
    else
      match splitLines cs with
      | [] => [[c]]
      | l :: ls => (c :: l) :: ls

/-- `remove_line_range` (simplifier.rs:476-488). -/
def removeLines (source : Text) (first last : Nat) : Option Text :=
  let lines := splitLines source
  if first > last then none
  else if first ≥ lines.length || last ≥ lines.length then none
  else some (lines.take first ++ lines.drop (last + 1)).flatten

/-- `LoadedTarget` (simplifier.rs:55-61), without the text.  `lines` are the first and the last line of the claim
with this goal; `anonGoal` and `anonFact` are the tests for `SourceType::Anonymous` (simplifier.rs:341-345,
391-397). -/
structure Module (Fact : Type) where
  src : Vrf.Source Fact
  items : List LowItem
  lines : Nat → Nat × Nat
  anonGoal : Nat → Bool
  anonFact : Nat → Bool

/-- `Candidate` (simplifier.rs:63-69). -/
structure Candidate where
  goal : Nat
  fact : Nat
  first : Nat
  last : Nat
  deriving DecidableEq

mutual

/-- One round of `last_claim_fact` (simplifier.rs:376-389). -/
def lastClaimItem : LowItem → Option Nat
  | .fact _ => none
  | .claim _ f => some f
  | .block items _ => lastClaim items

/-- `last_claim_fact` (simplifier.rs:375-390). -/
def lastClaim : List LowItem → Option Nat
  | [] => none
  | item :: items =>
    match lastClaim items with
    | some f => some f
    | none => lastClaimItem item

end

mutual

/-- One round of `collect_exported_claims` (simplifier.rs:361-372). -/
def exportedItem : LowItem → List Nat
  | .block items _ => (lastClaim items).toList ++ exportedClaims items
  | _ => []

/-- `collect_exported_claims` (simplifier.rs:360-373). -/
def exportedClaims : List LowItem → List Nat
  | [] => []
  | item :: items => exportedItem item ++ exportedClaims items

end

variable {Fact : Type}

mutual

/-- One round of `collect_candidates_in_items` (simplifier.rs:326-357). -/
def candidatesItem (m : Module Fact) (exported : List Nat) (depth cursor : Nat) : LowItem → List Candidate
  | .fact _ => []
  | .claim goal fact =>
    if depth > 0 && (m.lines goal).1 ≥ cursor && !exported.contains fact && m.anonGoal goal && m.anonFact fact then
      [⟨goal, fact, (m.lines goal).1, (m.lines goal).2⟩]
    else []
  | .block items _ => candidatesIn m exported (depth + 1) cursor items

/-- `collect_candidates_in_items` (simplifier.rs:318-358). -/
def candidatesIn (m : Module Fact) (exported : List Nat) (depth cursor : Nat) : List LowItem → List Candidate
  | [] => []
  | item :: items => candidatesItem m exported depth cursor item ++ candidatesIn m exported depth cursor items

end

/-- The order of the candidates (simplifier.rs:307-314). -/
def Candidate.before (a b : Candidate) : Bool :=
  a.first < b.first || a.first == b.first && (a.last < b.last || a.last == b.last &&
    (a.fact < b.fact || a.fact == b.fact && a.goal ≤ b.goal))

/-- The first candidate in this order. -/
def least : List Candidate → Option Candidate
  | [] => none
  | c :: cs =>
    match least cs with
    | none => some c
    | some d => if c.before d then some c else some d

/-- The first of `collect_candidates` (simplifier.rs:294-316), which is the only one that is looked at
(simplifier.rs:95-98). -/
def firstCandidate (m : Module Fact) (cursor : Nat) : Option Candidate :=
  least (candidatesIn m (exportedClaims m.items) 0 cursor m.items)

/-- What a project with the file is: loading it with a text; the search with the limits of the options;
and how the edited module is verified.  `order` is that of a hash map (C55). -/
structure World (Fact : Type) where
  load : Text → Option (Module Fact)
  prove : Module Fact → List Fact → Nat → Bool
  tools : Module Fact → Vrf.Setting Fact
  order : Worklist → List String

/-- Why the command fails: the file does not load; a goal cannot be set up; lines that are not in the file; and
the two "simplify bug"s. -/
inductive Failure where
  | load | setup | outside | bugLoad | bugVerify
  deriving DecidableEq

/-- `collect_affected_goals` (simplifier.rs:399-410). -/
def affected (m : Module Fact) (fact : Nat) (goals : List Nat) : List Nat :=
  goals.filter fun g =>
    match Elab.visibleFor g [] m.items with
    | some ids => ids.contains fact
    | none => false

/-- The facts that `prove_without_fact` gives to the prover (simplifier.rs:432-464). -/
def maskedFacts (m : Module Fact) (goal fact : Nat) : Option (List Fact) :=
  match Elab.visibleFor goal [] m.items, ({} : Vrf.Known Fact).addImports m.src (m.src.direct goal) with
  | some ids, .ok P => some (((ids.filter (· != fact)).map m.src.fact).foldl Vrf.Known.add P).facts
  | _, _ => none

/-- `can_remove_candidate` (simplifier.rs:412-424). -/
def canRemove (W : World Fact) (m : Module Fact) (fact : Nat) : List Nat → Except Failure Bool
  | [] => .ok true
  | g :: gs =>
    match maskedFacts m g fact with
    | none => .error .setup
    | some facts => if W.prove m facts g then canRemove W m fact gs else .ok false

mutual

/-- The goals of an item. -/
def goalsItem : LowItem → List Nat
  | .fact _ => []
  | .claim g _ => [g]
  | .block items _ => goalsIn items

/-- `LoweredModule::goals` (lowered_module.rs), which are numbered in the order of the items. -/
def goalsIn : List LowItem → List Nat
  | [] => []
  | item :: items => goalsItem item ++ goalsIn items

end

/-- The settings of the builder in `verify_edited_target` (simplifier.rs:228-240). -/
def World.verifying (W : World Fact) (m : Module Fact) : Vrf.Setting Fact :=
  { W.tools m with src := m.src, checkMode := false, skipStore := false, exitOnWarning := true, filter := none,
                   override := none, cancelled := fun _ => false }

/-- `verify_edited_target` (simplifier.rs:226-264): the certificates to store. -/
def verifyEdited (W : World Fact) (m : Module Fact) (stored : List Cert) : Option (List Cert) :=
  match Vrf.verifyModule (W.verifying m) .good stored W.order m.items with
  | .error _ => none
  | .ok v =>
    if v.status = .good then
      match v.store with
      | some (certs, _) => some certs
      | none => some stored
    else none

/-- The file and its certificates. -/
structure Disk where
  source : Text
  certs : List Cert

/-- A write to the disk. -/
inductive Write where
  | certs (cs : List Cert)
  | source (t : Text)

/-- The disk after a write. -/
def Disk.after (d : Disk) : Write → Disk
  | .certs cs => { d with certs := cs }
  | .source t => { d with source := t }

/-- `SimplifyRemoval` (simplifier.rs:35-40). -/
structure Removal where
  first : Nat
  last : Nat
  affectedGoals : Nat
  deriving DecidableEq

/-- The variables of `simplify_file` (simplifier.rs:89-92), the disk, and the writes so far. -/
structure State where
  disk : Disk
  working : Option Text := none
  cursor : Nat := 0
  considered : Nat := 0
  removed : List Removal := []
  writes : List Write := []

/-- The text that is worked on (simplifier.rs:95, 194-200). -/
def State.text (st : State) : Text := st.working.getD st.disk.source

/-- One round of the loop of `simplify_file` (simplifier.rs:94-149); `none` when it ends. -/
def step (W : World Fact) (dry : Bool) (st : State) : Except Failure (Option State) :=
  match W.load st.text with
  | none => .error .load
  | some m =>
    match firstCandidate m st.cursor with
    | none => .ok none
    | some c =>
      let hit := affected m c.fact (goalsIn m.items)
      match canRemove W m c.fact hit with
      | .error e => .error e
      | .ok false => .ok (some { st with cursor := c.last + 1, considered := st.considered + 1 })
      | .ok true =>
        match removeLines st.text c.first c.last with
        | none => .error .outside
        | some edited =>
          match W.load edited with
          | none => .error .bugLoad
          | some m' =>
            match verifyEdited W m' st.disk.certs with
            | none => .error .bugVerify
            | some certs =>
              let st : State := { st with
                cursor := c.first
                considered := st.considered + 1
                removed := st.removed ++ [Removal.mk c.first c.last hit.length] }
              if dry then .ok (some { st with working := some edited })
              else .ok (some { st with
                disk := ⟨edited, certs⟩
                working := none
                writes := st.writes ++ [Write.certs certs, Write.source edited] })

/-- `simplify_file` (simplifier.rs:71-157), for a number of rounds; `none` when they are not enough.  The
last state, and the failure if there was one. -/
def run (W : World Fact) (dry : Bool) : Nat → State → Option (State × Option Failure)
  | 0, _ => none
  | n + 1, st =>
    match step W dry st with
    | .error e => some (st, some e)
    | .ok none => some (st, none)
    | .ok (some st') => run W dry n st'

end Acorn.Simp
