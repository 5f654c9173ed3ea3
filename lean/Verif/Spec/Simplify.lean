import Verif.Model.Simplify
import Verif.Spec.VerifyModule
/-
What `acorn simplify` may do to a file.
-/
namespace Acorn.Simp
open Elab (LowItem)

variable {Fact : Type}

mutual

/-- The claims in an item, with goal and fact. -/
def claimsItem : LowItem → List (Nat × Nat)
  | .fact _ => []
  | .claim g f => [(g, f)]
  | .block items _ => claimsOf items

/-- All claims, in the order of the text. -/
def claimsOf : List LowItem → List (Nat × Nat)
  | [] => []
  | item :: items => claimsItem item ++ claimsOf items

end

/-- These are the items of a block, at any depth. -/
inductive BlockIn (is : List LowItem) : List LowItem → Prop
  | here {items ext} : LowItem.block is ext ∈ items → BlockIn is items
  | inside {js ext items} : LowItem.block js ext ∈ items → BlockIn is js → BlockIn is items

/-- The fact is that of the last claim of a block. -/
def EndsBlock (items : List LowItem) (fact : Nat) : Prop :=
  ∃ is, BlockIn is items ∧ ∃ g, (claimsOf is).getLast? = some (g, fact)

/-- These are the facts a goal may use, without this fact of its own module. -/
def MayUseWithout (M : Vrf.Source Fact) (items : List LowItem) (goal fact : Nat) (facts : List Fact) : Prop :=
  ∃ (mods : List Paths.Desc) (ids : List Nat), mods.Nodup ∧ (∀ m, m ∈ mods ↔ Vrf.Needs M (M.direct goal) m) ∧
    Elab.visibleFor goal [] items = some ids ∧
    facts.Perm (mods.flatMap (Vrf.exported M) ++ (ids.filter (· ≠ fact)).map M.fact)

/-- The module is verified: each goal is accepted with the facts it may use, by the checker or by a search (C55). -/
def Verifies (W : World Fact) (m : Module Fact) : Prop :=
  ∃ (stored : List Cert) (rs : List (Vrf.Accepted Fact)), rs.map Vrf.Accepted.goal = Vrf.goalIds m.items ∧
    ∀ r ∈ rs, Vrf.MayUse m.src m.items r.goal r.facts ∧ r.Justified (W.verifying m) stored

/-- The text loads and is verified. -/
def GoodText (W : World Fact) (t : Text) : Prop := ∃ m, W.load t = some m ∧ Verifies W m

/-- `t'` is `t` without the lines of a claim that is not needed: an anonymous claim in a block, which is
not the last one of any block; every goal that sees its fact is proved without it; and the rest, in which
the other lines are as they were, loads and is verified. -/
structure Redundant (W : World Fact) (t : Text) (r : Removal) (t' : Text) (m : Module Fact) (goal fact : Nat) : Prop where
  loaded : W.load t = some m
  inner : ∃ is, BlockIn is m.items ∧ (goal, fact) ∈ claimsOf is
  lines : m.lines goal = (r.first, r.last)
  anonymous : m.anonGoal goal = true ∧ m.anonFact fact = true
  notLast : ¬ EndsBlock m.items fact
  unneeded : ∀ g ∈ Vrf.goalIds m.items, ∀ ids, Elab.visibleFor g [] m.items = some ids → fact ∈ ids →
    ∃ facts, MayUseWithout m.src m.items g fact facts ∧ W.prove m facts g = true
  inside : r.first ≤ r.last ∧ r.last < (splitLines t).length
  edited : splitLines t' = (splitLines t).take r.first ++ (splitLines t).drop (r.last + 1)
  good : GoodText W t'

/-- A text is reached by removing the lines of claims that are not needed, one after the other. -/
inductive Chain (W : World Fact) (t : Text) : List Removal → Text → Prop
  | nil : Chain W t [] t
  | snoc {rs r t' t'' m goal fact} : Chain W t rs t' → Redundant W t' r t'' m goal fact → Chain W t (rs ++ [r]) t''

/-- A claim of a module that could be removed, by its place. -/
structure Removable (m : Module Fact) (goal fact : Nat) : Prop where
  inner : ∃ is, BlockIn is m.items ∧ (goal, fact) ∈ claimsOf is
  anonymous : m.anonGoal goal = true ∧ m.anonFact fact = true
  notLast : ¬ EndsBlock m.items fact

/-- Some goal that sees the fact is not proved without it. -/
def NeededBy (W : World Fact) (m : Module Fact) (fact : Nat) : Prop :=
  ∃ g ∈ Vrf.goalIds m.items, ∃ ids, Elab.visibleFor g [] m.items = some ids ∧ fact ∈ ids ∧
    ∃ facts, MayUseWithout m.src m.items g fact facts ∧ W.prove m facts g = false

end Acorn.Simp
