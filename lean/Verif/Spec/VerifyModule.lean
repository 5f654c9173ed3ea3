import Verif.Model.VerifyModule
/-
What it means that a module is verified: which facts each goal may use, what accepts a goal, and which
certificates go with which goals.
-/
namespace Acorn.Vrf
open Elab (LowItem)
open Paths (Desc)

variable {Fact : Type}

mutual

/-- The goals in an item. -/
def goalsOf : LowItem → List Nat
  | .fact _ => []
  | .claim g _ => [g]
  | .block items _ => goalIds items

/-- The goals of a module, in the order of the text. -/
def goalIds : List LowItem → List Nat
  | [] => []
  | item :: items => goalsOf item ++ goalIds items

end

/-- A module is one of those that are imported directly, or one of their dependencies. -/
def Needs (M : Source Fact) (direct : List Desc) (m : Desc) : Prop := ∃ d ∈ direct, m = d ∨ m ∈ M.deps d

/-- The exported facts of a loaded module. -/
def exported (M : Source Fact) (m : Desc) : List Fact := (M.exports m).getD []

/-- The facts are those a goal may use: those exported by the modules that the bindings of the goal need, each
module once, and the facts of its own module that are visible at the goal, which keep their order. -/
def MayUse (M : Source Fact) (items : List LowItem) (goal : Nat) (facts : List Fact) : Prop :=
  ∃ (mods : List Desc) (ids : List Nat), mods.Nodup ∧ (∀ m, m ∈ mods ↔ Needs M (M.direct goal) m) ∧
    Elab.visibleFor goal [] items = some ids ∧
    facts.Perm (mods.flatMap (exported M) ++ ids.map M.fact) ∧ (ids.map M.fact).Sublist facts

mutual

/-- Along an item, the bindings of a goal import at least what was imported before it. -/
def GrowsItem (M : Source Fact) (base : List Desc) : LowItem → Prop
  | .fact _ => True
  | .claim g _ => ∀ d ∈ base, d ∈ M.direct g
  | .block items _ => Grows M base items

/-- Imports only grow: the bindings of a goal import at least what the module imported at its start, and what
the goals before it at its own level and at the levels of the blocks around it import. -/
def Grows (M : Source Fact) (base : List Desc) : List LowItem → Prop
  | [] => True
  | item :: items => GrowsItem M base item ∧
      Grows M (match item with | .claim g _ => M.direct g | _ => base) items

end

/-- A loaded module: the modules its bindings need are loaded, the dependencies of a dependency are
dependencies, the imports only grow, and no two goals have the same number. -/
structure LoadedModule (M : Source Fact) (items : List LowItem) : Prop where
  loaded : ∀ m, Needs M M.initial m ∨ (∃ g ∈ goalIds items, Needs M (M.direct g) m) → (M.exports m).isSome
  closed : ∀ d m, m ∈ M.deps d → ∀ x ∈ M.deps m, x ∈ M.deps d
  grows : Grows M M.initial items
  distinct : (goalIds items).Nodup

/-- One goal, verified with the given facts unless the goal filter leaves it out. -/
def attempt (S : Setting Fact) (st : Progress) (facts : List Fact) (goal : Nat) : Except GaveUp Progress :=
  match S.filter with
  | none => verifyGoal S st facts goal
  | some f =>
    match f.takes st.lineCount (S.firstLine goal) with
    | (n, false) => .ok { st with lineCount := n }
    | (n, true) => verifyGoal S { st with lineCount := n } facts goal

/-- Goals, each with its facts, one after the other, until one stops the build. -/
def inTurn (S : Setting Fact) (st : Progress) : List (List Fact × Nat) → Except GaveUp Progress
  | [] => .ok st
  | (facts, goal) :: rest => do
    let st ← attempt S st facts goal
    if S.stops st then return st
    inTurn S st rest

/-- What a module leaves behind in this state. -/
def Progress.leaves (S : Setting Fact) (order : Worklist → List String) (st : Progress) : Verified where
  good := st.moduleGood
  status := st.status
  done := st.done
  success := st.success
  verified := st.verified
  unused := if S.filter.isSome then 0 else st.work.unused
  store := if S.filter.isSome then none else some (appendUnused st.newCerts st.work (order st.work), st.newCerts.length)

/-- Why a goal was accepted: with the certificate at an index of the store, or by a search. -/
structure Accepted (Fact : Type) where
  facts : List Fact
  goal : Nat
  origin : Option Nat
  cert : Cert

/-- The reason is a good one: the certificate that was stored for a goal of this name is accepted by the
checker, with these facts and for this goal, and what is kept of it are the steps that were used; or, when
proofs may be searched for, a proof was found and written down. -/
def Accepted.Justified (S : Setting Fact) (stored : List Cert) (r : Accepted Fact) : Prop :=
  match r.origin with
  | some i => ∃ c n, stored[i]? = some c ∧ c.goal = S.name r.goal ∧ S.check r.facts r.goal c = some n ∧
      r.cert = { c with proof := c.proof.take n }
  | none => S.checkMode = false ∧ S.search r.facts r.goal = .proof ∧ S.write r.facts r.goal = some r.cert

/-- The stored certificates for goals of this name, in order. -/
def storedFor (stored : List Cert) (name : String) : List Cert := stored.filter fun c => c.goal == name

/-- Among these goals, the number of those with this name. -/
def countNamed (S : Setting Fact) (name : String) (goals : List (List Fact × Nat)) : Nat :=
  (goals.filter fun p => S.name p.2 == name).length

/-- For every goal there is a stored certificate that the checker accepts: for the `k`-th goal of a name, the
`k`-th certificate of that name. -/
def AllCertified (S : Setting Fact) (stored : List Cert) (goals : List (List Fact × Nat)) : Prop :=
  ∀ before facts goal after, goals = before ++ (facts, goal) :: after →
    ∃ c n, (storedFor stored (S.name goal))[countNamed S (S.name goal) before]? = some c ∧
      S.check facts goal c = some n

/-- The same module, certificates and facts in check mode, without a filter or a certificate given by hand,
and not cancelled. -/
def Setting.checking (S : Setting Fact) : Setting Fact :=
  { S with checkMode := true, skipStore := false, filter := none, override := none, cancelled := fun _ => false }

/-- The number of goals on this line among the first goals of a list. -/
def onLine (S : Setting Fact) (line : Nat) (goals : List Nat) : Nat :=
  (goals.filter fun g => S.firstLine g == line).length

/-- Whether a filter wants a goal that comes after the goals `before`: a goal before the line, or one of the
first `index` on the line; or a goal that does not start after the range. -/
def LineFilter.wants (S : Setting Fact) (before : List Nat) (goal : Nat) : LineFilter → Bool
  | .line l none => S.firstLine goal ≤ l
  | .line l (some index) => S.firstLine goal < l || S.firstLine goal == l && onLine S l (before ++ [goal]) ≤ index
  | .range _ last => S.firstLine goal ≤ last

/-- The goals a filter wants. -/
def wanted (S : Setting Fact) (f : LineFilter) : List Nat → List (List Fact × Nat) → List (List Fact × Nat)
  | _, [] => []
  | before, p :: rest =>
    if f.wants S before p.2 then p :: wanted S f (before ++ [p.2]) rest else wanted S f (before ++ [p.2]) rest

end Acorn.Vrf
