import Verif.Model.Server
/-
The runs of the language server and what the editor sees of them.
-/
namespace Acorn.Serv

variable {S T C R : Type}

/-- The server can come from `s` to another state by any actions in any order. -/
inductive Runs (ops : Ops S T C R) (s : State S T C R) : State S T C R → Prop where
  | refl : Runs ops s s
  | step {s' s'' : State S T C R} {a : Act R} : Runs ops s s' → s'.act ops a = some s'' →
      Runs ops s s''

/-- The same, with the actions in order. -/
inductive RunsBy (ops : Ops S T C R) (s : State S T C R) : List (Act R) → State S T C R → Prop where
  | nil : RunsBy ops s [] s
  | snoc {s' s'' : State S T C R} {as : List (Act R)} {a : Act R} : RunsBy ops s as s' →
      s'.act ops a = some s'' → RunsBy ops s (as ++ [a]) s''

/-- The events that the builder of task `i` sends. -/
def sent (i : Nat) (as : List (Act R)) : List Event :=
  as.filterMap fun
    | .event j ev => if j = i then some ev else none
    | _ => none

/-- The diagnostics that a list of events has for a file. -/
def reported (evs : List Event) (url : Url) : List Diagnostic :=
  evs.filterMap fun ev => if ev.url = some url then ev.diagnostic else none

/-- The task that an action is about. -/
def Act.task : Act R → Option Nat
  | .run i | .event i _ | .endBuild i _ => some i
  | _ => none

/-- What the editor shows for a file: the latest that was published for it. -/
def shown (ps : List Publish) (url : Url) : Option (List Diagnostic × Option Int) :=
  (ps.find? fun p => p.url = url).map fun p => (p.diagnostics, p.version)

/-- The epoch that the next look at the project must find for a background task to go on. -/
def Phase.awaits : Phase S T R → Option Nat
  | .saveQueue _ e | .reloadCheck _ e | .reloadCancel _ e | .reloadMutate _ e => some e
  | .failFinish _ r | .failCheck r | .failCancel r | .failMutate r => some r
  | .view _ r _ | .reset _ r _ _ _ | .building _ r _ _ _ | .finishing _ r _ _ => some r
  | .cacheCheck r _ _ | .cacheCancel r _ _ | .cacheMutate r _ _ => some r
  | _ => none

/-- The save that a task still has something to show for, by the epoch it made. -/
def Phase.saved : Phase S T R → Option Nat
  | .saveQueue _ e | .reloadCheck _ e | .reloadCancel _ e | .reloadMutate _ e => some e
  | .failFinish e _ | .view e _ _ | .reset e _ _ _ _ | .building e _ _ _ _
  | .finishing e _ _ _ => some e
  | _ => none

/-- The next step of the task changes the text of a file or closes one, on behalf of the editor. -/
def Phase.edits : Phase S T R → Bool
  | .saveMutate _ _ _ | .closeMutate _ => true
  | _ => false

/-- The task has nothing more to do. -/
def Phase.ended : Phase S T R → Bool
  | .done | .skipped => true
  | _ => false

/-- The task is still waiting to announce its build. -/
def Phase.isQueueing : Phase S T R → Bool
  | .saveQueue _ _ => true
  | _ => false

end Acorn.Serv
