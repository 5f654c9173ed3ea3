import Mathlib.Logic.Relation
import Verif.Model.BuildSkip
import Verif.Spec.ModulePaths
/-
What it means that a module was verified before with the same content.
-/
namespace Acorn.Spec
open Acorn.Build Paths

/-- `x` is a direct or indirect import of `m`. -/
def DependsOn (imports : Desc → List Desc) (m x : Desc) : Prop :=
  Relation.TransGen (fun a b => b ∈ imports a) m x

/-- The module and everything it depends on. -/
def Closure (p : Project) (m x : Desc) : Prop := x = m ∨ DependsOn p.imports m x

/-- The build verified the module successfully, or validated it as a package interface.  Being
skipped does not count. -/
def CheckedIn (src : Path) (r : Run) (old : Cache) (d : Desc) : Prop :=
  (∃ store, Work.module d true store ∈ r.work ∧
    trySkip src r.project r.checkHashes old d = false) ∨ Work.interface d ∈ r.work

/-- Among the builds there is one that checked the module `m`, and in which `m` and everything it
depends on had the same content as in `p`. -/
def CheckedWithSameContent (src : Path) (runs : List Run) (p : Project) (m : Desc) : Prop :=
  ∃ i r, runs[i]? = some r ∧ r.error = false ∧ CheckedIn src r (cacheAfter src (runs.take i)) m ∧
    ∀ x, Closure p m x → ∃ h, r.project.hash x = some h ∧ p.hash x = some h

/-- Among the builds there is one that checked the module `m` when it had the same content, but
perhaps other dependencies. -/
def CheckedWithOwnContent (src : Path) (runs : List Run) (p : Project) (m : Desc) : Prop :=
  ∃ i r h, runs[i]? = some r ∧ r.error = false ∧
    CheckedIn src r (cacheAfter src (runs.take i)) m ∧
    r.project.hash m = some h ∧ p.hash m = some h

/-- A name that is not a second name of a package interface (`C37_interface_alias`). -/
def Proper (d : Desc) : Prop :=
  ∃ dir last, d = .name (dir ++ [last]) ∧ IsName dir last ∧
    (dir = [] ∨ last ≠ "interface".toList)

/-- A loaded project: every module and everything it imports is loaded under its proper name. -/
structure WellLoaded (p : Project) : Prop where
  proper : ∀ d ∈ p.modules, Proper d
  imports : ∀ d ∈ p.modules, ∀ x ∈ p.imports d, x ∈ p.modules

/-- A build works on loaded modules. -/
def WorksOnLoaded (r : Run) : Prop :=
  ∀ w ∈ r.work, match w with
    | .module d _ _ => d ∈ r.project.modules
    | .interface d => d ∈ r.project.modules

/-- The imports of a module are determined by its content. -/
def ImportsFromContent (runs : List Run) (p : Project) : Prop :=
  ∀ q q' : Project, (q = p ∨ ∃ r ∈ runs, r.project = q) → (q' = p ∨ ∃ r ∈ runs, r.project = q') →
    ∀ d h, q.hash d = some h → q'.hash d = some h → q.imports d = q'.imports d

end Acorn.Spec
