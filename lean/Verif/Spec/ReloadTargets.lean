import Verif.Model.ReloadTargets
import Verif.Spec.ParallelLoad
/-
What an edit of one module affects.
-/
namespace Acorn.Proj

variable {E I σ : Type}

/-- The targets to be built again after an edit of `m`: `m` itself, and every target that needs one of
them.  A target whose file cannot be read or parsed is taken to need the prelude. -/
inductive Affected (files : Files I) (targets : List Mod) (m : Mod) : Mod → Prop where
  | self : Affected files targets m m
  | needs {d t} : Affected files targets m d → t ∈ targets → Needs files d t →
      Affected files targets m t
  | prelude {t} : Affected files targets m preludeMod → t ∈ targets → t ≠ preludeMod →
      Affected files targets m t

/-- The modules to be loaded for a list of modules: those modules, the prelude, and every module that one
of them needs, as far as the project knows it. -/
inductive Wanted (files : Files I) (p : Table E) (ms : List Mod) : Mod → Prop where
  | asked {m} : m ∈ ms → Wanted files p ms m
  | needs {d m} : Wanted files p ms m → Needs files d m → p.states d ≠ none → Wanted files p ms d
  | prelude {m} : Wanted files p ms m → p.states preludeMod ≠ none → Wanted files p ms preludeMod

/-- Every file that is open in the editor is also on disk. -/
def Saved (P : Project E I) : Prop :=
  ∀ m, P.files.lookup m ≠ none → m ∈ P.disk.map (·.1)

end Acorn.Proj
