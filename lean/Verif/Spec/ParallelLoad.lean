import Verif.Model.ParallelLoad
import Verif.Spec.ProjectLoad
/-
What the parallel loader is asked to do, and the runs it may make.
-/
namespace Acorn.Proj

variable {E I σ : Type}

/-- The modules to be loaded contain all they need: a module that one of them needs is loaded
already, has no file, or is among them and known to the project. -/
def Covered (files : Files I) (p : Table E) (ms : List Mod) : Prop :=
  ∀ m ∈ ms, ∀ d, Needs files d m →
    Finished p d ∨ files.lookup d = none ∨ (d ∈ ms ∧ p.states d ≠ none)

/-- The states that the loader can reach from `L`, whatever the order in which results arrive. -/
inductive Reaches (El : Elaborator E I σ) (prefer : Mod → Mod → Bool) (L : Loader E I) :
    Loader E I → Prop where
  | refl : Reaches El prefer L L
  | step {L' L'' : Loader E I} {k : Nat} : Reaches El prefer L L' → L'.next = .waits →
      L'.receive El prefer k = some L'' → Reaches El prefer L L''

end Acorn.Proj
