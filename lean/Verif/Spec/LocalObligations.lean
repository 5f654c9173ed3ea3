/-
What it means that the blocks of local obligations are proved.
-/
import Verif.Model.LocalObligations
import Verif.Spec.ValueMeaning
namespace Acorn
namespace LocalObl
open Elab Spec

universe u

mutual
  /-- A block is proved: for all values of its arguments for which its premises hold, its goal holds and the blocks in it
  are proved. -/
  def BNode.Proved (F : Frame.{u}) (C : String → List F.T → F.D) (θ : String → F.T) : BNode → Prop
    | .mk ts ps goal inner _ => ∀ xs, F.Fits xs (F.tys θ ts) → (∀ p ∈ ps, F.Holds C θ xs p) →
      (∀ g, goal = some g → F.Holds C θ xs g) ∧ inner.Proved F C θ
  /-- All of some blocks are. -/
  def BNodes.Proved (F : Frame.{u}) (C : String → List F.T → F.D) (θ : String → F.T) : BNodes → Prop
    | .nil => True
    | .cons b bs => b.Proved F C θ ∧ bs.Proved F C θ
end

mutual
  /-- Obligations within a block with as many variables have the same variables: they are on the same stack. -/
  def Obl.SameStack : Obl → Prop
    | .claim _ _ _ _ => True
    | .witness _ _ _ _ => True
    | .block ts _ os => os.SameStack ts
  /-- For all of them. -/
  def Obls.SameStack (ts : List Ty) : Obls → Prop
    | .nil => True
    | .cons o os => (o.types.length = ts.length → o.types = ts) ∧ o.SameStack ∧ os.SameStack ts
end

mutual
  /-- What an obligation says to the outside for some values of the variables: a guarded claim, that it holds if its
  premises do; a block, that all the obligations in it with as many variables say what they say, if its premises hold. -/
  def Obl.Says (F : Frame.{u}) (C : String → List F.T → F.D) (θ : String → F.T) (xs : List F.D) : Obl → Prop
    | .claim _ ps c g => g = true → (∀ p ∈ ps, F.Holds C θ xs p) → F.Holds C θ xs c
    | .witness _ _ _ _ => True
    | .block ts ps os => (∀ p ∈ ps, F.Holds C θ xs p) → os.Say F C θ xs ts.length
  /-- All of some obligations say it. -/
  def Obls.Say (F : Frame.{u}) (C : String → List F.T → F.D) (θ : String → F.T) (xs : List F.D) (n : Nat) : Obls → Prop
    | .nil => True
    | .cons o os => (o.types.length = n → o.Says F C θ xs) ∧ os.Say F C θ xs n
end

end LocalObl
end Acorn
