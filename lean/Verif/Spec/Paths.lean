/-
What it means for a term to sit at a position of another one: only applications have positions.
-/
import Verif.Model.Path
namespace Acorn
namespace Spec

/-- `At t p s`: walking `p` from the root of `t` (left child for `function`, right child for
`argument`) ends at `s`. -/
inductive At : Term → List PathStep → Term → Prop
  | here (t : Term) : At t [] t
  | left {f a s : Term} {p : List PathStep} : At f p s → At (.app f a) (.function :: p) s
  | right {f a s : Term} {p : List PathStep} : At a p s → At (.app f a) (.argument :: p) s

/-- Two positions are disjoint when neither lies below the other. -/
def Disjoint (p q : List PathStep) : Prop := ¬ p <+: q ∧ ¬ q <+: p

end Spec
end Acorn
