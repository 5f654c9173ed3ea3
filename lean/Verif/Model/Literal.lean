/-
Literals.
Models /repo/src/kernel/literal.rs.
-/
import Verif.Model.Order
namespace Acorn

/-- `Literal` (/repo/src/kernel/literal.rs:12-17). -/
structure Literal where
  positive : Bool
  left : Term
  right : Term
  deriving DecidableEq, Repr, Inhabited

namespace Literal

/-- `needs_to_flip` (literal.rs:433-437). -/
def needsFlip (l r : Term) : Bool := Term.extCmp l r == .lt

/-- `Literal::new_with_flip` (literal.rs:182-202): the second component says whether it flipped. -/
def newWithFlip (p : Bool) (l r : Term) : Literal × Bool :=
  if needsFlip l r then (⟨p, r, l⟩, true) else (⟨p, l, r⟩, false)

/-- `Literal::new` (literal.rs:20-23). -/
def new (p : Bool) (l r : Term) : Literal := (newWithFlip p l r).1

/-- `Literal::positive` (literal.rs:26-28). -/
def pos (t : Term) : Literal := new true t .tt
/-- `Literal::negative` (literal.rs:31-33). -/
def neg (t : Term) : Literal := new false t .tt
/-- `Literal::equals` (literal.rs:36-38). -/
def equals (l r : Term) : Literal := new true l r
/-- `Literal::not_equals` (literal.rs:41-43). -/
def notEquals (l r : Term) : Literal := new false l r
/-- `Literal::from_signed_term` (literal.rs:205-207). -/
def fromSigned (t : Term) (p : Bool) : Literal := new p t .tt
/-- `Literal::true_value` (literal.rs:67-69). -/
def trueValue : Literal := new true .tt .tt
/-- `Literal::false_value` (literal.rs:72-74). -/
def falseValue : Literal := new false .tt .tt

/-- `Literal::negate` (literal.rs:77-83). -/
def negate (l : Literal) : Literal := ⟨!l.positive, l.left, l.right⟩
/-- `Literal::is_tautology` (literal.rs:86-88). -/
def isTautology (l : Literal) : Bool := l.positive && decide (l.left = l.right)
/-- `Literal::is_impossible` (literal.rs:91-93). -/
def isImpossible (l : Literal) : Bool := !l.positive && decide (l.left = l.right)
/-- `Literal::is_signed_term` (literal.rs:96-98). -/
def isSigned (l : Literal) : Bool := l.right.isTrue
/-- `Literal::has_any_variable` (literal.rs:111-113). -/
def hasAnyVar (l : Literal) : Bool := l.left.hasAnyVar || l.right.hasAnyVar
/-- `Literal::is_normalized` (literal.rs:146-148). -/
def isNormalized (l : Literal) : Bool := !needsFlip l.left l.right
/-- `Literal::flip` (literal.rs:151-153). -/
def flip (l : Literal) : Literal := ⟨l.positive, l.right, l.left⟩

/-- `Ord for Literal` (literal.rs:409-431): negative literals first, then by decreasing sides. -/
def cmp (a b : Literal) : Ordering :=
  (compare a.positive.toNat b.positive.toNat).then <|
  (Term.extCmp b.left a.left).then (Term.extCmp b.right a.right)

/-- The comparison that `sort` uses. -/
def le (a b : Literal) : Bool := (cmp a b).isLE

end Literal
end Acorn
