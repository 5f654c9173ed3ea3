/-
What the index of rewrite rules should achieve.
-/
import Verif.Model.RewriteTree
import Verif.Spec.Pdt
namespace Acorn
namespace Spec

/-- Put a term for every variable.  The terms have no dangling bound variables, so that binders need no
care. -/
def fill (σ : Nat → Term) : Term → Term
  | .atom (.fvar i) => σ i
  | .atom a => .atom a
  | .app f a => .app (fill σ f) (fill σ a)
  | .bind b A B => .bind b (fill σ A) (fill σ B)

/-- The side of a rule that is rewritten. -/
def ruleFrom (l : Literal) (forwards : Bool) : Term := if forwards then l.left else l.right

/-- The side of a rule that it is rewritten to. -/
def ruleTo (l : Literal) (forwards : Bool) : Term := if forwards then l.right else l.left

/-- The indexes that a program can hold, with the rules inserted so far: id, equation and the types of its
variables. -/
inductive RuleTree : Rewrites.Tree → List (Nat × Literal × LCtx) → Prop
  | empty : RuleTree .empty []
  | insert {p p' : Rewrites.Tree} {h : List (Nat × Literal × LCtx)} {id : Nat} {l : Literal} {P : LCtx} :
      RuleTree p h → Rewrites.insertLiteral p id l P = some p' → RuleTree p' (h ++ [(id, l, P)])

/-- All variables have types without variables and sorts: nothing is polymorphic. -/
def PlainVars (P : LCtx) : Prop := ∀ i T, P.get i = some T → PlainType T

/-- Rename the variables. -/
def renameVars (g : Nat → Nat) : Term → Term := fill fun i => .fvar (g i)

/-- Different variables of a term get different names. -/
def RenamesApart (g : Nat → Nat) (t : Term) : Prop := ∀ i j, t.hasVar i = true → t.hasVar j = true → g i = g j → i = j

/-- Where two terms are the same but for the names of their variables, these variables have the same types. -/
def SameTypes (a : Term) (P : LCtx) (b : Term) (Q : LCtx) : Prop := ∀ g h : Nat → Nat, RenamesApart g a →
  RenamesApart h b → renameVars g a = renameVars h b → ∀ i j, a.hasVar i = true → b.hasVar j = true → g i = h j →
  P.get i = Q.get j

end Spec
end Acorn
