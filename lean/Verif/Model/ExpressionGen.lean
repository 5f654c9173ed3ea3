/-
Generating expressions.  Models the constructors of /repo/src/syntax/expression.rs that the code generator
uses.
-/
import Verif.Model.Expression
namespace Acorn.Parse

open Scan (Tk)

/-- `Expression::top_level_precedence` (expression.rs:740-765).  `i8::MAX` is 127. -/
def topPrec (unaryMax : Bool) : Expr → Nat
  | .unary op _ => if unaryMax then 127 else unaryPrec op
  | .binary _ op _ => binaryPrec op
  | .concat _ _ => binaryPrec .dot
  | _ => 127

/-- The parentheses that the generators add (expression.rs:657-661, 673-677, 680-684). -/
def paren (e : Expr) : Expr := .group .paren e

/-- `Expression::generate_unary` (expression.rs:655-664). -/
def generateUnary (op : Tk) (e : Expr) : Expr := .unary op (if topPrec true e < unaryPrec op then paren e else e)

/-- `Expression::generate_binary` (expression.rs:667-687); `CodeGenerator::value_to_binary_expr`
(code_generator.rs:77-111) does the same, and adds parentheses around `if`. -/
def generateBinary (l : Expr) (op : Tk) (r : Expr) : Expr :=
  .binary (if topPrec false l < binaryPrec op then paren l else l) op
    (if topPrec true r ≤ binaryPrec op then paren r else r)

/-- The commas of `Expression::generate_grouping` (expression.rs:624-631). -/
def commas (e : Expr) : List Expr → Expr
  | [] => e
  | x :: xs => commas (.binary e .comma x) xs

/-- A function applied to arguments: `Expression::Concatenation` with `Expression::generate_paren_grouping`
(expression.rs:618-638, code_generator.rs:2016-2021). -/
def generateApply (f e : Expr) (es : List Expr) : Expr := .concat f (.group .paren (commas e es))

/-- `Expression::generate_dot` (expression.rs:689-691). -/
def generateDot (l r : Expr) : Expr := .binary l .dot r

end Acorn.Parse
