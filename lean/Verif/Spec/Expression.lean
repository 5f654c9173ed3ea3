/-
The grammar of expressions: which operators bind tighter than which, and which trees can be written down
without further parentheses.
-/
import Verif.Model.Expression
namespace Acorn.Spec

open Parse Scan

/-- What can hold the parts of an expression together.  `apply` stands between a function and its argument
list. -/
inductive Opr
  | infix (t : Tk)
  | prefix (t : Tk)
  | postfix (t : Tk)
  | apply
deriving DecidableEq, Repr

/-- The operators, from those that bind loosest to those that bind tightest. -/
def operatorGroups : List (List Opr) :=
  [[.infix .comma],
    [.infix .colon],
    [.infix .rightArrow, .infix (.keyword "implies")],
    [.infix (.keyword "iff")],
    [.infix (.keyword "or"), .infix (.keyword "and")],
    [.prefix (.keyword "not"), .prefix (.keyword "transport")],
    [.infix .equals, .infix .notEquals],
    [.infix .lessThan, .infix .lessThanOrEquals, .infix .greaterThanOrEquals],
    [.infix .greaterThan, .infix .elemOf, .infix .notElemOf, .infix .contains, .infix .notContains,
      .infix .subsetEq, .infix .supersetEq, .infix .subset, .infix .superset],
    [.infix .percent],
    [.infix .plus, .infix .minus, .infix .union, .infix .backslash],
    [.infix .asterisk, .infix .slash, .infix .intersection],
    [.prefix .minus, .postfix .questionMark],
    [.infix .dot, .apply]]

/-- How tightly an operator binds: the number of its group, counted from one. -/
def strength (o : Opr) : Nat := operatorGroups.findIdx (·.contains o) + 1

/-- The infix operators of values. -/
def valueInfix : List Tk :=
  [.comma, .keyword "implies", .keyword "iff", .keyword "or", .keyword "and", .equals, .notEquals, .lessThan,
    .lessThanOrEquals, .greaterThanOrEquals, .greaterThan, .elemOf, .notElemOf, .contains, .notContains, .subsetEq,
    .supersetEq, .subset, .superset, .percent, .plus, .minus, .union, .backslash, .asterisk, .slash,
    .intersection, .dot]

/-- The infix operators of each kind of expression.  In type arguments `<` opens a list of type arguments. -/
def Infix (m : Mode) (t : Tk) : Prop :=
  match m with
  | .value => t ∈ valueInfix
  | .typeArg => t = .rightArrow ∨ t ∈ valueInfix ∧ t ≠ .lessThan
  | .type => t = .comma ∨ t = .rightArrow ∨ t = .dot

/-- The prefix operators of each kind of expression. -/
def Prefix (m : Mode) (t : Tk) : Prop :=
  t = .keyword "not" ∨ t = .keyword "transport" ∨ t = .minus ∧ m ≠ .type

/-- The tokens that are expressions by themselves. -/
def Word (m : Mode) (t : Tk) : Prop :=
  t = .identifier ∨ t = .keyword "axiom" ∨ t = .keyword "lib" ∨ t = .keyword "constraint" ∨
    m ≠ .type ∧ (t = .numeral ∨ t = .keyword "true" ∨ t = .keyword "false" ∨ t = .keyword "self")

/-- The keywords that bind variables. -/
def BinderWord (t : Tk) : Prop :=
  t = .keyword "forall" ∨ t = .keyword "exists" ∨ t = .keyword "function" ∨ t = .keyword "choose"

/-- The operators that have a name, like `(=)`. -/
def NamedOperator (t : Tk) : Prop :=
  t = .equals ∨ t = .keyword "not" ∨ t = .keyword "and" ∨ t = .keyword "or"

/-- The infix operators and applications of an expression that are not inside of parentheses, brackets or
braces, from left to right. -/
def openOps : Expr → List Opr
  | .unary _ e => openOps e
  | .binary l op r => openOps l ++ .infix op :: openOps r
  | .concat l _ => openOps l ++ [.apply]
  | _ => []

/-- The prefix operator an expression starts with. -/
def leading : Expr → Option Opr
  | .unary op e => if op = .questionMark then leading e else some (.prefix op)
  | .binary l _ _ => leading l
  | .concat l _ => leading l
  | _ => none

/-- Does the expression end with a postfix operator? -/
def endsPostfix : Expr → Bool
  | .unary op e => op = .questionMark || endsPostfix e
  | .binary _ _ r => endsPostfix r
  | _ => false

/-- The tokens of an expression that are not inside of parentheses, brackets or braces, and the opening ones,
and the keywords that start a binder, an `if` or a `match`. -/
def openToks : Expr → List Tk
  | .single t => [t.ty]
  | .unary op e => op :: openToks e
  | .binary l op r => openToks l ++ op :: openToks r
  | .concat l r => openToks l ++ openToks r
  | .group d _ => [d.left]
  | .binder kw _ _ _ _ => [kw]
  | .ite _ _ _ => [.keyword "if"]
  | .cases _ _ => [.keyword "match"]

/-- No open token of the expression ends it. -/
def Stops (term : Tk → Bool) (e : Expr) : Prop := ∀ t ∈ openToks e, term t = false

/-- Between two open `implies` there is a comma. -/
def OneImplies (ops : List Opr) : Prop :=
  ∀ a b c, ops = a ++ .infix (.keyword "implies") :: (b ++ .infix (.keyword "implies") :: c) → .infix .comma ∈ b

/-- Between an open `<` and an open `>` there is an operator that cannot be part of a list of types. -/
def NoTypeList (ops : List Opr) : Prop :=
  ∀ a b c, ops = a ++ .infix .lessThan :: (b ++ .infix .greaterThan :: c) →
    ∃ o ∈ b, o ∉ [Opr.infix .comma, .infix .rightArrow, .infix .dot, .infix .colon]

/-- What must hold of the open operators of an expression that stands alone or inside of delimiters. -/
def OpsOk (m : Mode) (ops : List Opr) : Prop :=
  (m ≠ .type → OneImplies ops) ∧ (m = .value → NoTypeList ops)

/-- The name of a variable. -/
def VariableName (t : Lex) : Prop :=
  t.ty = .identifier ∧ t.text ≠ "self" ∧ ∃ c s, t.text.toList = c :: s ∧ c.isLower = true

mutual

/-- The tree can be written down as it is: each operand whose open operators bind too loosely is in
parentheses.  `dot` says that the expression follows a dot. -/
def Clear (m : Mode) (dot : Bool) : Expr → Prop
  | .single t => Word m t.ty ∨ dot = true ∧ t.ty = .keyword "match"
  | .unary op e =>
    if op = .questionMark then
      Clear m dot e ∧ (∀ o ∈ openOps e, strength (.postfix op) ≤ strength o) ∧
        ∀ o, leading e = some o → strength (.postfix op) ≤ strength o
    else
      Prefix m op ∧ Clear m false e ∧ (∀ o ∈ openOps e, strength (.prefix op) < strength o) ∧
        (endsPostfix e = true → strength (.prefix op) < strength (.postfix .questionMark))
  | .binary l op r =>
    Infix m op ∧ Clear m dot l ∧ Clear m (op = .dot) r ∧
      (∀ o ∈ openOps l, strength (.infix op) < strength o ∨ strength (.infix op) = strength o ∧ op ≠ .rightArrow) ∧
      (∀ o ∈ openOps r, strength (.infix op) < strength o ∨ op = .rightArrow ∧ o = .infix .rightArrow) ∧
      (∀ o, leading l = some o → strength (.infix op) ≤ strength o) ∧
      (endsPostfix r = true → strength (.infix op) < strength (.postfix .questionMark)) ∧
      (op = .minus → endsPostfix l = false)
  | .concat l r =>
    Clear m dot l ∧ (∀ o ∈ openOps l, strength .apply ≤ strength o) ∧ leading l = none ∧
      match r with
      | .group .paren e => endsPostfix l = false ∧
          ((m = .value ∧ ∃ t : Lex, NamedOperator t.ty ∧ e = .single t) ∨ Clear m false e ∧ OpsOk m (openOps e))
      | .group .bracket e => Clear .typeArg false e ∧ OpsOk .typeArg (openOps e)
      | .group .angle e =>
        m ≠ .value ∧ .infix .greaterThan ∉ openOps e ∧ Clear .typeArg false e ∧ OpsOk .typeArg (openOps e)
      | _ => False
  | .group d e => d = .paren ∧
      ((m = .value ∧ ∃ t : Lex, NamedOperator t.ty ∧ e = .single t) ∨ Clear m false e ∧ OpsOk m (openOps e))
  | .binder kw form params args body =>
    m ≠ .type ∧ BinderWord kw ∧ ClearDecls args ∧ Clear .value false body ∧ OpsOk .value (openOps body) ∧
      match form with
      | .plain => params = .nil
      | .generic _ bare => kw = .keyword "function" ∧ params ≠ .nil ∧ ClearParams params ∧ (bare = true → args = .nil)
  | .ite cond yes no =>
    m ≠ .type ∧ (Clear .value false cond ∧ OpsOk .value (openOps cond)) ∧
      (Clear .value false yes ∧ OpsOk .value (openOps yes)) ∧ ClearOpt .value no
  | .cases scrutinee list =>
    m ≠ .type ∧ dot = false ∧ (Clear .value false scrutinee ∧ OpsOk .value (openOps scrutinee)) ∧ list ≠ .nil ∧
      ClearCases list

/-- The same for an optional expression. -/
def ClearOpt (m : Mode) : OptExpr → Prop
  | .none => True
  | .some e => Clear m false e ∧ OpsOk m (openOps e)

/-- The same for declarations; the comma separates them. -/
def ClearDecls : Decls → Prop
  | .nil => True
  | .typed name type rest =>
    VariableName name ∧ (Clear .type false type ∧ OpsOk .type (openOps type)) ∧ .infix .comma ∉ openOps type ∧
      ClearDecls rest
  | .self name rest => name = gen (.keyword "self") ∧ ClearDecls rest

/-- The same for type parameters. -/
def ClearParams : TParams → Prop
  | .nil => True
  | .cons name inner typeclass rest =>
    name.ty = .identifier ∧ ClearOpt .type inner ∧ ClearOpt .type typeclass ∧
      (∀ e, typeclass = .some e → .infix .comma ∉ openOps e) ∧ ClearParams rest

/-- The same for the cases of a match. -/
def ClearCases : Cases → Prop
  | .nil => True
  | .cons pattern body rest =>
    (Clear .value false pattern ∧ OpsOk .value (openOps pattern)) ∧
      (Clear .value false body ∧ OpsOk .value (openOps body)) ∧ ClearCases rest

end

/-- A token with the text that its type has, if it is not an identifier or a numeral. -/
def Genuine (t : Lex) : Prop := t.ty = .identifier ∨ t.ty = .numeral ∨ t = gen t.ty

/-- An expression that can be written down as it is, alone or inside of delimiters. -/
def Written (m : Mode) (e : Expr) : Prop := Clear m false e ∧ OpsOk m (openOps e)

end Acorn.Spec
