/-
Expressions: the tree, the printer and the parser.  Models /repo/src/syntax/expression.rs and the tables of
token types in /repo/src/syntax/token.rs.

Left out: the positions of tokens, the texts of error messages, and blocks with local lets
(`Expression::Block`, expression.rs:93-95), which the model rejects with the error `unmodelled`.
-/
import Verif.Model.Token
namespace Acorn.Parse

open Scan (Tk)

/-- `Token` (token.rs:490-505): its type and its text. -/
structure Lex where
  ty : Tk
  text : String
deriving DecidableEq, Repr

/-- `TokenType::to_str` (token.rs:393-473). -/
def textOf : Tk → String
  | .identifier => "<identifier>"
  | .invalid => "<invalid>"
  | .leftParen => "("
  | .rightParen => ")"
  | .leftBrace => "{"
  | .rightBrace => "}"
  | .leftBracket => "["
  | .rightBracket => "]"
  | .newLine => "\n"
  | .comma => ","
  | .colon => ":"
  | .dot => "."
  | .notEquals => "!="
  | .equals => "="
  | .plus => "+"
  | .asterisk => "*"
  | .percent => "%"
  | .union => "∪"
  | .intersection => "∩"
  | .backslash => "∖"
  | .elemOf => "∈"
  | .notElemOf => "∉"
  | .contains => "∋"
  | .notContains => "∌"
  | .subsetEq => "⊆"
  | .supersetEq => "⊇"
  | .subset => "⊂"
  | .superset => "⊃"
  | .questionMark => "?"
  | .rightArrow => "->"
  | .minus => "-"
  | .lessThanOrEquals => "<="
  | .lessThan => "<"
  | .greaterThanOrEquals => ">="
  | .greaterThan => ">"
  | .docComment => "///"
  | .slash => "/"
  | .numeral => "<numeral>"
  | .keyword w => w

/-- `TokenType::generate` (token.rs:485-487). -/
def gen (t : Tk) : Lex := ⟨t, textOf t⟩

/-- `TokenType::is_operator_ref` (token.rs:183-188). -/
def isOperatorRef (t : Tk) : Bool :=
  t = .equals || t = .keyword "not" || t = .keyword "and" || t = .keyword "or"

/-- `TokenType::is_unary` (token.rs:190-197). -/
def isUnary (t : Tk) : Bool := t = .keyword "not" || t = .minus || t = .keyword "transport"

/-- `TokenType::is_postfix` (token.rs:199-201). -/
def isPostfix (t : Tk) : Bool := t = .questionMark

/-- `TokenType::is_binary` (token.rs:203-237). -/
def isBinary : Tk → Bool
  | .plus | .minus | .rightArrow | .equals | .notEquals | .greaterThan | .lessThan | .greaterThanOrEquals
  | .lessThanOrEquals | .comma | .colon | .dot | .asterisk | .percent | .slash | .union | .intersection
  | .backslash | .elemOf | .notElemOf | .contains | .notContains | .subsetEq | .supersetEq | .subset
  | .superset => true
  | .keyword w => w = "or" || w = "and" || w = "iff" || w = "implies"
  | _ => false

/-- `TokenType::binary_precedence` (token.rs:249-283). -/
def binaryPrec : Tk → Nat
  | .dot => 14
  | .asterisk => 12
  | .slash => 12
  | .plus => 11
  | .minus => 11
  | .percent => 10
  | .greaterThan => 9
  | .lessThan => 8
  | .greaterThanOrEquals => 8
  | .lessThanOrEquals => 8
  | .equals => 7
  | .notEquals => 7
  | .rightArrow => 3
  | .colon => 2
  | .union => 11
  | .intersection => 12
  | .backslash => 11
  | .elemOf => 9
  | .notElemOf => 9
  | .contains => 9
  | .notContains => 9
  | .subsetEq => 9
  | .supersetEq => 9
  | .subset => 9
  | .superset => 9
  | .comma => 1
  | .keyword w =>
    if w = "or" ∨ w = "and" then 5 else if w = "iff" then 4 else if w = "implies" then 3 else 0
  | _ => 0

/-- `TokenType::is_right_associative` (token.rs:287-289). -/
def isRightAssociative (t : Tk) : Bool := t = .rightArrow

/-- `TokenType::unary_precedence` (token.rs:292-299). -/
def unaryPrec (t : Tk) : Nat :=
  if t = .keyword "not" ∨ t = .keyword "transport" then 6 else if t = .minus then 13 else 0

/-- `TokenType::postfix_precedence` (token.rs:302-307). -/
def postfixPrec (t : Tk) : Nat := if t = .questionMark then 13 else 0

/-- `TokenType::left_space` (token.rs:310-317). -/
def leftSpace (t : Tk) : Bool := !(t = .dot || t = .comma || t = .colon)

/-- `TokenType::right_space` (token.rs:320-325). -/
def rightSpace (t : Tk) : Bool := t ≠ .dot

/-- `ExpressionType` (expression.rs:18-25). -/
inductive Mode
  | value | type | typeArg
deriving DecidableEq, Repr

/-- The delimiters of `Expression::Grouping`. -/
inductive Delim
  | paren | bracket | angle
deriving DecidableEq, Repr

/-- The opening delimiter. -/
def Delim.left : Delim → Tk
  | .paren => .leftParen
  | .bracket => .leftBracket
  | .angle => .lessThan

/-- The closing delimiter. -/
def Delim.right : Delim → Tk
  | .paren => .rightParen
  | .bracket => .rightBracket
  | .angle => .greaterThan

/-- How the arguments of a binder are written: `plain` is `Expression::Binder`, `generic` is
`Expression::GenericBinder`.  The two flags of `generic` are not part of the code's tree.  They record what it
forgets: whether the type parameters stood between `<` and `>`, and whether the empty argument list was left
out. -/
inductive Form
  | plain
  | generic (angle bare : Bool)
deriving DecidableEq, Repr

mutual

/-- `Expression` (expression.rs:30-96).  Operators, delimiters, keywords and braces are given by their type,
which determines their text.  A postfix operator is a `unary`, as in the code.  `Binder` and `GenericBinder`
are both `binder`. -/
inductive Expr
  | single (t : Lex)
  | unary (op : Tk) (e : Expr)
  | binary (l : Expr) (op : Tk) (r : Expr)
  | concat (l r : Expr)
  | group (d : Delim) (e : Expr)
  | binder (kw : Tk) (form : Form) (params : TParams) (args : Decls) (body : Expr)
  | ite (cond yes : Expr) (no : OptExpr)
  | cases (scrutinee : Expr) (list : Cases)

/-- `Option<Expression>`. -/
inductive OptExpr
  | none
  | some (e : Expr)

/-- `Vec<Declaration>` (expression.rs:199-207). -/
inductive Decls
  | nil
  | typed (name : Lex) (type : Expr) (rest : Decls)
  | self (name : Lex) (rest : Decls)

/-- `Vec<TypeParamExpr>` (expression.rs:273-285).  The type expression of a parameter `List[Color]` is given
by what stands between the brackets. -/
inductive TParams
  | nil
  | cons (name : Lex) (inner typeclass : OptExpr) (rest : TParams)

/-- `Vec<(Expression, Expression)>`: the cases of a match. -/
inductive Cases
  | nil
  | cons (pattern body : Expr) (rest : Cases)

end

/-! ### The printer -/

/-- What the printer writes: tokens and spaces. -/
inductive Piece
  | tok (t : Lex)
  | space
deriving DecidableEq, Repr

/-- A token that is determined by its type. -/
def word (t : Tk) : Piece := .tok (gen t)

/-- Is the list of declarations empty? -/
def Decls.isNil : Decls → Bool
  | .nil => true
  | _ => false

mutual

/-- `Expression::pretty_ref` (expression.rs:1772-1988) in flat mode, which is how expressions are displayed
(expression.rs:183-192).  The code prints a `GenericBinder` with square brackets, and leaves out an empty
argument list; this is the form `generic false bare` where `bare` says that the list is empty. -/
def print : Expr → List Piece
  | .single t => [.tok t]
  | .unary op e =>
    if isPostfix op then print e ++ [word op]
    else if op = .minus then word op :: print e
    else word op :: .space :: print e
  | .binary l op r =>
    print l ++ ((if leftSpace op then [.space] else []) ++ word op ::
      ((if rightSpace op then [.space] else []) ++ print r))
  | .concat l r => print l ++ print r
  | .group d e => word d.left :: (print e ++ [word d.right])
  | .binder kw .plain _ args body =>
    word kw :: word .leftParen :: (printDecls args ++ word .rightParen :: .space :: word .leftBrace :: .space ::
      (print body ++ [.space, word .rightBrace]))
  | .binder kw (.generic angle bare) params args body =>
    word kw :: word (if angle then .lessThan else .leftBracket) ::
      (printParams params ++ word (if angle then .greaterThan else .rightBracket) ::
        ((if bare then [] else word .leftParen :: (printDecls args ++ [word .rightParen])) ++
          .space :: word .leftBrace :: .space :: (print body ++ [.space, word .rightBrace])))
  | .ite cond yes no =>
    word (.keyword "if") :: .space :: (print cond ++ .space :: word .leftBrace :: .space ::
      (print yes ++ .space :: word .rightBrace :: printElse no))
  | .cases scrutinee list =>
    word (.keyword "match") :: .space :: (print scrutinee ++ .space :: word .leftBrace ::
      (printCases list ++ [.space, word .rightBrace]))

/-- The part from `else` on (expression.rs:1893-1909). -/
def printElse : OptExpr → List Piece
  | .none => []
  | .some e => .space :: word (.keyword "else") :: .space :: word .leftBrace :: .space ::
      (print e ++ [.space, word .rightBrace])

/-- `pretty_args` (expression.rs:1990-2008) and `Declaration::pretty_ref` (2012-2025), between the
parentheses. -/
def printDecls : Decls → List Piece
  | .nil => []
  | .typed name type rest =>
    .tok name :: word .colon :: .space :: (print type ++ printMoreDecls rest)
  | .self name rest => .tok name :: printMoreDecls rest

/-- The declarations after the first: each with a comma before it. -/
def printMoreDecls : Decls → List Piece
  | .nil => []
  | .typed name type rest =>
    word .comma :: .space :: .tok name :: word .colon :: .space :: (print type ++ printMoreDecls rest)
  | .self name rest => word .comma :: .space :: .tok name :: printMoreDecls rest

/-- The type parameters (expression.rs:1852-1859) and `TypeParamExpr::fmt` (287-301). -/
def printParams : TParams → List Piece
  | .nil => []
  | .cons name inner typeclass rest =>
    .tok name :: (printInner inner ++ (printClass typeclass ++ printMoreParams rest))

/-- The type parameters after the first. -/
def printMoreParams : TParams → List Piece
  | .nil => []
  | .cons name inner typeclass rest =>
    word .comma :: .space :: .tok name :: (printInner inner ++ (printClass typeclass ++ printMoreParams rest))

/-- The bracketed part of a type parameter. -/
def printInner : OptExpr → List Piece
  | .none => []
  | .some e => word .leftBracket :: (print e ++ [word .rightBracket])

/-- The typeclass of a type parameter. -/
def printClass : OptExpr → List Piece
  | .none => []
  | .some e => word .colon :: .space :: print e

/-- The cases of a match (expression.rs:1920-1930). -/
def printCases : Cases → List Piece
  | .nil => []
  | .cons pattern body rest =>
    .space :: (print pattern ++ .space :: word .leftBrace :: .space :: (print body ++
      .space :: word .rightBrace :: printCases rest))

end

/-- The tokens among the pieces. -/
def lexes : List Piece → List Lex
  | [] => []
  | .tok t :: ps => t :: lexes ps
  | .space :: ps => lexes ps

/-- The text of the pieces. -/
def render : List Piece → List Char
  | [] => []
  | .tok t :: ps => t.text.toList ++ render ps
  | .space :: ps => ' ' :: render ps

/-- The tokens of a printed expression. -/
def toks (e : Expr) : List Lex := lexes (print e)

/-! ### The parser -/

/-- Why the parser gives up.  `fuel` is an artefact of the model; it never happens. -/
inductive Err
  | syntax | unmodelled | fuel
deriving DecidableEq, Repr

/-- `Result`. -/
abbrev Res (α : Type) := Except Err α

/-- `Terminator` (expression.rs:414-433): which token types end the expression. -/
abbrev Term := Tk → Bool

/-- `Expression::parse` (expression.rs:824-838) and its variants for values and types: gives the expression,
the terminator and the tokens after it. -/
abbrev Parser := Mode → Term → List Lex → Res (Expr × Lex × List Lex)

/-- `PartialExpression` (expression.rs:1110-1126). -/
inductive Partial
  | expr (e : Expr)
  | unary (op : Tk)
  | postfix (op : Tk)
  | binary (op : Tk)
  | implicit

/-- `TokenIter::skip_newlines` (token.rs:1004-1012). -/
def skipNewlines : List Lex → List Lex
  | [] => []
  | t :: ts => if t.ty = .newLine then skipNewlines ts else t :: ts

/-- `TokenIter::expect_type` (token.rs:962-971). -/
def expect (ty : Tk) : List Lex → Res (Lex × List Lex)
  | [] => .error .syntax
  | t :: ts => if t.ty = ty then .ok (t, ts) else .error .syntax

/-- `TokenIter::peek_type() == Some(ty)` (token.rs:927-929). -/
def peekIs (ty : Tk) : List Lex → Bool
  | [] => false
  | t :: _ => t.ty = ty

/-- `TokenIter::expect_variable_name(false)` (token.rs:974-994). -/
def variableName : List Lex → Res (Lex × List Lex)
  | [] => .error .syntax
  | t :: ts =>
    if t.ty = .keyword "self" then .ok (t, ts)
    else if t.ty = .identifier then
      match t.text.toList with
      | [] => .error .syntax
      | c :: _ => if c.isLower then .ok (t, ts) else .error .syntax
    else .error .syntax

/-- `Terminator::Or(Comma, RightParen)`. -/
def commaOrParen : Term := fun t => t = .comma || t = .rightParen

/-- The loop of `Declaration::parse_list` (expression.rs:256-270), with `Declaration::parse` (230-246). -/
def declLoop (p : Parser) : Nat → List Lex → Res (Decls × List Lex)
  | 0, _ => .error .fuel
  | n + 1, ts => do
    let (name, ts) ← variableName ts
    if name.text = "self" then
      match ts with
      | [] => .error .syntax
      | t :: ts =>
        if t.ty = .colon then .error .syntax
        else if !commaOrParen t.ty then .error .syntax
        else if t.ty = .rightParen then .ok (.self name .nil, ts)
        else do
          let (ds, ts) ← declLoop p n (skipNewlines ts)
          .ok (.self name ds, ts)
    else do
      let (_, ts) ← expect .colon ts
      let (type, t, ts) ← p .type commaOrParen ts
      if t.ty = .rightParen then .ok (.typed name type .nil, ts)
      else do
        let (ds, ts) ← declLoop p n (skipNewlines ts)
        .ok (.typed name type ds, ts)

/-- `Declaration::parse_list` (expression.rs:249-271). -/
def parseDecls (p : Parser) (ts : List Lex) : Res (Decls × List Lex) :=
  match skipNewlines ts with
  | [] => .error .syntax
  | t :: ts => if t.ty = .rightParen then .ok (.nil, ts) else declLoop p (ts.length + 2) (t :: ts)

/-- The bracketed part of a type parameter (expression.rs:320-327, 365-372). -/
def paramInner (p : Parser) (ts : List Lex) : Res (OptExpr × List Lex) :=
  if peekIs .leftBracket ts then
    match p .type (· = .rightBracket) (ts.drop 1) with
    | .error err => .error err
    | .ok (inner, _, ts) => .ok (.some inner, ts)
  else .ok (.none, ts)

/-- The typeclass of a type parameter, and the token after it (expression.rs:328-346, 373-391). -/
def paramClass (p : Parser) (close : Tk) : List Lex → Res (OptExpr × Lex × List Lex)
  | [] => .error .syntax
  | t :: ts =>
    if t.ty = .colon then
      match p .type (fun k => k = .comma || k = close) ts with
      | .error err => .error err
      | .ok (cls, t, ts) => .ok (.some cls, t, ts)
    else .ok (.none, t, ts)

/-- The loops of `TypeParamExpr::parse_list` (expression.rs:316-359, 361-404); `close` is the closing
delimiter. -/
def paramLoop (p : Parser) (close : Tk) : Nat → List Lex → Res (TParams × List Lex)
  | 0, _ => .error .fuel
  | n + 1, ts => do
    let (name, ts) ← expect .identifier ts
    let (inner, ts) ← paramInner p ts
    let (cls, t, ts) ← paramClass p close ts
    if t.ty = close then .ok (.cons name inner cls .nil, ts)
    else if t.ty = .comma then do
      let (rest, ts) ← paramLoop p close n ts
      .ok (.cons name inner cls rest, ts)
    else .error .syntax

/-- `TypeParamExpr::parse_list` (expression.rs:306-408).  `none` if there is no list; the flag says that the
delimiter was `<`. -/
def parseParams (p : Parser) (ts : List Lex) : Res (Option (Bool × TParams) × List Lex) :=
  if peekIs .leftBracket ts then do
    let (ps, ts) ← paramLoop p .rightBracket (ts.length + 1) (ts.drop 1)
    .ok (some (false, ps), ts)
  else if peekIs .lessThan ts then do
    let (ps, ts) ← paramLoop p .greaterThan (ts.length + 1) (ts.drop 1)
    .ok (some (true, ps), ts)
  else .ok (none, ts)

/-- `Expression::parse_value_block` (expression.rs:853-877), without local lets. -/
def valueBlock (p : Parser) (ts : List Lex) : Res (Expr × List Lex) :=
  let ts := skipNewlines ts
  if peekIs (.keyword "let") ts then .error .unmodelled
  else do
    let (e, _, ts) ← p .value (· = .rightBrace) ts
    .ok (e, ts)

/-- The loop over the cases of a match (expression.rs:1390-1407). -/
def caseLoop (p : Parser) : Nat → List Lex → Res (Cases × List Lex)
  | 0, _ => .error .fuel
  | n + 1, ts =>
    match skipNewlines ts with
    | [] => .error .syntax
    | t :: ts =>
      if t.ty = .rightBrace then .ok (.nil, ts)
      else do
        let (pattern, _, ts) ← p .value (· = .leftBrace) (t :: ts)
        let (body, ts) ← valueBlock p ts
        let (rest, ts) ← caseLoop p n ts
        .ok (.cons pattern body rest, ts)

/-- May a binary operator stand in an expression of this kind (expression.rs:1206-1227)? -/
def binaryOk (mode : Mode) (t : Tk) : Bool :=
  match mode with
  | .value | .typeArg => t ≠ .colon
  | .type => t = .comma || t = .rightArrow || t = .dot || t = .lessThan || t = .greaterThan

/-- After which operators newlines are skipped (expression.rs:1256-1268). -/
def continues (t : Tk) : Bool :=
  t = .equals || t = .notEquals || t = .keyword "or" || t = .keyword "and" || t = .plus || t = .minus ||
    t = .asterisk || t = .slash

/-- Is the last partial expression an expression? -/
def afterExpr : Option Partial → Bool
  | some (.expr _) => true
  | _ => false

/-- Is the last partial expression a dot? -/
def afterDot : Option Partial → Bool
  | some (.binary op) => op = .dot
  | _ => false

/-- The type parameters of a function (expression.rs:1322-1327). -/
def binderParams (p : Parser) (kw : Tk) (ts : List Lex) : Res (Option (Bool × TParams) × List Lex) :=
  if kw = .keyword "function" then parseParams p ts else .ok (none, ts)

/-- Binders (expression.rs:1320-1361). -/
def parseBinder (p : Parser) (kw : Tk) (ts : List Lex) : Res (Expr × List Lex) := do
  let (params, ts) ← binderParams p kw ts
  match params with
  | none =>
    let (_, ts) ← expect .leftParen ts
    let (args, ts) ← parseDecls p ts
    let (_, ts) ← expect .leftBrace ts
    let (body, ts) ← valueBlock p ts
    .ok (.binder kw .plain .nil args body, ts)
  | some (angle, params) =>
    if peekIs .leftBrace ts then do
      let (_, ts) ← expect .leftBrace ts
      let (body, ts) ← valueBlock p ts
      .ok (.binder kw (.generic angle true) params .nil body, ts)
    else do
      let (_, ts) ← expect .leftParen ts
      let (args, ts) ← parseDecls p ts
      let (_, ts) ← expect .leftBrace ts
      let (body, ts) ← valueBlock p ts
      .ok (.binder kw (.generic angle false) params args body, ts)

/-- `if` (expression.rs:1363-1389). -/
def parseIf (p : Parser) (ts : List Lex) : Res (Expr × List Lex) := do
  let (cond, _, ts) ← p .value (· = .leftBrace) ts
  let (yes, ts) ← valueBlock p ts
  if peekIs (.keyword "else") ts then do
    let (_, ts) ← expect .leftBrace (ts.drop 1)
    let (no, ts) ← valueBlock p ts
    .ok (.ite cond yes (.some no), ts)
  else .ok (.ite cond yes .none, ts)

/-- `match` (expression.rs:1391-1428). -/
def parseMatch (p : Parser) (ts : List Lex) : Res (Expr × List Lex) := do
  let (scrutinee, _, ts) ← p .value (· = .leftBrace) ts
  let (cs, ts) ← caseLoop p (ts.length + 1) ts
  match cs with
  | .nil => .error .syntax
  | .cons .. => .ok (.cases scrutinee cs, ts)

/-- Is this `(op)`, for an operator that can be named in this way (expression.rs:1283-1288)? -/
def operatorRef : List Lex → Option (Lex × List Lex)
  | t :: u :: ts => if isOperatorRef t.ty && u.ty = .rightParen then some (t, ts) else none
  | _ => none

/-- A parenthesis (expression.rs:1281-1317). -/
def parseParen (p : Parser) (mode : Mode) (prev : Option Partial) (ts : List Lex) :
    Res (List Partial × List Lex) :=
  let apply := if afterExpr prev then [Partial.implicit] else []
  match if mode = .value then operatorRef ts else none with
  | some (t, ts) => .ok (apply ++ [.expr (.group .paren (.single t))], ts)
  | none => do
    let (e, _, ts) ← p mode (· = .rightParen) ts
    .ok (apply ++ [.expr (.group .paren e)], ts)

/-- The tokens that are expressions in any kind of expression (expression.rs:1311-1313). -/
def isWord (t : Tk) : Bool :=
  t = .identifier || t = .keyword "axiom" || t = .keyword "lib" || t = .keyword "constraint"

/-- The tokens that are expressions, but not of a type (expression.rs:1314-1319). -/
def isValueWord (t : Tk) : Bool :=
  t = .numeral || t = .keyword "true" || t = .keyword "false" || t = .keyword "self"

/-- The tokens that bind variables (expression.rs:1321). -/
def isBinderWord (t : Tk) : Bool :=
  t = .keyword "forall" || t = .keyword "exists" || t = .keyword "function" || t = .keyword "choose"

/-- One round of the loop of `parse_partial_expressions` (expression.rs:1174-1437), for a token that is not
the terminator: the new partial expressions and the tokens that are left.  `prev` is the last partial
expression so far. -/
def item (p : Parser) (mode : Mode) (prev : Option Partial) (t : Lex) (ts : List Lex) :
    Res (List Partial × List Lex) :=
  if t.ty = .leftBracket then do
    let (e, _, ts) ← p .typeArg (· = .rightBracket) ts
    .ok ([.implicit, .expr (.group .bracket e)], ts)
  else if t.ty = .lessThan ∧ mode ≠ .value then do
    let (e, _, ts) ← p .typeArg (· = .greaterThan) ts
    .ok ([.implicit, .expr (.group .angle e)], ts)
  else if isBinary t.ty then
    if !binaryOk mode t.ty then .error .syntax
    else if isUnary t.ty && !afterExpr prev then .ok ([.unary t.ty], ts)
    else .ok ([.binary t.ty], if continues t.ty then skipNewlines ts else ts)
  else if isUnary t.ty then .ok ([.unary t.ty], ts)
  else if isPostfix t.ty then .ok ([.postfix t.ty], ts)
  else if t.ty = .leftParen then parseParen p mode prev ts
  else if isWord t.ty then .ok ([.expr (.single t)], ts)
  else if isValueWord t.ty then if mode = .type then .error .syntax else .ok ([.expr (.single t)], ts)
  else if isBinderWord t.ty then
    if mode = .type then .error .syntax else do
      let (e, ts) ← parseBinder p t.ty ts
      .ok ([.expr e], ts)
  else if t.ty = .keyword "if" then
    if mode = .type then .error .syntax else do
      let (e, ts) ← parseIf p ts
      .ok ([.expr e], ts)
  else if t.ty = .keyword "match" then
    if afterDot prev then .ok ([.expr (.single t)], ts)
    else if mode = .type then .error .syntax else do
      let (e, ts) ← parseMatch p ts
      .ok ([.expr e], ts)
  else if t.ty = .newLine then .ok ([], ts)
  else .error .syntax

/-- `parse_partial_expressions` (expression.rs:1165-1441).  `acc` are the partial expressions so far. -/
def partials (p : Parser) (mode : Mode) (term : Term) :
    Nat → List Lex → List Partial → Res (List Partial × Lex × List Lex)
  | 0, _, _ => .error .fuel
  | _ + 1, [], _ => .error .syntax
  | n + 1, t :: ts, acc =>
    if term t.ty then .ok (acc, t, ts)
    else do
      let (new, ts) ← item p mode acc.getLast? t ts
      partials p mode term n ts (acc ++ new)

/-- How late the partial expression at index `i` of `len` operates: `None` if it is not an operator, or cannot
operate last (expression.rs:1447-1484). -/
def key (len i : Nat) : Partial → Option (Int × Int)
  | .unary op => if i = 0 then some (-(unaryPrec op : Int), (i : Int)) else none
  | .postfix op => if i + 1 = len then some (-(postfixPrec op : Int), (i : Int)) else none
  | .binary op => some (-(binaryPrec op : Int), if isRightAssociative op then -(i : Int) else (i : Int))
  | .implicit => some (-(binaryPrec .dot : Int), (i : Int))
  | .expr _ => none

/-- The order of pairs. -/
def keyLe (a b : Int × Int) : Bool := a.1 < b.1 || (a.1 = b.1 && a.2 ≤ b.2)

/-- The greater one of two keys, the second if they are equal. -/
def laterKey : Option (Int × Int) → Option (Int × Int) → Option (Int × Int)
  | best, none => best
  | none, some k => some k
  | some b, some k => if keyLe b k then some k else some b

/-- `operators.max()` (expression.rs:1486): the last of the greatest. -/
def maxKey (len : Nat) : Nat → List Partial → Option (Int × Int) → Option (Int × Int)
  | _, [], best => best
  | i, x :: xs, best => maxKey len (i + 1) xs (laterKey best (key len i x))

/-- `find_last_operator` (expression.rs:1445-1499). -/
def findLast (ps : List Partial) : Res (Option Nat) :=
  match maxKey ps.length 0 ps none with
  | some (prec, index) => if prec = 0 then .error .syntax else .ok (some index.natAbs)
  | none => .ok none

/-- The partial expressions when there are no operators (expression.rs:1721-1739). -/
def applyAll : Expr → List Partial → Res Expr
  | e, [] => .ok e
  | e, .expr (.group d g) :: ps => applyAll (.concat e (.group d g)) ps
  | _, _ :: _ => .error .syntax

/-- A list of partial expressions, split at the operator that operates last. -/
inductive Split
  | unary (op : Tk) (rest : List Partial)
  | postfix (op : Tk) (rest : List Partial)
  | binary (left : List Partial) (op : Tk) (right : List Partial)
  | implicit (left right : List Partial)
  | none

/-- The split at a given index (expression.rs:1667-1699). -/
def splitAt (ps : List Partial) (index : Nat) : Res Split :=
  if index = 0 then
    match ps with
    | .unary op :: rest => .ok (.unary op rest)
    | _ => .error .syntax
  else if index + 1 = ps.length then
    match ps.getLast? with
    | some (.postfix op) => .ok (.postfix op ps.dropLast)
    | _ => .error .syntax
  else
    match ps.drop index with
    | .binary op :: right => .ok (.binary (ps.take index) op right)
    | .implicit :: right => .ok (.implicit (ps.take index) right)
    | _ => .error .syntax

/-- The split at the operator that operates last (expression.rs:1666). -/
def splitLast (ps : List Partial) : Res Split :=
  match findLast ps with
  | .error e => .error e
  | .ok none => .ok .none
  | .ok (some index) => splitAt ps index

/-- A single partial expression (expression.rs:1654-1660). -/
def single : List Partial → Res Expr
  | .expr e :: _ => .ok e
  | _ => .error .syntax

/-- No operators: the first must be an expression (expression.rs:1721-1740). -/
def application : List Partial → Res Expr
  | .expr e :: rest => applyAll e rest
  | _ => .error .syntax

/-- `combine_partial_expressions` (expression.rs:1646-1740).  The fuel is at least the number of partial
expressions and not zero. -/
def combine : Nat → Mode → List Partial → Res Expr
  | 0, _, _ => .error .fuel
  | n + 1, mode, ps =>
    if ps.length = 0 then .error .syntax
    else if ps.length = 1 then single ps
    else do
      match ← splitLast ps with
      | .unary op rest => do
        let e ← combine n mode rest
        .ok (.unary op e)
      | .postfix op rest => do
        let e ← combine n mode rest
        .ok (.unary op e)
      | .binary left op right =>
        if mode = .value ∧ op = .rightArrow then .error .syntax
        else do
          let l ← combine n mode left
          let r ← combine n mode right
          .ok (.binary l op r)
      | .implicit left right => do
        let l ← combine n mode left
        let r ← combine n mode right
        .ok (.concat l r)
      | .none => application ps

/-- `Expression::could_be_part_of_type` (expression.rs:1028-1047). -/
def couldBeType : Expr → Bool
  | .single _ => true
  | .group _ e => couldBeType e
  | .binary l op r =>
    if op = .comma ∨ op = .rightArrow then couldBeType l && couldBeType r
    else if op = .dot then couldBeType r else false
  | .concat l r => couldBeType l && couldBeType r
  | _ => false

/-- `looks_like_type_params` (expression.rs:1506-1531), from the partial expression after the `<` on: what
stands before the `>`, and what after it. -/
def looksLikeParams : List Partial → Option (List Partial × List Partial)
  | [] => none
  | x :: xs =>
    match x with
    | .binary op =>
      if op = .comma ∨ op = .rightArrow ∨ op = .dot ∨ op = .colon then
        (looksLikeParams xs).map fun r => (x :: r.1, r.2)
      else if op = .greaterThan then some ([], xs)
      else none
    | .expr e => if couldBeType e then (looksLikeParams xs).map fun r => (x :: r.1, r.2) else none
    | _ => none

/-- `find_type_params` (expression.rs:1535-1549): what stands before the `<`, between `<` and `>`, and after
the `>`. -/
def findParams : List Partial → Option (List Partial × List Partial × List Partial)
  | [] => none
  | x :: xs =>
    let later := (findParams xs).map fun r => (x :: r.1, r.2)
    match x with
    | .binary op =>
      if op = .lessThan then
        match looksLikeParams xs with
        | some (mid, right) => some ([], mid, right)
        | none => later
      else later
    | _ => later

/-- `PartialExpression::is_grouping` of the first (expression.rs:1155-1160, 1584). -/
def startsWithGroup : List Partial → Bool
  | .expr (.group ..) :: _ => true
  | _ => false

/-- `group_type_parameters` (expression.rs:1555-1590).  Each round removes a `<`; the fuel is more than the
number of partial expressions. -/
def groupParams : Nat → List Partial → Res (List Partial)
  | 0, _ => .error .fuel
  | n + 1, ps =>
    match findParams ps with
    | none => .ok ps
    | some (left, mid, right) => do
      let params ← combine (mid.length + 1) .type mid
      groupParams n (left ++ .implicit :: .expr (.group .angle params) ::
        ((if startsWithGroup right then [.implicit] else []) ++ right))

/-- `check_partial_expressions` (expression.rs:1595-1619). -/
def checkPartials : List Partial → Bool
  | .binary a :: .binary b :: ps => a = .greaterThan && checkPartials (.binary b :: ps)
  | .unary _ :: .binary _ :: _ => false
  | _ :: ps => checkPartials ps
  | [] => true

/-- `check_unparenthesized_implies` (expression.rs:1621-1641). -/
def checkImplies : Bool → List Partial → Bool
  | _, [] => true
  | saw, .binary op :: ps =>
    if op = .comma then checkImplies false ps
    else if op = .keyword "implies" then !saw && checkImplies true ps
    else checkImplies saw ps
  | saw, _ :: ps => checkImplies saw ps

/-- The rest of `Expression::parse` (expression.rs:831-836). -/
def finish (mode : Mode) (ps : List Partial) : Res Expr := do
  let ps ← groupParams (ps.length + 1) ps
  if mode ≠ .type ∧ !checkImplies false ps then .error .syntax
  else if !checkPartials ps then .error .syntax
  else combine (ps.length + 1) mode ps

/-- `Expression::parse` (expression.rs:824-838).  The fuel bounds the nesting. -/
def parseGo : Nat → Parser
  | 0 => fun _ _ _ => .error .fuel
  | k + 1 => fun mode term ts => do
    let (ps, t, ts) ← partials (parseGo k) mode term (ts.length + 1) ts []
    let e ← finish mode ps
    .ok (e, t, ts)

/-- `Expression::parse` (expression.rs:824-838); it is never nested deeper than there are tokens. -/
def parse (mode : Mode) (term : Term) (ts : List Lex) : Res (Expr × Lex × List Lex) :=
  parseGo (ts.length + 1) mode term ts

end Acorn.Parse
