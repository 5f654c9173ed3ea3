/-
The elaborator's values: types, expressions with binders counted from the outside, and the operations
that move an expression from one stack of binders to another (/repo/src/elaborator/acorn_value.rs and
/repo/src/elaborator/acorn_type.rs).

Simplifications, for the whole file: datatype families indexed by values (`AcornType::Family`,
`value_param_types`, `bound_value_args`) are left out, so no type mentions a variable of the stack and
the operations on types `insert_stack` (acorn_type.rs:1848-1889) and `bind_ambient_values`
(acorn_type.rs:1789-1846) are the identity.  Names of datatypes, typeclasses and constants are strings
without their module.  The typeclass of a type parameter is left out: no operation below reads it.
Of a `ConstantInstance` the name, the parameters and the instance type are kept; the other fields are
derived from them (acorn_value.rs:217-220).  Stack levels are natural numbers; in the code they are
16 bits wide.
-/
namespace Acorn
namespace Elab

/-- `AcornType` (acorn_type.rs:1106-1157), without `Family`. -/
inductive Ty where
  | bool
  | data (name : String) (args : List Ty)
  | fn (args : List Ty) (ret : Ty)
  | tvar (name : String)
  | arb (name : String)
  | type0
  | constraint (name : String)
  deriving Repr

/-- `BinaryOp` (acorn_value.rs:196-203). -/
inductive BinOp where
  | implies | equals | notEquals | and | or
  deriving DecidableEq, Repr

mutual

/-- `AcornValue` (acorn_value.rs:725-774).  A variable is a level of the stack, counted from the
outermost binder. -/
inductive Value where
  | var (i : Nat) (t : Ty)
  | const (name : String) (params : List Ty) (ty : Ty)
  | app (f : Value) (args : List Value)
  | tapp (f : Value) (names : List String) (args : List Ty)
  | lam (ts : List Ty) (body : Value)
  | bin (op : BinOp) (a b : Value)
  | not (a : Value)
  | try_ (a : Value) (t : Ty)
  | all (ts : List Ty) (body : Value)
  | ex (ts : List Ty) (body : Value)
  | group (a : Value)
  | bool (b : Bool)
  | ite (c a b : Value)
  | match_ (s : Value) (cases : List Case)

/-- `MatchCase` (acorn_value.rs:705-720). -/
inductive Case where
  | mk (vars : List Ty) (pattern result : Value) (index total : Nat)

end

/-! ### Types -/

/-- `AcornType::functional` (acorn_type.rs:1329-1335) with `FunctionType::new` (acorn_type.rs:406-437):
a function that returns a function takes the arguments of both. -/
def Ty.functional (args : List Ty) (ret : Ty) : Ty :=
  match args with
  | [] => ret
  | _ =>
    match ret with
    | .fn as r => .fn (args ++ as) r
    | _ => .fn args ret

mutual

/-- `AcornType::instantiate_with_base_stack` (acorn_type.rs:1584-1652). -/
def Ty.instantiate (params : List (String × Ty)) : Ty → Ty
  | .tvar n => (params.lookup n).getD (.tvar n)
  | .arb n => (params.lookup n).getD (.arb n)
  | .fn as r => Ty.functional (Ty.instantiateAll params as) (r.instantiate params)
  | .data d as => .data d (Ty.instantiateAll params as)
  | .bool => .bool
  | .type0 => .type0
  | .constraint c => .constraint c

/-- The types of a list. -/
def Ty.instantiateAll (params : List (String × Ty)) : List Ty → List Ty
  | [] => []
  | t :: ts => t.instantiate params :: Ty.instantiateAll params ts

end

mutual

/-- `AcornType::to_arbitrary` (acorn_type.rs:2030-2056). -/
def Ty.toArbitrary : Ty → Ty
  | .tvar n => .arb n
  | .fn as r => Ty.functional (Ty.toArbitraryAll as) r.toArbitrary
  | .data d as => .data d (Ty.toArbitraryAll as)
  | .arb n => .arb n
  | .bool => .bool
  | .type0 => .type0
  | .constraint c => .constraint c

/-- The types of a list. -/
def Ty.toArbitraryAll : List Ty → List Ty
  | [] => []
  | t :: ts => t.toArbitrary :: Ty.toArbitraryAll ts

end

/-! ### Constructors -/

namespace Value

/-- `AcornValue::apply` (acorn_value.rs:1043-1052). -/
def apply (f : Value) (args : List Value) : Value := if args.isEmpty then f else .app f args

/-- `AcornValue::lambda` (acorn_value.rs:1085-1091). -/
def mkLam (ts : List Ty) (v : Value) : Value := if ts.isEmpty then v else .lam ts v

/-- `AcornValue::forall` (acorn_value.rs:1094-1100). -/
def mkAll (ts : List Ty) (v : Value) : Value := if ts.isEmpty then v else .all ts v

/-- `AcornValue::exists` (acorn_value.rs:1103-1109). -/
def mkEx (ts : List Ty) (v : Value) : Value := if ts.isEmpty then v else .ex ts v

/-! ### Moving between stacks -/

mutual

/-- `AcornValue::insert_stack` (acorn_value.rs:1514-1638).  The early return for an increment of zero
(acorn_value.rs:1515-1517) is not spelled out. -/
def insertStack (index inc : Nat) : Value → Value
  | .var i t => if i < index then .var i t else .var (i + inc) t
  | .const n ps t => .const n ps t
  | .app f as => .app (f.insertStack index inc) (insertStackAll index inc as)
  | .tapp f ns ts => .tapp (f.insertStack index inc) ns ts
  | .lam ts b => .lam ts (b.insertStack index inc)
  | .bin op a b => .bin op (a.insertStack index inc) (b.insertStack index inc)
  | .not a => .not (a.insertStack index inc)
  | .try_ a t => .try_ (a.insertStack index inc) t
  | .all ts b => .all ts (b.insertStack index inc)
  | .ex ts b => .ex ts (b.insertStack index inc)
  | .group a => .group (a.insertStack index inc)
  | .bool b => .bool b
  | .ite c a b => .ite (c.insertStack index inc) (a.insertStack index inc) (b.insertStack index inc)
  | .match_ s cs => .match_ (s.insertStack index inc) (insertStackCases index inc cs)

/-- The arguments. -/
def insertStackAll (index inc : Nat) : List Value → List Value
  | [] => []
  | v :: vs => v.insertStack index inc :: insertStackAll index inc vs

/-- The cases. -/
def insertStackCases (index inc : Nat) : List Case → List Case
  | [] => []
  | .mk ts p r i n :: cs =>
    .mk ts (p.insertStack index inc) (r.insertStack index inc) i n :: insertStackCases index inc cs

end

mutual

/-- `AcornValue::bind_values` (acorn_value.rs:1328-1500).  The assertion at acorn_value.rs:1348 is that
`first ≤ size`; the model subtracts, with zero for a negative difference. -/
def bindValues (first size : Nat) (vals : List Value) : Value → Value
  | .var i t =>
    if i < first then .var i t
    else if h : i - first < vals.length then vals[i - first].insertStack first (size - first)
    else .var (i - vals.length) t
  | .const n ps t => .const n ps t
  | .app f as => .app (f.bindValues first size vals) (bindValuesAll first size vals as)
  | .tapp f ns ts => .tapp (f.bindValues first size vals) ns ts
  | .lam ts b => .lam ts (b.bindValues first (size + ts.length) vals)
  | .bin op a b => .bin op (a.bindValues first size vals) (b.bindValues first size vals)
  | .not a => .not (a.bindValues first size vals)
  | .try_ a t => .try_ (a.bindValues first size vals) t
  | .all ts b => .all ts (b.bindValues first (size + ts.length) vals)
  | .ex ts b => .ex ts (b.bindValues first (size + ts.length) vals)
  | .group a => .group (a.bindValues first size vals)
  | .bool b => .bool b
  | .ite c a b =>
    .ite (c.bindValues first size vals) (a.bindValues first size vals) (b.bindValues first size vals)
  | .match_ s cs => .match_ (s.bindValues first size vals) (bindValuesCases first size vals cs)

/-- The arguments. -/
def bindValuesAll (first size : Nat) (vals : List Value) : List Value → List Value
  | [] => []
  | v :: vs => v.bindValues first size vals :: bindValuesAll first size vals vs

/-- The cases. -/
def bindValuesCases (first size : Nat) (vals : List Value) : List Case → List Case
  | [] => []
  | .mk ts p r i n :: cs =>
    .mk ts (p.bindValues first (size + ts.length) vals) (r.bindValues first (size + ts.length) vals) i n ::
      bindValuesCases first size vals cs

end

/-! ### Constants and type parameters -/

/-- What `replacer` says of a constant (acorn_value.rs:1915): what to put for it, if anything. -/
abbrev Replacer := String → List Ty → Ty → Option Value

mutual

/-- `AcornValue::replace_constants_with_base_stack` (acorn_value.rs:1920-2143). -/
def replaceConstants (size base : Nat) (rep : Replacer) : Value → Value
  | .var i t => .var i t
  | .const n ps t =>
    match rep n ps t with
    | none => .const n ps t
    | some v => if base = 0 then v else v.insertStack base (size - base)
  | .app f as => .app (f.replaceConstants size base rep) (replaceConstantsAll size base rep as)
  | .tapp f ns ts => .tapp (f.replaceConstants size base rep) ns ts
  | .lam ts b => .lam ts (b.replaceConstants (size + ts.length) base rep)
  | .bin op a b => .bin op (a.replaceConstants size base rep) (b.replaceConstants size base rep)
  | .not a => .not (a.replaceConstants size base rep)
  | .try_ a t => .try_ (a.replaceConstants size base rep) t
  | .all ts b => .all ts (b.replaceConstants (size + ts.length) base rep)
  | .ex ts b => .ex ts (b.replaceConstants (size + ts.length) base rep)
  | .group a => .group (a.replaceConstants size base rep)
  | .bool b => .bool b
  | .ite c a b => .ite (c.replaceConstants size base rep) (a.replaceConstants size base rep)
      (b.replaceConstants size base rep)
  | .match_ s cs => .match_ (s.replaceConstants size base rep) (replaceConstantsCases size base rep cs)

/-- The arguments. -/
def replaceConstantsAll (size base : Nat) (rep : Replacer) : List Value → List Value
  | [] => []
  | v :: vs => v.replaceConstants size base rep :: replaceConstantsAll size base rep vs

/-- The cases. -/
def replaceConstantsCases (size base : Nat) (rep : Replacer) : List Case → List Case
  | [] => []
  | .mk ts p r i n :: cs =>
    .mk ts (p.replaceConstants (size + ts.length) base rep)
      (r.replaceConstants (size + ts.length) base rep) i n :: replaceConstantsCases size base rep cs

end

mutual

/-- `AcornValue::instantiate` (acorn_value.rs:2510-2512, 2329-2507). -/
def instantiate (params : List (String × Ty)) : Value → Value
  | .var i t => .var i (t.instantiate params)
  | .const n ps t => .const n (Ty.instantiateAll params ps) (t.instantiate params)
  | .app f as => .app (f.instantiate params) (instantiateAll params as)
  | .tapp f ns ts => .tapp (f.instantiate params) ns (Ty.instantiateAll params ts)
  | .lam ts b => .lam (Ty.instantiateAll params ts) (b.instantiate params)
  | .bin op a b => .bin op (a.instantiate params) (b.instantiate params)
  | .not a => .not (a.instantiate params)
  | .try_ a t => .try_ (a.instantiate params) (t.instantiate params)
  | .all ts b => .all (Ty.instantiateAll params ts) (b.instantiate params)
  | .ex ts b => .ex (Ty.instantiateAll params ts) (b.instantiate params)
  | .group a => .group (a.instantiate params)
  | .bool b => .bool b
  | .ite c a b => .ite (c.instantiate params) (a.instantiate params) (b.instantiate params)
  | .match_ s cs => .match_ (s.instantiate params) (instantiateCases params cs)

/-- The arguments. -/
def instantiateAll (params : List (String × Ty)) : List Value → List Value
  | [] => []
  | v :: vs => v.instantiate params :: instantiateAll params vs

/-- The cases. -/
def instantiateCases (params : List (String × Ty)) : List Case → List Case
  | [] => []
  | .mk ts p r i n :: cs =>
    .mk (Ty.instantiateAll params ts) (p.instantiate params) (r.instantiate params) i n ::
      instantiateCases params cs

end

/-- `TypeApplication::instantiated_function` (acorn_value.rs:180-190). -/
def instantiatedFunction (f : Value) (names : List String) (args : List Ty) : Value :=
  f.instantiate (names.zip args)

mutual

/-- `AcornValue::to_arbitrary` (acorn_value.rs:2717-2772).  The types of the variables of a case are
kept as they are (acorn_value.rs:2757). -/
def toArbitrary : Value → Value
  | .var i t => .var i t.toArbitrary
  | .const n ps t => .const n (Ty.toArbitraryAll ps) t.toArbitrary
  | .app f as => .app f.toArbitrary (toArbitraryAll as)
  | .tapp f ns ts => .tapp f.toArbitrary ns (Ty.toArbitraryAll ts)
  | .lam ts b => .lam (Ty.toArbitraryAll ts) b.toArbitrary
  | .bin op a b => .bin op a.toArbitrary b.toArbitrary
  | .not a => .not a.toArbitrary
  | .try_ a t => .try_ a.toArbitrary t.toArbitrary
  | .all ts b => .all (Ty.toArbitraryAll ts) b.toArbitrary
  | .ex ts b => .ex (Ty.toArbitraryAll ts) b.toArbitrary
  | .group a => .group a.toArbitrary
  | .bool b => .bool b
  | .ite c a b => .ite c.toArbitrary a.toArbitrary b.toArbitrary
  | .match_ s cs => .match_ s.toArbitrary (toArbitraryCases cs)

/-- The arguments. -/
def toArbitraryAll : List Value → List Value
  | [] => []
  | v :: vs => v.toArbitrary :: toArbitraryAll vs

/-- The cases. -/
def toArbitraryCases : List Case → List Case
  | [] => []
  | .mk ts p r i n :: cs => .mk ts p.toArbitrary r.toArbitrary i n :: toArbitraryCases cs

end

/-! ### Lambdas -/

mutual

/-- `AcornValue::expand_lambdas` (acorn_value.rs:1806-1886).  The first argument bounds the recursion,
which in the code has no bound. -/
def expandLambdas : Nat → Nat → Value → Option Value
  | 0, _, _ => none
  | n + 1, size, v =>
    match v with
    | .app f as => do
      let f' ← expandLambdas n size f
      let as' ← expandLambdasAll n size as
      match f' with
      | .lam _ b => expandLambdas n size (b.bindValues size size as')
      | _ => return .app f' as'
    | .tapp f ns ts => expandLambdas n size (instantiatedFunction f ns ts)
    | .bin op a b => do return .bin op (← expandLambdas n size a) (← expandLambdas n size b)
    | .not a => do return .not (← expandLambdas n size a)
    | .try_ a t => do return .try_ (← expandLambdas n size a) t
    | .all ts b => do return .all ts (← expandLambdas n (size + ts.length) b)
    | .ex ts b => do return .ex ts (← expandLambdas n (size + ts.length) b)
    | .group a => do return .group (← expandLambdas n size a)
    | .lam ts b => do return .lam ts (← expandLambdas n (size + ts.length) b)
    | .ite c a b =>
      do return .ite (← expandLambdas n size c) (← expandLambdas n size a) (← expandLambdas n size b)
    | .match_ s cs => do return .match_ (← expandLambdas n size s) (← expandLambdasCases n size cs)
    | .var i t => some (.var i t)
    | .const m ps t => some (.const m ps t)
    | .bool b => some (.bool b)

/-- The arguments. -/
def expandLambdasAll : Nat → Nat → List Value → Option (List Value)
  | 0, _, _ => none
  | _ + 1, _, [] => some []
  | n + 1, size, v :: vs => do return (← expandLambdas n size v) :: (← expandLambdasAll n size vs)

/-- The cases. -/
def expandLambdasCases : Nat → Nat → List Case → Option (List Case)
  | 0, _, _ => none
  | _ + 1, _, [] => some []
  | n + 1, size, .mk ts p r i m :: cs => do
    return .mk ts (← expandLambdas n (size + ts.length) p) (← expandLambdas n (size + ts.length) r) i m ::
      (← expandLambdasCases n size cs)

end

/-! ### Statements -/

/-- `AcornValue::negate` (acorn_value.rs:1236-1249). -/
def negate : Value → Value
  | .group x => .group x.negate
  | .not x => x
  | .bin .equals x y => .bin .notEquals x y
  | .bin .notEquals x y => .bin .equals x y
  | .bool b => .bool !b
  | v => .not v

/-- `AcornValue::pretty_negate` (acorn_value.rs:1252-1274). -/
def prettyNegate : Value → Value
  | .group x => .group x.prettyNegate
  | .not x => x
  | .bin .equals x y => .bin .notEquals x y
  | .bin .notEquals x y => .bin .equals x y
  | .bin .or x y => .bin .and x.prettyNegate y.prettyNegate
  | .bin .and x y => .bin .or x.prettyNegate y.prettyNegate
  | .bin .implies x y => .bin .and x y.prettyNegate
  | .bool b => .bool !b
  | .all ts b => mkEx ts b.prettyNegate
  | .ex ts b => mkAll ts b.prettyNegate
  | v => .not v

/-- `AcornValue::remove_and` (acorn_value.rs:1889-1903). -/
def removeAnd : Value → List Value
  | .bin .and a b => a.removeAnd ++ b.removeAnd
  | v => [v]

/-- `AcornValue::negate_goal` (acorn_value.rs:3202-3207). -/
def negateGoal : Value → Option Value × Value
  | .bin .implies a b => (some a, b.negate)
  | v => (none, v.negate)

/-- `AcornValue::reduce` (acorn_value.rs:3210-3224); `none` is the panic. -/
def reduce (op : BinOp) : List Value → Option Value
  | [] => none
  | v :: vs => some (vs.foldl (fun a b => .bin op a b) v)

/-- The loop of `inflate_function_definition` (acorn_value.rs:3274-3279). -/
def stripLams : Value → List Ty × Value
  | .lam ts b => let (us, v) := b.stripLams; (ts ++ us, v)
  | v => ([], v)

/-- `AcornValue::inflate_function_definition` (acorn_value.rs:3273-3299). -/
def inflate (c definition : Value) : Value :=
  let (ts, body) := definition.stripLams
  if ts.isEmpty then .bin .equals c body
  else .all ts (.bin .equals (c.apply ((List.range ts.length).zip ts |>.map fun (i, t) => .var i t)) body)

/-- `Block::externalize_bool` (block.rs:553-608): the block's arguments become universal, the other
constants of the block existential variables.  `args` and `others` are the names and types of those
constants; `others` is what `find_unknown_scoped_constants` finds, without `args` and in the order of
names (block.rs:564-578).  Of two arguments with one name the last counts, as the map keeps what is
inserted last (block.rs:584-591).  The name stands for the pair of module and name, so the test at
block.rs:597 is part of the lookup. -/
def externalize (args others : List (String × Ty)) (v : Value) : Value :=
  let names := (args ++ others).map (·.1)
  let shifted := v.insertStack 0 names.length
  let replaced := shifted.replaceConstants 0 0 fun n _ t =>
    if n ∈ names then some (.var (names.length - 1 - names.reverse.idxOf n) t) else none
  mkAll (args.map (·.2)) (mkEx (others.map (·.2)) replaced)

end Value
end Elab
end Acorn
