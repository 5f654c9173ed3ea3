/-
Declarations of datatypes: `inductive` and `structure` statements, the check that an inductive type
occurs only strictly positively, and the facts a declaration adds
(/repo/src/elaborator/environment/add_statement/datatypes.rs, with the variance of type parameters and
the generic form of types and values from acorn_type.rs and acorn_value.rs).

Simplifications, for the whole file: structures have no value parameters (`value_param_count` is 0, so
`quantify_over_value_params` is the identity, datatypes.rs:150-156).  A type parameter is its name; its
typeclass is left out.  Names of datatypes and of their attributes are strings without their module.
The names of constructors and fields are assumed to have passed the tests for reserved and repeated
names (datatypes.rs:34-62, 607-620).  `apply_potential` on a constant with its type arguments given is
`AcornValue::apply`.
-/
import Verif.Model.Quote
import Verif.Model.LocalSatisfy
import Verif.Model.ValueTypes
import Verif.Model.TypeUnifier
namespace Acorn
namespace Elab

/-! ### Generic forms -/

mutual

/-- `AcornType::genericize` (acorn_type.rs:1967-2003). -/
def Ty.genericize (params : List String) : Ty → Ty
  | .arb n => if params.contains n then .tvar n else .arb n
  | .fn as r => Ty.functional (Ty.genericizeAll params as) (r.genericize params)
  | .data d as => .data d (Ty.genericizeAll params as)
  | .tvar n => .tvar n
  | .bool => .bool
  | .type0 => .type0
  | .constraint c => .constraint c

/-- The types of a list. -/
def Ty.genericizeAll (params : List String) : List Ty → List Ty
  | [] => []
  | t :: ts => t.genericize params :: Ty.genericizeAll params ts

end

mutual

/-- `AcornType::has_arbitrary` (acorn_type.rs:2059-2070, 467-469). -/
def Ty.hasArbitrary : Ty → Bool
  | .arb _ => true
  | .fn as r => Ty.hasArbitraryAny as || r.hasArbitrary
  | .data _ as => Ty.hasArbitraryAny as
  | .tvar _ => false
  | .bool => false
  | .type0 => false
  | .constraint _ => false

/-- Any of several types. -/
def Ty.hasArbitraryAny : List Ty → Bool
  | [] => false
  | t :: ts => t.hasArbitrary || Ty.hasArbitraryAny ts

end

mutual

/-- `AcornType::contains_type_var` (acorn_type.rs:2201-2215). -/
def Ty.containsVar (p : String) : Ty → Bool
  | .tvar n => n == p
  | .arb n => n == p
  | .data _ as => Ty.containsVarAny p as
  | .fn as r => Ty.containsVarAny p as || r.containsVar p
  | .bool => false
  | .type0 => false
  | .constraint _ => false

/-- Any of several types. -/
def Ty.containsVarAny (p : String) : List Ty → Bool
  | [] => false
  | t :: ts => t.containsVar p || Ty.containsVarAny p ts

end

/-- The loop of `ConstantInstance::genericize` over the parameters (acorn_value.rs:612-626). -/
def addParams (t : Ty) (res : List Ty) : List String → List Ty
  | [] => res
  | p :: ps =>
    if t.hasArb p && !Ty.containsVarAny p res then addParams t (res ++ [.tvar p]) ps
    else addParams t res ps

/-- The type arguments of a constant in `ConstantInstance::genericize` (acorn_value.rs:585-631). -/
def constGeneric (params : List String) (ps : List Ty) (t : Ty) : List Ty :=
  if (t.genericize params).hasGeneric && ps.isEmpty then params.map .tvar
  else if !ps.isEmpty && t.hasArbitrary then addParams t (Ty.genericizeAll params ps) params
  else Ty.genericizeAll params ps

namespace Value

mutual

/-- `AcornValue::genericize` (acorn_value.rs:2775-2841). -/
def genericize (params : List String) : Value → Value
  | .var i t => .var i (t.genericize params)
  | .const n ps t => .const n (constGeneric params ps t) (t.genericize params)
  | .app f as => .app (f.genericize params) (genericizeAll params as)
  | .tapp f ns ts => .tapp (f.genericize params) ns (Ty.genericizeAll params ts)
  | .lam ts b => .lam (Ty.genericizeAll params ts) (b.genericize params)
  | .all ts b => .all (Ty.genericizeAll params ts) (b.genericize params)
  | .ex ts b => .ex (Ty.genericizeAll params ts) (b.genericize params)
  | .group a => .group (a.genericize params)
  | .bin op a b => .bin op (a.genericize params) (b.genericize params)
  | .ite c a b => .ite (c.genericize params) (a.genericize params) (b.genericize params)
  | .match_ s cs => .match_ (s.genericize params) (genericizeCases params cs)
  | .not a => .not (a.genericize params)
  | .try_ a t => .try_ (a.genericize params) (t.genericize params)
  | .bool b => .bool b

/-- The values of a list. -/
def genericizeAll (params : List String) : List Value → List Value
  | [] => []
  | v :: vs => v.genericize params :: genericizeAll params vs

/-- The cases of a match. -/
def genericizeCases (params : List String) : List Case → List Case
  | [] => []
  | .mk ts p r i n :: cs =>
    .mk (Ty.genericizeAll params ts) (p.genericize params) (r.genericize params) i n :: genericizeCases params cs

end

end Value

/-! ### Variance -/

/-- `Variance` (acorn_type.rs:8-19). -/
inductive Variance where
  | positive | negative | both | none
  deriving DecidableEq, Repr

/-- `Variance::merge` (acorn_type.rs:23-34). -/
def Variance.merge : Variance → Variance → Variance
  | .none, v => v
  | v, .none => v
  | .positive, .positive => .positive
  | .negative, .negative => .negative
  | .both, _ => .both
  | _, .both => .both
  | .positive, .negative => .both
  | .negative, .positive => .both

mutual

/-- `AcornType::compute_variance_with_lookup` (acorn_type.rs:2220-2321). -/
def Ty.variance (lookup : String → Option (List Variance)) (p : String) (pos : Bool) : Ty → Variance
  | .tvar n => if n == p then (if pos then .positive else .negative) else .none
  | .arb n => if n == p then (if pos then .positive else .negative) else .none
  | .data d as => Ty.varianceArgs lookup p pos (lookup d) .none as
  | .fn as r => (Ty.varianceAll lookup p (!pos) .none as).merge (r.variance lookup p pos)
  | .bool => .none
  | .type0 => .none
  | .constraint _ => .none

/-- The loop over the arguments of a datatype (acorn_type.rs:2241-2284), from the variances that are
left; `acc` is the variance so far. -/
def Ty.varianceArgs (lookup : String → Option (List Variance)) (p : String) (pos : Bool) :
    Option (List Variance) → Variance → List Ty → Variance
  | _, acc, [] => acc
  | some (.negative :: vs), acc, a :: as =>
    Ty.varianceArgs lookup p pos (some vs) (acc.merge (a.variance lookup p (!pos))) as
  | some (.both :: vs), acc, a :: as =>
    Ty.varianceArgs lookup p pos (some vs)
      (if a.variance lookup p true = .none then acc else acc.merge .both) as
  | some (_ :: vs), acc, a :: as =>
    Ty.varianceArgs lookup p pos (some vs) (acc.merge (a.variance lookup p pos)) as
  | some [], acc, a :: as =>
    Ty.varianceArgs lookup p pos (some []) (acc.merge (a.variance lookup p pos)) as
  | none, acc, a :: as =>
    Ty.varianceArgs lookup p pos none (acc.merge (a.variance lookup p pos)) as

/-- The loop over the arguments of a function (acorn_type.rs:2299-2308). -/
def Ty.varianceAll (lookup : String → Option (List Variance)) (p : String) (pos : Bool) :
    Variance → List Ty → Variance
  | acc, [] => acc
  | acc, a :: as => Ty.varianceAll lookup p pos (acc.merge (a.variance lookup p pos)) as

end

/-- The variance of a type parameter in the types of the fields or of the arguments of the constructors
(datatypes.rs:86-99, 661-676). -/
def paramVariance (lookup : String → Option (List Variance)) (ts : List Ty) (p : String) : Variance :=
  ts.foldl (fun acc t => acc.merge (t.variance lookup p true)) .none

/-- What `DatatypeDefinition::import` (binding_map.rs:3246-3304) leaves in the field `variances` of the
entry `self` of the importing module, when the entry of the imported module is `info`: the attributes,
the instances, the kinds of the parameters and the names of the fields are copied, the variances are
not. -/
def importVariances (self _info : Option (List Variance)) : Option (List Variance) := self

/-! ### Strict positivity -/

mutual

/-- `contains_inductive_type` (datatypes.rs:1037-1070). -/
def Ty.containsInd (ind : Ty) : Ty → Bool
  | .data d as =>
    Ty.same (.data d as) ind || (match ind with | .data e _ => d == e | _ => false) || Ty.containsIndAny ind as
  | .fn as r => Ty.same (.fn as r) ind || Ty.containsIndAny ind as || Ty.containsInd ind r
  | .tvar n => Ty.same (.tvar n) ind
  | .arb n => Ty.same (.arb n) ind
  | .bool => Ty.same .bool ind
  | .type0 => Ty.same .type0 ind
  | .constraint c => Ty.same (.constraint c) ind

/-- Any of several types. -/
def Ty.containsIndAny (ind : Ty) : List Ty → Bool
  | [] => false
  | t :: ts => Ty.containsInd ind t || Ty.containsIndAny ind ts

end

mutual

/-- `check_strict_positivity` (datatypes.rs:975-1035); true when there is no error. -/
def Ty.strictlyPositive (lookup : String → Option (List Variance)) (ind : Ty) : Ty → Bool
  | .data d as => Ty.strictlyPositiveArgs lookup ind (lookup d) as
  | .fn as r => !Ty.containsIndAny ind as && Ty.strictlyPositive lookup ind r
  | .tvar _ => true
  | .arb _ => true
  | .bool => true
  | .type0 => true
  | .constraint _ => true

/-- The loop over the arguments of a datatype (datatypes.rs:984-1014), from the variances that are left. -/
def Ty.strictlyPositiveArgs (lookup : String → Option (List Variance)) (ind : Ty) :
    Option (List Variance) → List Ty → Bool
  | _, [] => true
  | none, a :: as =>
    (!Ty.containsInd ind a || Ty.strictlyPositive lookup ind a) && Ty.strictlyPositiveArgs lookup ind none as
  | some [], _ :: as => Ty.strictlyPositiveArgs lookup ind (some []) as
  | some (v :: vs), a :: as =>
    (!Ty.containsInd ind a || (v != .negative && v != .both && Ty.strictlyPositive lookup ind a)) &&
      Ty.strictlyPositiveArgs lookup ind (some vs) as

end

/-! ### Inductive types -/

/-- A constructor of an inductive type: the name of its constant and the types of its arguments. -/
structure Con where
  name : String
  args : List Ty

/-- The declared type with its parameters as arbitrary types (`arb_inductive_type`,
datatypes.rs:639-640, and `struct_type`, datatypes.rs:148-149). -/
def selfType (name : String) (params : List String) : Ty := .data name (params.map .arb)

/-- The tests of an inductive declaration (datatypes.rs:642-703): there is a constructor without an
argument of the type itself, and the type occurs strictly positively.  The variances of the type itself,
which the tests can look up, are set before (datatypes.rs:661-682). -/
def acceptsInductive (lookup : String → Option (List Variance)) (name : String) (params : List String)
    (cs : List Con) : Bool :=
  let T := selfType name params
  let vs := params.map (paramVariance lookup (cs.flatMap (·.args)))
  let lookup' := fun d => if d == name then some vs else lookup d
  (cs.any fun c => !(c.args.any fun t => Ty.same t T)) &&
    (cs.all fun c => c.args.all fun t => Ty.strictlyPositive lookup' T t)

/-- The function of a constructor (datatypes.rs:709-741). -/
def Con.fn (T : Ty) (params : List String) (c : Con) : Value :=
  .const c.name (params.map .arb) (Ty.functional c.args T)

/-- Two constructors give different values (datatypes.rs:780-803). -/
def distinctFact (T : Ty) (params : List String) (c d : Con) : Value :=
  Value.mkAll (c.args ++ d.args)
    (.bin .notEquals ((c.fn T params).apply (stackVars 0 c.args))
      ((d.fn T params).apply (stackVars c.args.length d.args)))

/-- The inequalities (datatypes.rs:780-816): each constructor and those before it. -/
def distinctFacts (T : Ty) (params : List String) : List Con → List Con → List Value
  | _, [] => []
  | prev, c :: cs => (prev.map fun d => distinctFact T params c d) ++ distinctFacts T params (prev ++ [c]) cs

/-- Every value comes from a constructor (datatypes.rs:818-844). -/
def coverFact (T : Ty) (params : List String) (cs : List Con) : Option Value := do
  let v ← Value.reduce .or (cs.map fun c =>
    Value.mkEx c.args (.bin .equals (.var 0 T) ((c.fn T params).apply (stackVars 1 c.args))))
  return Value.mkAll [T] v

/-- A constructor gives different values for different arguments (datatypes.rs:846-891). -/
def injectiveFact (T : Ty) (params : List String) (c : Con) : Option Value := do
  let v ← Value.reduce .and
    (List.zipWith (fun a b => .bin .equals a b) (stackVars 0 c.args) (stackVars c.args.length c.args))
  return Value.mkAll (c.args ++ c.args)
    (.bin .implies
      (.bin .equals ((c.fn T params).apply (stackVars 0 c.args))
        ((c.fn T params).apply (stackVars c.args.length c.args))) v)

/-- The hypotheses of an induction for the arguments from level `n` on (datatypes.rs:898-909). -/
def inductionHyps (T : Ty) (n : Nat) : List Ty → List Value
  | [] => []
  | t :: ts =>
    if Ty.same t T then
      (Value.var 0 (Ty.functional [T] .bool)).apply [.var n t] :: inductionHyps T (n + 1) ts
    else inductionHyps T (n + 1) ts

/-- The case of a constructor in an induction (datatypes.rs:894-927). -/
def inductionCase (T : Ty) (params : List String) (c : Con) : Option Value :=
  let claim := (Value.var 0 (Ty.functional [T] .bool)).apply [(c.fn T params).apply (stackVars 1 c.args)]
  match inductionHyps T 1 c.args with
  | [] => some (Value.mkAll c.args claim)
  | hs => (Value.reduce .and hs).map fun h => Value.mkAll c.args (.bin .implies h claim)

/-- Induction, under the binder of the predicate (datatypes.rs:893-936). -/
def inductionBody (T : Ty) (params : List String) (cs : List Con) : Option Value := do
  let parts ← cs.mapM (inductionCase T params)
  let v ← Value.reduce .and parts
  return .bin .implies v (Value.mkAll [T] ((Value.var 0 (Ty.functional [T] .bool)).apply [.var 1 T]))

/-- Induction (datatypes.rs:893-967). -/
def inductionFact (T : Ty) (params : List String) (cs : List Con) : Option Value :=
  (inductionBody T params cs).map (Value.mkAll [Ty.functional [T] .bool])

/-- The definition of the constant `induction` of the type (datatypes.rs:938-957). -/
def inductionDef (T : Ty) (params : List String) (cs : List Con) : Option Value :=
  (inductionBody T params cs).map fun v => (Value.mkLam [Ty.functional [T] .bool] v).genericize params

/-- The facts an inductive declaration adds, in order (datatypes.rs:780-967).  `none` is a panic. -/
def inductiveFacts (name : String) (params : List String) (cs : List Con) : Option (List Value) := do
  let T := selfType name params
  let cover ← coverFact T params cs
  let inj ← (cs.filter fun c => !c.args.isEmpty).mapM (injectiveFact T params)
  let ind ← inductionFact T params cs
  return (distinctFacts T params [] cs ++ cover :: inj ++ [ind]).map (·.genericize params)

/-! ### Structures -/

/-- A structure: the names of the constants for its constructor and for its constraint, and its fields
with the names of their constants. -/
structure Struct where
  name : String
  new : String
  constraintFn : String
  fields : List (String × Ty)

namespace Struct

/-- The types of the fields. -/
def types (s : Struct) : List Ty := s.fields.map (·.2)

/-- The function of a field (datatypes.rs:169-204). -/
def member (T : Ty) (params : List String) (f : String × Ty) : Value :=
  .const f.1 (params.map .arb) (Ty.functional [T] f.2)

/-- The fields of an object (`member_args`, datatypes.rs:241-251). -/
def memberArgs (s : Struct) (T : Ty) (params : List String) (x : Value) : List Value :=
  s.fields.map fun f => (member T params f).apply [x]

/-- The constructor (datatypes.rs:206-239). -/
def newFn (s : Struct) (T : Ty) (params : List String) : Value :=
  .const s.new (params.map .arb) (Ty.functional s.types T)

/-- The facts without a constraint (datatypes.rs:330-359, 361-374, 532-581), before they are made generic. -/
def facts (s : Struct) (params : List String) : List Value :=
  let T := selfType s.name params
  .all [T] (.bin .equals ((s.newFn T params).apply (s.memberArgs T params (.var 0 T))) (.var 0 T)) ::
    List.zipWith (fun f x =>
      .all s.types (.bin .equals ((member T params f).apply [(s.newFn T params).apply (stackVars 0 s.types)]) x))
      s.fields (stackVars 0 s.types)

/-- The facts of a structure without a constraint. -/
def plainFacts (s : Struct) (params : List String) : List Value := (s.facts params).map (·.genericize params)

/-- The predicate of the constraint (datatypes.rs:257-279). -/
def constraintValue (s : Struct) (params : List String) : Value :=
  .const s.constraintFn (params.map .arb) (Ty.functional s.types .bool)

/-- The definition of the constraint (datatypes.rs:281-308). -/
def constraintDef (s : Struct) (params : List String) (c : Value) : Value :=
  .all s.types (.bin .equals ((s.constraintValue params).apply (stackVars 0 s.types)) c)

/-- Every object meets the constraint (datatypes.rs:310-328). -/
def constraintFact (s : Struct) (params : List String) (c : Value) : Value :=
  let T := selfType s.name params
  .all [T] ((c.insertStack 0 1).bindValues 1 1 (s.memberArgs T params (.var 0 T)))

/-- The constructor of a structure with a constraint, into an option type (datatypes.rs:407-434). -/
def newOption (s : Struct) (T : Ty) (params : List String) (option : String) : Value :=
  .const s.new (params.map .arb) (Ty.functional s.types (.data option [T]))

/-- The facts about the constructor of a structure with a constraint (datatypes.rs:383-530), when there
is an option type with these names of the type and of its constructors. -/
def optionFacts (s : Struct) (params : List String) (option some_ none_ : String) : List Value :=
  let T := selfType s.name params
  let n := s.types.length
  let O : Ty := .data option [T]
  let newApp := (s.newOption T params option).apply (stackVars 0 s.types)
  let some' : Value := .const some_ [T] (Ty.functional [T] O)
  let none' : Value := .const none_ [T] O
  let cond := (s.constraintValue params).apply (stackVars 0 s.types)
  let match_ : Value := .bin .equals newApp (some'.apply [.var n T])
  .all s.types (.bin .implies cond (.ex [T] match_)) ::
    List.zipWith (fun f x =>
      .all (s.types ++ [T]) (.bin .implies match_ (.bin .equals ((member T params f).apply [.var n T]) x)))
      s.fields (stackVars 0 s.types) ++
    [.all s.types (.bin .implies cond.negate (.bin .equals newApp none')),
      .all [T] (.bin .equals ((s.newOption T params option).apply (s.memberArgs T params (.var 0 T)))
        (some'.apply [.var 0 T]))]

/-- The facts of a structure with the constraint `c` (datatypes.rs:253-328, 383-530); `opt` are the names
of the option type and of its constructors, if there is one. -/
def constrainedFacts (s : Struct) (params : List String) (c : Value) (opt : Option (String × String × String)) :
    List Value :=
  (s.constraintDef params c :: s.constraintFact params c ::
    match opt with
    | none => []
    | some (o, sm, nn) => s.optionFacts params o sm nn).map (·.genericize params)

end Struct

end Elab
end Acorn
