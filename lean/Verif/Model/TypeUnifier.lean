/-
Type inference for generic constants: matching a generic type against an instance, and resolving a
constant from the types of its arguments and the expected type (/repo/src/elaborator/type_unifier.rs and
/repo/src/elaborator/unresolved_constant.rs).

Simplifications, for the whole file: as in `Verif.Model.AcornValue` families indexed by values are left
out, and with them hidden value arguments (`value_mapping`, the second attempt of
`try_resolve_with_inference` at type_unifier.rs:453-481) and the count of visible binders.  A failed match
leaves entries behind in the code; every caller stops at the failure, so a failure is `none` here.
-/
import Verif.Model.ValueTypes
namespace Acorn
namespace Elab

mutual

/-- `AcornType::has_type_variable` (acorn_type.rs:1517-1535). -/
def Ty.hasVar (n : String) : Ty → Bool
  | .tvar m => m == n
  | .data _ ts => Ty.hasVarAny n ts
  | .fn as r => Ty.hasVarAny n as || r.hasVar n
  | .arb _ => false
  | .bool => false
  | .type0 => false
  | .constraint _ => false

/-- Any of several types. -/
def Ty.hasVarAny (n : String) : List Ty → Bool
  | [] => false
  | t :: ts => t.hasVar n || Ty.hasVarAny n ts

end

mutual

/-- The name of an arbitrary type occurs: `AcornType::has_arbitrary_type_param`
(acorn_type.rs:2180-2198), without the comparison of the typeclasses. -/
def Ty.hasArb (n : String) : Ty → Bool
  | .arb m => m == n
  | .data _ ts => Ty.hasArbAny n ts
  | .fn as r => Ty.hasArbAny n as || r.hasArb n
  | .tvar _ => false
  | .bool => false
  | .type0 => false
  | .constraint _ => false

/-- Any of several types. -/
def Ty.hasArbAny (n : String) : List Ty → Bool
  | [] => false
  | t :: ts => t.hasArb n || Ty.hasArbAny n ts

end

/-- `TypeclassRegistry` (type_unifier.rs:41-79), and the typeclasses of the type parameters of the generic
type and of the instance, which in the code are part of the types (acorn_type.rs:476-480). -/
structure Classes where
  isInstance : Ty → String → Bool
  extends_ : String → String → Bool
  ofGeneric : String → Option String
  ofInstance : String → Option String

/-- `TypeUnifier::satisfies_typeclass_constraint` (type_unifier.rs:370-383); the same test is written out
twice in `match_instance_with_visible_prefix` (type_unifier.rs:124-150, 164-190). -/
def Classes.satisfies (C : Classes) (t : Ty) (tc : String) : Bool :=
  match t with
  | .data _ _ => C.isInstance t tc
  | .arb n | .tvar n =>
    match C.ofInstance n with
    | some actual => actual == tc || C.extends_ actual tc
    | none => false
  | _ => false

/-- The parameter has no typeclass or the type satisfies it. -/
def Classes.ok (C : Classes) (n : String) (t : Ty) : Bool :=
  match C.ofGeneric n with
  | none => true
  | some tc => C.satisfies t tc

/-- The mapping of a `TypeUnifier` (type_unifier.rs:17-20), newest entry first. -/
abbrev TyMap := List (String × Ty)

/-- A type variable against any type (type_unifier.rs:118-157). -/
def matchTvar (C : Classes) (n : String) (i : Ty) (m : TyMap) : Option TyMap :=
  match m.lookup n with
  | some t => if t.same i then some m else none
  | none =>
    if !C.ok n i then none
    else if i.hasVar n then none
    else some ((n, i) :: m)

/-- An arbitrary type against any type (type_unifier.rs:158-208). -/
def matchArb (C : Classes) (n : String) (i : Ty) (m : TyMap) : Option TyMap :=
  match m.lookup n with
  | some t => if t.same i then some m else none
  | none =>
    if !C.ok n i then none
    else if i.hasArb n && C.ofGeneric n == C.ofInstance n then
      match i with
      | .arb k => if k == n then some ((n, i) :: m) else none
      | _ => none
    else some ((n, i) :: m)

mutual

/-- `TypeUnifier::match_instance_with_visible_prefix` (type_unifier.rs:112-290).  The first argument
bounds the recursion; in the code there is no bound. -/
def matchInst (C : Classes) : Nat → Ty → Ty → TyMap → Option TyMap
  | 0, _, _, _ => none
  | fuel + 1, g, i, m =>
    match g, i with
    | .tvar n, i => matchTvar C n i m
    | .arb n, i => matchArb C n i m
    | .fn as r, .fn bs q =>
      if as.length < bs.length then do
        let m1 ← matchZip C fuel as bs m
        matchInst C fuel r (Ty.functional (bs.drop as.length) q) m1
      else if as.length > bs.length then do
        let m1 ← matchZip C fuel as bs m
        matchInst C fuel (Ty.functional (as.drop bs.length) r) q m1
      else do
        let m1 ← matchInst C fuel r q m
        matchZip C fuel as bs m1
    | .data d as, .data e bs =>
      if d != e || as.length != bs.length then none
      else matchZip C fuel as bs m
    | g, i => if g.same i then some m else none

/-- One after the other, as far as both lists go. -/
def matchZip (C : Classes) : Nat → List Ty → List Ty → TyMap → Option TyMap
  | 0, _, _, _ => none
  | fuel + 1, as, bs, m =>
    match as, bs with
    | a :: as, b :: bs => do
      let m1 ← matchInst C fuel a b m
      matchZip C fuel as bs m1
    | _, _ => some m

end

/-- `UnresolvedConstant` (unresolved_constant.rs:10-33). -/
structure Unresolved where
  name : String
  params : List String
  generic : Ty
  args : List Value

/-- `PotentialValue`. -/
inductive Potential where
  | resolved (v : Value)
  | unresolved (u : Unresolved)

/-- The arguments against the parameter types (type_unifier.rs:548-586); `get_type` may panic. -/
def matchArgs (C : Classes) (fuel : Nat) : List Ty → List Value → TyMap → Option TyMap
  | _, [], m => some m
  | t :: ts, a :: as, m => do
    let u ← a.getType
    let m1 ← matchInst C fuel t u m
    matchArgs C fuel ts as m1
  | [], _ :: _, _ => none

/-- The type of each parameter (type_unifier.rs:601-625). -/
def inferredParams (m : TyMap) (params : List String) : List Ty :=
  params.map fun n => (m.lookup n).getD (.tvar n)

/-- Whether a parameter is left over (type_unifier.rs:604-624). -/
def notInferred (m : TyMap) (n : String) : Bool :=
  match m.lookup n with
  | some t => t.hasGeneric
  | none => true

/-- `UnresolvedConstant::resolve` (unresolved_constant.rs:70-113), for a constant without stored
arguments. -/
def Unresolved.resolve (u : Unresolved) (ps : List Ty) : Value :=
  .const u.name ps (u.generic.instantiate (u.params.zip ps))

/-- The type that is left after the arguments, and the mapping they give (type_unifier.rs:543-590). -/
def matchCall (C : Classes) (fuel : Nat) (g : Ty) (args : List Value) (m : TyMap) : Option (Ty × TyMap) :=
  if args.isEmpty then some (g, m)
  else
    match g with
    | .fn ts r => do
      let m1 ← matchArgs C fuel ts args m
      some (if args.length < ts.length then .fn (ts.drop args.length) r else r, m1)
    | _ => none

/-- The expected type, if there is one (type_unifier.rs:592-595). -/
def matchExpected (C : Classes) (fuel : Nat) (ret : Ty) (expected : Option Ty) (m : TyMap) : Option TyMap :=
  match expected with
  | some e => matchInst C fuel ret e m
  | none => some m

/-- `AcornValue::check_type` (acorn_value.rs:3302-3317). -/
def checkType (v : Value) (expected : Option Ty) : Bool :=
  match expected with
  | some e => Value.typeIs v.getType e
  | none => true

/-- `TypeUnifier::try_resolve_with_inference` (type_unifier.rs:446-481, 530-672).  The check of the
constraints (type_unifier.rs:627) is made on the parameters that have been mapped; those that have not
stand for themselves. -/
def tryResolve (C : Classes) (fuel : Nat) (u : Unresolved) (args : List Value) (expected : Option Ty)
    (m : TyMap) : Option Potential := do
  let all := u.args ++ args
  let (ret, m1) ← matchCall C fuel u.generic all m
  let m2 ← matchExpected C fuel ret expected m1
  let ps := inferredParams m2 u.params
  if u.params.any fun n => match m2.lookup n with
      | some t => !C.ok n t
      | none => false
  then none
  else if u.params.any (notInferred m2) then
    some (.unresolved { u with args := all })
  else
    let v := (u.resolve ps).apply all
    if checkType v expected then some (.resolved v) else none

end Elab
end Acorn
