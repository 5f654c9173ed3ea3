/-
From the elaborator's values to kernel terms (/repo/src/elaborator/to_term.rs).

Simplifications, for the whole file: families indexed by values are left out, as in `AcornValue.lean`, so
types do not depend on the stack and the rewriting of lambdas for constants with value parameters
(`try_lower_partial_value_param_constant_lambda`, to_term.rs:672-724) never applies.  The code registers
types and constants in the tables of the kernel while it goes; here the tables are those after that, and
a name that is missing is an error.  The code changes one stack in place and undoes the change after each
binder; here the stack under a binder is a new list.
-/
import Verif.Model.ValueTypes
import Verif.Model.Context
namespace Acorn
namespace Elab

/-- The tables of the kernel that lowering reads: `TypeStore::datatype_to_ground_id`,
`arbitrary_to_ground_id` and `typeclass_to_id` (type_store.rs:540-656), `SymbolTable::get_symbol` and
`get_instance_alias_symbol` (symbol_table.rs:339-365).  `generic n` is the kernel type of a constant with
type parameters, `none` for the others (to_term.rs:592-604).  The eliminator of a datatype is the constant
`d.match`. -/
structure Tables where
  datatype : String → Option (Nat × Nat)
  arbitrary : String → Option (Nat × Nat)
  typeclass : String → Option (Nat × Nat)
  symbol : String → Option Symbol
  instanceAlias : String → List Ty → Option Symbol
  generic : String → Option Term

/-! ### Types -/

mutual

/-- `lower_type_to_term_with_stack_impl` (to_term.rs:91-199) with `TypeStore::to_type_term_with_vars`
(type_store.rs:554-651); `none` where the code panics.  Of the map of type variables only the variable
ids are kept. -/
def lowerType (L : Tables) (tv : List (String × Nat)) : Ty → Option Term
  | .bool => some .boolTy
  | .data d as => do
    let g ← L.datatype d
    let as ← lowerTypes L tv as
    pure (Term.apply (.sym (.type g.1 g.2)) as)
  | .fn as r => do
    let as ← lowerTypes L tv as
    let r ← lowerType L tv r
    pure (as.foldr Term.pi r)
  | .tvar n => (tv.lookup n).map .fvar
  | .arb n =>
    match tv.lookup n with
    | some i => some (.fvar i)
    | none => (L.arbitrary n).map fun g => .sym (.type g.1 g.2)
  | .type0 => some .type0
  | .constraint c => (L.typeclass c).map fun g => .sym (.typeclass g.1 g.2)

/-- The types of a list. -/
def lowerTypes (L : Tables) (tv : List (String × Nat)) : List Ty → Option (List Term)
  | [] => some []
  | t :: ts => do
    let t ← lowerType L tv t
    let ts ← lowerTypes L tv ts
    pure (t :: ts)

end

/-- `build_type_var_map` (to_term.rs:25-43): the ids of the type parameters, in order.  A later parameter
with the name of an earlier one would win in the code's map; names are not repeated. -/
def typeVarMap (names : List String) : List (String × Nat) := names.zip (List.range names.length)

/-- The binder type of a type parameter: `Type`, or its typeclass (to_term.rs:462-472). -/
def paramKind (L : Tables) : Option String → Option Term
  | none => some .type0
  | some c => (L.typeclass c).map fun g => .sym (.typeclass g.1 g.2)

/-- `pi_from_telescope_binders` (to_term.rs:51-58). -/
def piFromTelescope (binders : List Term) (body : Term) : Term :=
  (binders.zipIdx).foldr (fun b acc => Term.pi (b.1.convertFreeToBound b.2) acc)
    (body.convertFreeToBound binders.length)

/-- The kernel type with which a constant is registered (`register_value_symbols`, to_term.rs:448-497):
its parameters with their typeclasses, and its generic type. -/
def registeredType (L : Tables) (params : List (String × Option String)) (generic : Ty) : Option Term :=
  if params.isEmpty then lowerType L [] generic
  else do
    let binders ← params.mapM fun p => paramKind L p.2
    let body ← lowerType L (typeVarMap (params.map (·.1))) generic
    pure (piFromTelescope binders body)

/-! ### Values -/

namespace Value

mutual

/-- `value_references_stack_range` (to_term.rs:615-650). -/
def refsRange (start stop : Nat) : Value → Bool
  | .var i _ => decide (start ≤ i) && decide (i < stop)
  | .app f as => f.refsRange start stop || refsRangeAny start stop as
  | .tapp f _ _ => f.refsRange start stop
  | .lam _ b => b.refsRange start stop
  | .all _ b => b.refsRange start stop
  | .ex _ b => b.refsRange start stop
  | .group a => a.refsRange start stop
  | .not a => a.refsRange start stop
  | .try_ a _ => a.refsRange start stop
  | .bin _ a b => a.refsRange start stop || b.refsRange start stop
  | .ite c a b => c.refsRange start stop || a.refsRange start stop || b.refsRange start stop
  | .match_ s cs => s.refsRange start stop || refsRangeCases start stop cs
  | .const _ _ _ => false
  | .bool _ => false

/-- Any of the arguments. -/
def refsRangeAny (start stop : Nat) : List Value → Bool
  | [] => false
  | v :: vs => v.refsRange start stop || refsRangeAny start stop vs

/-- Any of the cases. -/
def refsRangeCases (start stop : Nat) : List Case → Bool
  | [] => false
  | .mk _ p r _ _ :: cs => p.refsRange start stop || r.refsRange start stop || refsRangeCases start stop cs

end

/-- `is_new_var` in `try_lower_partial_logical_lambda` (to_term.rs:737). -/
def isLevel (i : Nat) : Value → Bool
  | .var j _ => j == i
  | _ => false

/-- The form found by `try_lower_partial_logical_lambda` (to_term.rs:728-905): a lambda on a stack of `n`
variables whose body is a logical operation that ends in exactly the new variables.  The result is the
operation, the type it is at, and the arguments before the new variables. -/
def partialLogical (n : Nat) (ts : List Ty) : Value → Option (Symbol × Option Ty × List Value)
  | .group a => partialLogical n ts a
  | .not a =>
    match ts with
    | [_] => if a.isLevel n then some (.not_, none, []) else none
    | _ => none
  | .bin op a b =>
    match op, ts with
    | .and, [_, _] => if a.isLevel n && b.isLevel (n + 1) then some (.and_, none, []) else none
    | .and, [_] => if b.isLevel n && !a.refsRange n (n + 1) then some (.and_, none, [a]) else none
    | .or, [_, _] => if a.isLevel n && b.isLevel (n + 1) then some (.or_, none, []) else none
    | .or, [_] => if b.isLevel n && !a.refsRange n (n + 1) then some (.or_, none, [a]) else none
    | .equals, [t, _] => if a.isLevel n && b.isLevel (n + 1) then some (.eq_, some t, []) else none
    | .equals, [t] => if b.isLevel n && !a.refsRange n (n + 1) then some (.eq_, some t, [a]) else none
    | _, _ => none
  | .ite c a b =>
    match ts with
    | [_, t, _] =>
      if c.isLevel n && a.isLevel (n + 1) && b.isLevel (n + 2) then some (.ite_, some t, []) else none
    | [t, _] =>
      if a.isLevel n && b.isLevel (n + 1) && !c.refsRange n (n + 2) then some (.ite_, some t, [c]) else none
    | [t] =>
      if b.isLevel n && !c.refsRange n (n + 1) && !a.refsRange n (n + 1) then some (.ite_, some t, [c, a])
      else none
    | _ => none
  | _ => none

/-- `lower_value_type_to_term` (to_term.rs:584-612): a bare constant with type parameters has its kernel
type. -/
def lowerValueType (L : Tables) (tv : List (String × Nat)) (v : Value) : Option Term :=
  let usual := v.getType.bind (lowerType L tv)
  match v with
  | .const n [] t =>
    match L.generic n with
    | some T => if t.hasGeneric then some T else usual
    | none => usual
  | _ => usual

/-- The term of a constant (to_term.rs:1001-1051). -/
def lowerConst (L : Tables) (tv : List (String × Nat)) (prefer : Bool) (n : String) (ps : List Ty) : Option Term :=
  match (if prefer then L.instanceAlias n ps else none) with
  | some s => some (.sym s)
  | none => do
    let s ← L.symbol n
    let as ← lowerTypes L tv ps
    pure (Term.apply (.sym s) as)

/-- The stack under `n` new binders (to_term.rs:1264-1278): for each, the entries so far are shifted and the
new variable is put on top. -/
def pushVars : Nat → List Term → Option (List Term)
  | 0, st => some st
  | n + 1, st => do
    let st ← st.mapM (Term.shift 0 1)
    pushVars n (st ++ [.bvar 0])

/-- The constructor index of a case. -/
def caseIndex : Case → Nat
  | .mk _ _ _ i _ => i

/-- The number of constructors a case knows of. -/
def caseTotal : Case → Nat
  | .mk _ _ _ _ n => n

/-- The result of a case. -/
def caseResult : Case → Value
  | .mk _ _ r _ _ => r

/-- A case put before the first one that does not come before it. -/
def insertCase (c : Case) : List Case → List Case
  | [] => [c]
  | d :: ds => if caseIndex c ≤ caseIndex d then c :: d :: ds else d :: insertCase c ds

/-- `sort_by_key` on the constructor index, which is stable (to_term.rs:1366-1367). -/
def sortCases : List Case → List Case
  | [] => []
  | c :: cs => insertCase c (sortCases cs)

/-- The check that there is exactly one case for each constructor (to_term.rs:1368-1389). -/
def casesComplete (cs : List Case) : Bool :=
  cs.zipIdx.all fun c => caseTotal c.1 == cs.length && caseIndex c.1 == c.2

/-- The results all have the type of the first (to_term.rs:1325-1330). -/
def sameResults (cs : List Case) : Bool :=
  match getTypeCases cs with
  | some t => cs.all fun c => typeIs (caseResult c).getType t
  | none => false

mutual

/-- `lower_value_to_term_with_stack` (to_term.rs:981-1237).  `fuel` bounds the depth; `none` is an error or
a panic. -/
def lower (L : Tables) (tv : List (String × Nat)) (prefer : Bool) : Nat → List Term → Value → Option Term
  | 0, _, _ => none
  | k + 1, st, v =>
    match v with
    | .var i _ => st[i]?
    | .const n ps _ => lowerConst L tv prefer n ps
    | .app f as => do
      let f ← lower L tv prefer k st f
      let as ← lowerAll L tv prefer k st as
      pure (f.apply as)
    | .tapp f ns ts => lower L tv prefer k st (f.instantiate (ns.zip ts))
    | .lam ts b =>
      match partialLogical st.length ts b with
      | some (s, t, parts) => do
        let ty ← lowerTypes L tv t.toList
        let parts ← lowerAll L tv prefer k (st ++ List.replicate ts.length .tt) parts
        pure (Term.apply (.sym s) (ty ++ parts))
      | none => lowerBinder L tv prefer k st .lam ts b
    | .all ts b => lowerBinder L tv prefer k st .all ts b
    | .ex ts b => lowerBinder L tv prefer k st .ex ts b
    | .group a => lower L tv prefer k st a
    | .bin op a b => do
      let l ← lower L tv prefer k st a
      let r ← lower L tv prefer k st b
      match op with
      | .and => pure (Term.apply (.sym .and_) [l, r])
      | .or => pure (Term.apply (.sym .or_) [l, r])
      | .implies => pure (Term.apply (.sym .or_) [Term.apply (.sym .not_) [l], r])
      | .equals => do
        let t ← a.lowerValueType L tv
        pure (Term.apply (.sym .eq_) [t, l, r])
      | .notEquals => do
        let t ← a.lowerValueType L tv
        pure (Term.apply (.sym .not_) [Term.apply (.sym .eq_) [t, l, r]])
    | .not a => do
      let a ← lower L tv prefer k st a
      pure (Term.apply (.sym .not_) [a])
    | .try_ _ _ => none
    | .bool b => some (if b then .tt else .ff)
    | .ite c a b => do
      let c' ← lower L tv prefer k st c
      let a' ← lower L tv prefer k st a
      let b' ← lower L tv prefer k st b
      let t ← a.lowerValueType L tv
      pure (Term.apply (.sym .ite_) [t, c', a', b'])
    | .match_ s cs =>
      match s.getType with
      | some (.data d as) =>
        match cs with
        | [] => none
        | .mk _ _ r _ _ :: _ =>
          if sameResults cs && casesComplete (sortCases cs) then do
            let m ← L.symbol (d ++ ".match")
            let as ← lowerTypes L tv as
            let t ← r.lowerValueType L tv
            let s ← lower L tv prefer k st s
            let cs ← lowerCases L tv prefer k st (sortCases cs)
            pure ((Term.apply (.sym m) (as ++ [t])).apply (s :: cs))
          else none
      | _ => none

/-- The arguments of an application. -/
def lowerAll (L : Tables) (tv : List (String × Nat)) (prefer : Bool) :
    Nat → List Term → List Value → Option (List Term)
  | 0, _, _ => none
  | _ + 1, _, [] => some []
  | k + 1, st, v :: vs => do
    let v ← lower L tv prefer k st v
    let vs ← lowerAll L tv prefer k st vs
    pure (v :: vs)

/-- `elaborate_binder_to_term` (to_term.rs:1246-1302). -/
def lowerBinder (L : Tables) (tv : List (String × Nat)) (prefer : Bool) :
    Nat → List Term → Binder → List Ty → Value → Option Term
  | 0, _, _, _, _ => none
  | k + 1, st, q, ts, b => do
    let tys ← lowerTypes L tv ts
    let st ← pushVars ts.length st
    let b ← lower L tv prefer k st b
    pure (tys.foldr (Term.bind q) b)

/-- The cases of a match, each a lambda (to_term.rs:1391-1403). -/
def lowerCases (L : Tables) (tv : List (String × Nat)) (prefer : Bool) :
    Nat → List Term → List Case → Option (List Term)
  | 0, _, _ => none
  | _ + 1, _, [] => some []
  | k + 1, st, .mk ts _ r _ _ :: cs => do
    let c ← lowerBinder L tv prefer k st .lam ts r
    let cs ← lowerCases L tv prefer k st cs
    pure (c :: cs)

end

end Value
end Elab
end Acorn
