/-
The termination check of a definition (/repo/src/elaborator/binding_map.rs:2430-2437), which is applied to
the value of the definition.
-/
import Verif.Model.AcornValue
import Verif.Model.Termination
import Verif.Model.Datatypes
import Verif.Model.Environment
namespace Acorn
namespace Elab

namespace Value

mutual

/-- A value as the termination checker sees it (termination_checker.rs:33-137): types do not matter, and of
constants only whether they are the one that is being defined, which is number 0. -/
def shape (f : String) : Value → Termination.Val
  | .var i _ => .var i
  | .const n _ _ => .const (if n = f then 0 else 1)
  | .app g as => .app (shape f g) (shapes f as)
  | .tapp g _ _ => .tyApp (shape f g)
  | .lam ts b => .binder ts.length (shape f b)
  | .bin _ a b => .binary (shape f a) (shape f b)
  | .not a => .not (shape f a)
  | .try_ a _ => .try_ (shape f a)
  | .all ts b => .binder ts.length (shape f b)
  | .ex ts b => .binder ts.length (shape f b)
  | .group a => .group (shape f a)
  | .bool b => .bool b
  | .ite c a b => .ite (shape f c) (shape f a) (shape f b)
  | .match_ s cs => .match_ (shape f s) (shapeCases f cs)

/-- Of several values. -/
def shapes (f : String) : List Value → List Termination.Val
  | [] => []
  | v :: vs => shape f v :: shapes f vs

/-- Of the cases of a match. -/
def shapeCases (f : String) : List Case → List (Nat × Termination.Val × Termination.Val)
  | [] => []
  | .mk ts p r _ _ :: cs => (ts.length, shape f p, shape f r) :: shapeCases f cs

end

/-- The check of a definition of `f` with `n` arguments (binding_map.rs:2430-2437).  `false` is the error
"the elaborator thinks this looks like an infinite loop", `none` a panic. -/
def terminates (f : String) (n : Nat) (body : Value) : Option Bool := Termination.check 0 n (body.shape f)

mutual

/-- `AcornValue::set_params` (acorn_value.rs:3131-3194): the type arguments of every occurrence of the
constant `f` are replaced, and its type is kept. -/
def setParams (f : String) (ps : List Ty) : Value → Value
  | .const n qs t => .const n (if n = f then ps else qs) t
  | .var i t => .var i t
  | .bool b => .bool b
  | .app g as => .app (g.setParams f ps) (setParamsAll f ps as)
  | .tapp g ns ts => .tapp (g.setParams f ps) ns ts
  | .lam ts b => .lam ts (b.setParams f ps)
  | .all ts b => .all ts (b.setParams f ps)
  | .ex ts b => .ex ts (b.setParams f ps)
  | .group a => .group (a.setParams f ps)
  | .bin op a b => .bin op (a.setParams f ps) (b.setParams f ps)
  | .ite c a b => .ite (c.setParams f ps) (a.setParams f ps) (b.setParams f ps)
  | .match_ s cs => .match_ (s.setParams f ps) (setParamsCases f ps cs)
  | .not a => .not (a.setParams f ps)
  | .try_ a t => .try_ (a.setParams f ps) t

/-- Of several values. -/
def setParamsAll (f : String) (ps : List Ty) : List Value → List Value
  | [] => []
  | v :: vs => v.setParams f ps :: setParamsAll f ps vs

/-- Of the cases of a match. -/
def setParamsCases (f : String) (ps : List Ty) : List Case → List Case
  | [] => []
  | .mk ts p r i n :: cs => .mk ts (p.setParams f ps) (r.setParams f ps) i n :: setParamsCases f ps cs

end

/-- The value of a definition as it is stored (binding_map.rs:2467-2531): as it was evaluated if the
function has no type parameters of its own; otherwise all calls of the function itself get its own type
parameters, and then these become variables.  Functions that are not methods of a datatype with parameters. -/
def external (f : String) (params : List String) (body : Value) : Value :=
  if params.isEmpty then body else (body.setParams f (params.map .tvar)).genericize params

end Value

/-- `resolve_instance_impl_constant` (evaluator.rs:936-979): while the member `attr` of `instance datatype: typeclass` is evaluated, what the
attribute `a` of the typeclass `c` becomes when it is applied to the type `t`.  `defined` are the constants that have a definition.
In all other cases (`none`) the attribute of the typeclass is used. -/
def resolveInstanceImpl (typeclass datatype attr : String) (defined : List String) (c a : String) (ps : List Ty) (t : Ty) :
    Option Value :=
  if c ≠ typeclass then none
  else match ps with
    | [.data d as] =>
      if d ≠ datatype || !as.isEmpty then none
      else if a ≠ attr && !defined.contains (DefinedName.inst typeclass a datatype).constName then none
      else some (.const (DefinedName.inst typeclass a datatype).constName [] t)
    | _ => none

end Elab
end Acorn
