/-
The type with which the match eliminator of a datatype is registered the first time a match on the
datatype is met (/repo/src/elaborator/to_term.rs:216-333, and the same code at
/repo/src/kernel/symbol_table.rs:716-849).

Simplification: types are those of `AcornValue.lean`, without families.  The generic type is modelled, not
its kernel term; all parameters are of kind `Type`.
-/
import Verif.Model.Lowering
namespace Acorn
namespace Elab

/-- The names of the type parameters, `T0`, `T1`, … (to_term.rs:259-266). -/
def eliminatorParams (k : Nat) : List String := (List.range k).map fun i => "T" ++ toString i

/-- The parameter for the first type argument that is equal to the type (to_term.rs:221-225). -/
def findTypeArg : List Ty → List String → Ty → Option String
  | a :: as, n :: ns, t => if t.same a then some n else findTypeArg as ns t
  | _, _, _ => none

mutual

/-- `replace_type_args_with_params` (to_term.rs:216-243). -/
def replaceTypeArgs (as : List Ty) (ns : List String) (t : Ty) : Ty :=
  match findTypeArg as ns t with
  | some n => .tvar n
  | none =>
    match t with
    | .fn bs r => Ty.functional (replaceTypeArgsAll as ns bs) (replaceTypeArgs as ns r)
    | .data d bs => .data d (replaceTypeArgsAll as ns bs)
    | .bool => .bool
    | .tvar n => .tvar n
    | .arb n => .arb n
    | .type0 => .type0
    | .constraint c => .constraint c

/-- The types of a list. -/
def replaceTypeArgsAll (as : List Ty) (ns : List String) : List Ty → List Ty
  | [] => []
  | t :: ts => replaceTypeArgs as ns t :: replaceTypeArgsAll as ns ts

end

/-- The generic type of the eliminator of `d`, registered for a match on an element of `d[as]` with these
variables in its cases, in the order of the constructors (to_term.rs:271-302).  The last type parameter,
`R`, is the type of the result. -/
def eliminatorType (d : String) (as : List Ty) (cases : List (List Ty)) : Ty :=
  Ty.functional (.data d ((eliminatorParams as.length).map .tvar) ::
    cases.map fun ts => Ty.functional (replaceTypeArgsAll as (eliminatorParams as.length) ts) (.tvar "R")) (.tvar "R")

/-- All its type parameters (to_term.rs:305-306). -/
def eliminatorNames (k : Nat) : List String := eliminatorParams k ++ ["R"]

end Elab
end Acorn
