/-
Recursive definitions in a module.
-/
import Verif.Spec.Environment
import Verif.Spec.Recursion
namespace Acorn
namespace Spec
namespace Modules

open Elab

/-- The theory says of the constants, apart from `f`, what the environment knows. -/
structure Describes (S : Theory) (env : Env) (f : String) : Prop where
  /-- The constants are known, with these parameters and this type. -/
  const : ∀ n params g, n ≠ f → S.const n = some (params, g) →
    ∃ c ∈ env.consts, c.name = n ∧ c.params = params.map (·.1) ∧ c.ty = g
  /-- A datatype has constructors; they are all known, in order, and have fields of these types. -/
  constructors : ∀ d as ks, S.constructors d as ks → 0 < ks.length ∧ ∀ i k, ks[i]? = some k →
    ∃ c ∈ env.consts, ∃ us, c.con = some (d, i, ks.length) ∧ c.ty = Ty.functional us (.data d (c.params.map .tvar)) ∧
      c.params.Nodup ∧ c.params.length = as.length ∧ k = (c.name, as, Ty.instantiateAll (c.params.zip as) us) ∧
      -- the fields of the type itself are those that are declared so
      ∀ u ∈ us, u.instantiate (c.params.zip as) = .data d as → u = .data d (c.params.map .tvar)
  /-- There is one list of constructors. -/
  one : ∀ d as ks ks', S.constructors d as ks → S.constructors d as ks' → ks = ks'

/-- What evaluating the body of a definition provides: the function calls itself with its own type
parameters and its own type, and the other constants have type arguments that determine their types. -/
def OwnCalls (f : String) (params : List String) (t : Ty) (body : Value) : Prop :=
  EachConst (fun n ps t' => if n = f then ps = params.map .arb ∧ t' = t else FullyApplied params ps t') body

end Modules
end Spec
end Acorn
