/-
Semantics of kernel terms: what it means for a term to have a value, independent of any
function of the code base.  An interpretation gives a carrier and a meaning to symbols,
application and the four binders.
-/
import Verif.Model.Term
namespace Acorn

universe u

/-- An interpretation: a carrier, application, a value for each symbol, a value for each binder
applied to (the value of) its domain and the function given by its body, and a membership relation
`mem d T` ("`d` is an element of the type `T`"). -/
structure Interp where
  D : Type u
  app : D → D → D
  sym : Symbol → D
  bind : Binder → D → (D → D) → D
  mem : D → D → Prop

/-- Push a value on an environment for bound variables. -/
def push {D : Type u} (d : D) (β : Nat → D) : Nat → D
  | 0 => d
  | n + 1 => β n

/-- The value of a term: `ρ` gives the free variables, `β` the bound ones. -/
def eval (M : Interp.{u}) (ρ β : Nat → M.D) : Term → M.D
  | .atom (.fvar i) => ρ i
  | .atom (.bvar i) => β i
  | .atom (.sym s) => M.sym s
  | .app f a => M.app (eval M ρ β f) (eval M ρ β a)
  | .bind b ty body => M.bind b (eval M ρ β ty) (fun d => eval M ρ (push d β) body)

end Acorn
