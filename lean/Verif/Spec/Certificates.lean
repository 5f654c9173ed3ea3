import Verif.Model.Certificates
/-
Which certificates are still unused after a history of removals.
-/
namespace Acorn.Spec

/-- The worklist after a history of removals. -/
def worklistAfter (store : List Cert) (removals : List (String × Nat)) : Worklist :=
  removals.foldl (fun w r => w.remove r.1 r.2) (Worklist.new store)

/-- The certificate at index `i` is `c`, and it was never removed under its own goal. -/
def IsUnused (store : List Cert) (removals : List (String × Nat)) (i : Nat) (c : Cert) : Prop :=
  store[i]? = some c ∧ (c.goal, i) ∉ removals

/-- The unused certificates in store order, with their indices. -/
def unusedCerts (store : List Cert) (removals : List (String × Nat)) : List (Cert × Nat) :=
  store.zipIdx.filter fun e => !(removals.contains (e.1.goal, e.2))

end Acorn.Spec
