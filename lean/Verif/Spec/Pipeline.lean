import Mathlib.Logic.Relation
import Verif.Model.Pipeline
import Verif.Spec.BuildCache
/-
What the outcome of a parallel build should be: that of verifying the modules one after another.
-/
namespace Acorn.Spec
open Acorn.Build Paths

/-- A place of a package manifest where a hash is recorded. -/
inductive Place where
  | interface (root : Path)
  | implementation (root key : Path)
  | dependency (root : Path) (key : List Char)

/-- The hash recorded at a place. -/
def hashAt (c : Cache) : Place → Option Hash
  | .interface r => interfaceOf c r
  | .implementation r k => implementationOf c r k
  | .dependency r k => dependencyOf c r k

/-- An event without the total in its progress, which counts the goals of the modules loaded so
far. -/
def withoutTotal (e : Event) : Nat × Option Int × Desc × List Char :=
  (e.buildId, e.progress.map Prod.fst, e.module, e.text)

/-- Two builders agree on the status, the metrics, the certificates and how often they were used, and
have reported the same events in the same order. -/
structure SameReport (b b' : Builder) : Prop where
  id : b.id = b'.id
  status : b.status = b'.status
  metrics : b.metrics = b'.metrics
  used : b.used = b'.used
  certs : b.cache.certs = b'.cache.certs
  log : b.log.map withoutTotal = b'.log.map withoutTotal

/-- The modules that are verified, in the order of loading. -/
def allResults (batches : List (List Item)) : List Result := itemResults batches.flatten

/-- The reference: everything is loaded, then each module is verified and its result merged, one after
another in the order of loading. -/
def sequential (src : Path) (p : Project) (id : Nat) (batches : List (List Item)) : Builder :=
  (allResults batches).foldl Builder.merge (batches.foldl (Builder.prepare src p) { id })

/-- What one loaded item records: an interface its hash, a module the manifest entries of its
result. -/
def Item.writes (src : Path) (p : Project) : Item → Option Cache
  | .interface d => some (recordUnchanged src p .empty d)
  | .module _ _ r => r.cache

/-- Hashes recorded for one place by different modules of the build are the same, as when they are
hashes of the same content. -/
def ConsistentHashes (src : Path) (p : Project) (batches : List (List Item)) : Prop :=
  ∀ i ∈ batches.flatten, ∀ j ∈ batches.flatten, ∀ c d, Item.writes src p i = some c →
    Item.writes src p j = some d →
    ∀ k g h, hashAt c k = some g → hashAt d k = some h → g = h

/-- `s` can be reached in a build of the batches. -/
def Reachable (src : Path) (p : Project) (exitOnWarning : Bool) (id : Nat)
    (batches : List (List Item)) (s : Pipe) : Prop :=
  Relation.ReflTransGen (Pipe.Step src p exitOnWarning) (.start id batches) s

end Acorn.Spec
