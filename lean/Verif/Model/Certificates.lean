import Verif.Model.AMap
import Verif.Model.Text
import Verif.Model.Trace
/-
Model of certificate stores and worklists (certificate.rs:2245-2354).
-/
namespace Acorn

/-- `Certificate` (certificate.rs:101-110). -/
structure Cert where
  goal : String
  proof : List TraceStep
  deriving DecidableEq, Repr, Inhabited

/-- `CertificateStore::save` (certificate.rs:2270-2281): one line per certificate.  The serialization of
one certificate (serde_json) is a parameter; I/O errors are not modelled. -/
def saveStore (encode : Cert → List Char) (certs : List Cert) : List Char :=
  certs.flatMap fun c => encode c ++ ['\n']

/-- The loop of `CertificateStore::load` over the lines (certificate.rs:2258-2264). -/
def loadLines (decode : List Char → Option Cert) : List (List Char) → Option (List Cert)
  | [] => some []
  | l :: ls =>
    if (Text.trim l).isEmpty then loadLines decode ls
    else (decode l).bind fun c => (loadLines decode ls).map (c :: ·)

/-- `CertificateStore::load` (certificate.rs:2253-2267); `none` is an error. -/
def loadStore (decode : List Char → Option Cert) (file : List Char) : Option (List Cert) :=
  loadLines decode (Text.lines file)

/-- `CertificateWorklist` (certificate.rs:2292-2299). -/
structure Worklist where
  store : List Cert
  indexes : AMap String (List Nat)

namespace Worklist

/-- One round of the loop of `CertificateWorklist::new` (certificate.rs:2307-2312). -/
def addIndex (m : AMap String (List Nat)) (e : Cert × Nat) : AMap String (List Nat) :=
  m.insert e.1.goal (((m.get? e.1.goal).getD []) ++ [e.2])

/-- `CertificateWorklist::new` (certificate.rs:2303-2318). -/
def new (store : List Cert) : Worklist := ⟨store, store.zipIdx.foldl addIndex AMap.empty⟩

/-- `CertificateWorklist::get_indexes` (certificate.rs:2321-2324). -/
def getIndexes (w : Worklist) (goal : String) : List Nat := (w.indexes.get? goal).getD []

/-- `CertificateWorklist::get_cert` (certificate.rs:2327-2329). -/
def getCert (w : Worklist) (index : Nat) : Option Cert := w.store[index]?

/-- `CertificateWorklist::remove` (certificate.rs:2332-2339). -/
def remove (w : Worklist) (goal : String) (index : Nat) : Worklist :=
  match w.indexes.get? goal with
  | none => w
  | some is =>
    let is := is.filter fun i => i != index
    if is.isEmpty then { w with indexes := w.indexes.erase goal }
    else { w with indexes := w.indexes.insert goal is }

/-- `CertificateWorklist::unused` (certificate.rs:2342-2344). -/
def unused (w : Worklist) : Nat := (w.indexes.entries.map fun e => e.2.length).sum

/-- `CertificateWorklist::iter_unused` (certificate.rs:2347-2353).  A `HashMap` is iterated in an
unspecified order, here the argument `order`, a permutation of the keys. -/
def iterUnused (w : Worklist) (order : List String) : List Cert :=
  order.flatMap fun g => (w.getIndexes g).filterMap fun i => w.store[i]?

end Worklist

/-- `CertificateStore::append` (certificate.rs:2284-2288). -/
def appendUnused (certs : List Cert) (w : Worklist) (order : List String) : List Cert :=
  (w.iterUnused order).foldl (fun cs c => cs ++ [c]) certs

end Acorn
