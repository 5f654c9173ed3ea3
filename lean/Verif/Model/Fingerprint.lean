/-
Fingerprint indexing.  Models /repo/src/kernel/fingerprint.rs.
-/
import Verif.Model.AMap
import Verif.Model.Path
import Verif.Model.Typing
import Verif.Model.Literal
namespace Acorn
namespace Fingerprint

open Term

/-- `TypeCategory` (/repo/src/kernel/fingerprint.rs:15-37). -/
inductive Category where
  | ground (id : Id2) | bool | type0 | arrow | applied | variable | typeclass (id : Id2)
  deriving DecidableEq, Repr

/-- `TypeCategory::from_type_ref` (fingerprint.rs:41-57). -/
def Category.ofType (t : Term) : Category :=
  if t.atomicVariable.isSome then .variable
  else match t.asTypeclass with
    | some c => .typeclass c
    | none =>
      if t.isBoolType then .bool
      else if t.isType0 then .type0
      else match t.asTypeAtom with
        | some g => .ground g
        | none => if t.splitPi.isSome then .arrow else .applied

/-- `TypeCategory::could_match` (fingerprint.rs:64-80). -/
def Category.couldMatch : Category → Category → Bool
  | .variable, _ => true
  | _, .variable => true
  | .typeclass _, .ground _ => true
  | .ground _, .typeclass _ => true
  | .typeclass _, .bool => true
  | .bool, .typeclass _ => true
  | .typeclass _, .type0 => true
  | .type0, .typeclass _ => true
  | .typeclass _, .typeclass _ => true
  | a, b => a == b

/-- `get_head_and_arg_count` (fingerprint.rs:149-167).  A head that is no atom is reported as free
variable 0. -/
def headAndCount : Term → Atom × Nat
  | .atom a => (a, 0)
  | .app f _ => ((headAndCount f).1, (headAndCount f).2 + 1)
  | .bind _ _ _ => (.fvar 0, 0)

/-- The loop that peels argument types off a function type (fingerprint.rs:117-139); `none` means that
the loop falls back to computing the full type. -/
def peel : Nat → Term → Option Term
  | 0, t => some t
  | n + 1, t =>
    match t.splitPi with
    | some (_, .bvar _) => none
    | some (_, out) => peel n out
    | none => none

/-- `get_type_category` (fingerprint.rs:86-146).  `none` is a panic: of the full type computation, or on
an unknown symbol. -/
def category (K : KCtx) (Γ : LCtx) (t : Term) : Option Category :=
  match t with
  | .fvar i => some (((Γ.get i).map Category.ofType).getD .variable)
  | .bvar _ => some .variable
  | .sym s => (K.symbolType s).map Category.ofType
  | .app f a =>
    let full := (getType K Γ (.app f a)).map Category.ofType
    let go (n : Nat) (H : Term) : Option Category :=
      match peel n H with
      | some T => some (.ofType T)
      | none => full
    match headAndCount (.app f a) with
    | (.fvar i, n) =>
      match Γ.get i with
      | some H => go n H
      | none => some .variable
    | (.sym s, n) => (K.symbolType s).bind (go n)
    | (.bvar _, _) => some .variable
  | .bind .pi _ _ => some .type0
  | .bind .lam _ _ => some .variable
  | .bind .all _ _ => some .bool
  | .bind .ex _ _ => some .bool

/-- `FingerprintComponent` (fingerprint.rs:170-181). -/
inductive Component where
  | below | nothing | something (c : Category) (a : Atom)
  deriving DecidableEq, Repr

/-- The walk of `FingerprintComponent::new` along a path that does not exist (fingerprint.rs:203-220). -/
def walk : Term → List PathStep → Component
  | _, [] => .nothing
  | t, s :: p =>
    if t.atomicVariable.isSome then .below
    else match t with
      | .app f a => walk (match s with | .function => f | .argument => a) p
      | _ => .nothing

/-- Variable ids are replaced with 0 (fingerprint.rs:194-199). -/
def plainAtom : Atom → Atom
  | .fvar _ => .fvar 0
  | a => a

/-- `FingerprintComponent::new` (fingerprint.rs:184-223). -/
def component (K : KCtx) (Γ : LCtx) (t : Term) (p : List PathStep) : Option Component :=
  match t.getAt p with
  | some s => (category K Γ s).map fun c => .something c (plainAtom s.headAtom)
  | none => some (walk t p)

/-- `Atom::is_variable` (/repo/src/kernel/atom.rs:92-94). -/
def isVar : Atom → Bool
  | .fvar _ => true
  | .bvar _ => true
  | .sym _ => false

/-- `FingerprintComponent::could_unify` (fingerprint.rs:226-242). -/
def Component.couldUnify : Component → Component → Bool
  | .below, _ => true
  | _, .below => true
  | .nothing, .nothing => true
  | .something c1 a1, .something c2 a2 =>
    if !c1.couldMatch c2 then false else if isVar a1 || isVar a2 then true else a1 == a2
  | _, _ => false

/-- `FingerprintComponent::could_specialize` (fingerprint.rs:249-266). -/
def Component.couldSpecialize : Component → Component → Bool
  | .below, _ => true
  | _, .below => false
  | .nothing, .nothing => true
  | .something c1 a1, .something c2 a2 =>
    if !c1.couldMatch c2 then false else if isVar a1 then true else a1 == a2
  | _, _ => false

/-- `PATHS` (fingerprint.rs:270-278). -/
def paths : List (List PathStep) :=
  [[], [.function], [.argument], [.function, .function], [.function, .argument],
    [.argument, .function], [.argument, .argument]]

/-- `TermFingerprint::new` (fingerprint.rs:287-298): one component per path. -/
def ofTerm (K : KCtx) (Γ : LCtx) (t : Term) : Option (List Component) :=
  paths.mapM (component K Γ t)

/-- `TermFingerprint::could_unify` (fingerprint.rs:300-307). -/
def couldUnify (f g : List Component) : Bool := (f.zip g).all fun p => p.1.couldUnify p.2

/-- `TermFingerprint::could_specialize` (fingerprint.rs:309-316). -/
def couldSpecialize (f g : List Component) : Bool := (f.zip g).all fun p => p.1.couldSpecialize p.2

/-- `matches!(k, TypeCategory::Typeclass(_))` (fingerprint.rs:372, 472). -/
def Category.isTypeclass : Category → Bool
  | .typeclass _ => true
  | _ => false

/-- The field `trees` of `FingerprintUnifier` and `FingerprintSpecializer` (fingerprint.rs:321-323,
421-423): values by type category and fingerprint. -/
abbrev Trees (φ V : Type) := AMap Category (AMap φ (List V))

section
variable {φ V : Type} [DecidableEq φ]

/-- Push a value at `trees[category][fingerprint]` (fingerprint.rs:341-342, 441-442). -/
def Trees.push (ts : Trees φ V) (c : Category) (f : φ) (v : V) : Trees φ V :=
  let tree := (ts.get? c).getD .empty
  ts.insert c (tree.insert f ((tree.get? f).getD [] ++ [v]))

/-- The choice of trees to search, the same in both structures (fingerprint.rs:360-383, 460-483).  The
iteration order of the hash map does not matter for what is found. -/
def Trees.search (ts : Trees φ V) (c : Category) : List (AMap φ (List V)) :=
  match c with
  | .variable | .typeclass _ => ts.entries.map Prod.snd
  | .ground g =>
    (ts.entries.filter fun e => e.1 == .ground g || e.1 == .variable ||
      e.1.isTypeclass).map Prod.snd
  | c => (ts.get? c).toList ++ (ts.get? .variable).toList

/-- Collect the values whose fingerprint passes the test (fingerprint.rs:387-395, 487-495). -/
def Trees.collect (trees : List (AMap φ (List V))) (ok : φ → Bool) : List V :=
  trees.flatMap fun tree => tree.entries.flatMap fun e => if ok e.1 then e.2 else []

end

/-- `FingerprintUnifier::insert` (fingerprint.rs:332-343). -/
def insertTerm {V : Type} (K : KCtx) (ts : Trees (List Component) V) (Γ : LCtx) (t : Term) (v : V) :
    Option (Trees (List Component) V) := do
  let f ← ofTerm K Γ t
  let c ← category K Γ t
  return ts.push c f v

/-- `FingerprintUnifier::find_unifying` (fingerprint.rs:346-398). -/
def findUnifying {V : Type} (K : KCtx) (ts : Trees (List Component) V) (Γ : LCtx) (t : Term) :
    Option (List V) := do
  let f ← ofTerm K Γ t
  let c ← category K Γ t
  return Trees.collect (ts.search c) (couldUnify f)

/-- `LiteralFingerprint::new` (fingerprint.rs:409-419). -/
def ofSides (K : KCtx) (Γ : LCtx) (l r : Term) : Option (List Component × List Component) := do
  let f ← ofTerm K Γ l
  let g ← ofTerm K Γ r
  return (f, g)

/-- `LiteralFingerprint::could_specialize` (fingerprint.rs:421-423). -/
def litCouldSpecialize (f g : List Component × List Component) : Bool :=
  couldSpecialize f.1 g.1 && couldSpecialize f.2 g.2

/-- `FingerprintSpecializer::insert` (fingerprint.rs:439-451). -/
def insertLiteral {V : Type} (K : KCtx) (ts : Trees (List Component × List Component) V) (Γ : LCtx)
    (l : Literal) (v : V) : Option (Trees (List Component × List Component) V) := do
  let f ← ofSides K Γ l.left l.right
  let c ← category K Γ l.left
  return ts.push c f v

/-- `FingerprintSpecializer::find_specializing` (fingerprint.rs:455-508). -/
def findSpecializing {V : Type} (K : KCtx) (ts : Trees (List Component × List Component) V) (Γ : LCtx)
    (l r : Term) : Option (List V) := do
  let f ← ofSides K Γ l r
  let c ← category K Γ l
  return Trees.collect (ts.search c) (litCouldSpecialize f)

end Fingerprint
end Acorn
