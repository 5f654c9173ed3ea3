/-
The Knuth-Bendix style term orders.
-/
import Verif.Model.Term
namespace Acorn

/-- The derived `Ord` of `Symbol` (/repo/src/kernel/symbol.rs:10-54): constructor index, then the
fields in order; `ModuleId`, `GroundTypeId` and `TypeclassId` also derive `Ord`
(/repo/src/module.rs:14-17, types.rs:19-22, 53-56).  Represented by the list that is compared
lexicographically; the same index means the same number of fields. -/
def Symbol.code : Symbol → List Nat
  | .true_ => [0]
  | .false_ => [1]
  | .not_ => [2]
  | .and_ => [3]
  | .or_ => [4]
  | .eq_ => [5]
  | .ite_ => [6]
  | .bool => [7]
  | .type0 => [8]
  | .type m l => [9, m, l]
  | .typeclass m l => [10, m, l]
  | .global m l => [11, m, l]
  | .scoped l => [12, l]

namespace Atom

/-- The derived `Ord` of `Atom` (/repo/src/kernel/atom.rs:13-26), as for symbols. -/
def code : Atom → List Nat
  | .fvar i => [0, i]
  | .bvar i => [1, i]
  | .sym s => 2 :: s.code

/-- `Atom::cmp`. -/
def cmp (a b : Atom) : Ordering := compare a.code b.code

/-- `is_bool_constant` (atom.rs:107-112). -/
def isBoolConst : Atom → Bool
  | .sym .true_ => true
  | .sym .false_ => true
  | _ => false

/-- `Atom::stable_partial_order` (atom.rs:104-126). -/
def stableCmp (a b : Atom) : Ordering :=
  match a, b with
  | .fvar _, .fvar _ => .eq
  | .bvar i, .bvar j => compare i j
  | a, b =>
    if a.isBoolConst && b.isBoolConst then cmp a b
    else if a.isBoolConst then .lt
    else if b.isBoolConst then .gt
    else cmp a b

end Atom

namespace Term

/-- `num_args` (/repo/src/kernel/term.rs:1026-1037): a binder at the head of the spine counts as one
more argument. -/
def numArgs : Term → Nat
  | atom _ => 0
  | app f _ => f.numArgs + 1
  | bind _ _ _ => 1

/-- `iter_args` (term.rs:1042-1080). -/
def args : Term → List Term
  | app f a => f.args ++ [a]
  | _ => []

/-- First weight of an atom in `multi_weight` (term.rs:1117-1192). -/
def atomWeight1 : Atom → Nat
  | .fvar _ => 0
  | .bvar _ => 1
  | .sym .true_ => 0
  | .sym .false_ => 0
  | .sym _ => 1

/-- Second weight of an atom in `multi_weight`, before reduction modulo `2^32`.  (`m * 65536 + i`
and the multiplication by 4 also wrap in Rust; all of it is reduced at the end here, which gives the
same `u32`.) -/
def atomWeight2 : Atom → Nat
  | .sym (.global m l) => 4 * (m * 65536 + l)
  | .sym (.type m l) => 4 * (m * 65536 + l)
  | .sym (.typeclass m l) => 4 * (m * 65536 + l)
  | .sym (.scoped l) => 1 + 4 * l
  | _ => 0

/-- `weight1` of `multi_weight` (term.rs:1117-1192); the `u32` cannot overflow for terms that fit in
memory, so it is a natural number here. -/
def weight1 : Term → Nat
  | atom a => atomWeight1 a
  | app f a => f.weight1 + a.weight1
  | bind _ a b => 1 + a.weight1 + b.weight1

/-- The sum that `weight2` would be without wrapping. -/
def weight2Nat : Term → Nat
  | atom a => atomWeight2 a
  | app f a => f.weight2Nat + a.weight2Nat
  | bind _ a b => a.weight2Nat + b.weight2Nat

/-- `weight2` of `multi_weight`: a wrapping `u32` sum (term.rs:1160-1188). -/
def weight2 (t : Term) : Nat := t.weight2Nat % 4294967296

/-- How often a free variable occurs. -/
def occ (i : Nat) : Term → Nat
  | fvar j => if i = j then 1 else 0
  | atom _ => 0
  | app f a => occ i f + occ i a
  | bind _ a b => occ i a + occ i b

/-- Entry of the `refcounts` vector: a `u8` counter (term.rs:1148-1153).  It wraps in builds without
overflow checks, which is what is modelled; with overflow checks the Rust code would panic instead. -/
def refcount (t : Term) (i : Nat) : Nat := occ i t % 256

/-- `dominates` (term.rs:3105-3115) on the vectors filled by `multi_weight`, whose length is one more
than the largest variable. -/
def dominates (a b : Term) : Bool :=
  decide (b.varBound ≤ a.varBound) &&
    (List.range b.varBound).all fun i => decide (b.refcount i ≤ a.refcount i)

/-- `kbo_helper` (term.rs:1195-1223). -/
def kboHelper (s t : Term) (checkDomination : Bool) : Ordering :=
  if s.weight1 > t.weight1 ∨ s.weight1 = t.weight1 ∧ s.weight2 > t.weight2 then
    if !checkDomination || dominates s t then .gt else .eq
  else if s.weight1 < t.weight1 ∨ s.weight1 = t.weight1 ∧ s.weight2 < t.weight2 then
    if !checkDomination || dominates t s then .lt else .eq
  else .eq

/-- The loop `for (arg1, arg2) in self.iter_args().zip(other.iter_args())` of both tie-breaks: the
first difference decides, the shorter list ends the comparison. -/
def lexZip {α β : Type} (c : α → β → Ordering) : List α → List β → Ordering
  | a :: as, b :: bs => (c a b).then (lexZip c as bs)
  | _, _ => .eq

theorem size_args (t : Term) : ∀ a ∈ t.args, a.size < t.size := by
  induction t with
  | atom a => simp [args]
  | app f a ihf _ =>
    intro x hx
    simp only [args, List.mem_append, List.mem_singleton] at hx
    simp only [size]
    rcases hx with h | rfl
    · have := ihf x h; omega
    · omega
  | bind b f a _ _ => simp [args]

/-- `partial_tiebreak` (term.rs:1226-1251). -/
def partialTiebreak (s t : Term) : Ordering :=
  (s.headAtom.stableCmp t.headAtom).then <|
  (compare t.numArgs s.numArgs).then <|
  lexZip (fun (a : { a // a ∈ s.args }) b => partialTiebreak a.1 b) s.args.attach t.args
termination_by s.size
decreasing_by exact size_args s _ a.2

/-- `extended_kbo_cmp` (term.rs:1284-1298) with `total_tiebreak` (term.rs:1254-1274) inlined. -/
def extCmp (s t : Term) : Ordering :=
  (kboHelper s t false).then <|
  (partialTiebreak s t).then <|
  (t.headAtom.cmp s.headAtom).then <|
  lexZip (fun (a : { a // a ∈ s.args }) b => extCmp a.1 b) s.args.attach t.args
termination_by s.size
decreasing_by exact size_args s _ a.2

/-- `kbo_cmp` (term.rs:1279-1281). -/
def kboCmp (s t : Term) : Ordering := kboHelper s t true

/-- `stable_cmp` (term.rs:1304-1313). -/
def stableCmp (s t : Term) : Ordering := (kboHelper s t false).then (partialTiebreak s t)

theorem lexZip_attach {β : Type} (c : Term → β → Ordering) (l : List Term) (m : List β)
    (p : Term → Prop) (h : ∀ a ∈ l, p a) :
    lexZip (fun (a : { a // p a }) b => c a.1 b) (l.pmap Subtype.mk h) m = lexZip c l m := by
  induction l generalizing m with
  | nil => cases m <;> rfl
  | cons a l ih =>
    cases m with
    | nil => rfl
    | cons b m => simp only [List.pmap, lexZip, ih]

theorem partialTiebreak_eq (s t : Term) : partialTiebreak s t =
    (s.headAtom.stableCmp t.headAtom).then ((compare t.numArgs s.numArgs).then
      (lexZip partialTiebreak s.args t.args)) := by
  rw [partialTiebreak, List.attach, List.attachWith, lexZip_attach]

theorem extCmp_eq (s t : Term) : extCmp s t =
    (kboHelper s t false).then ((partialTiebreak s t).then ((t.headAtom.cmp s.headAtom).then
      (lexZip extCmp s.args t.args))) := by
  rw [extCmp, List.attach, List.attachWith, lexZip_attach]

end Term
end Acorn
