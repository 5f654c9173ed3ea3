/-
The perfect discrimination tree.  Models /repo/src/kernel/pdt.rs.
-/
import Verif.Model.AMap
import Verif.Model.Unifier
namespace Acorn
namespace Pdt

/-- Byte keys (`Vec<u8>`); a byte is a natural number below 256. -/
abbrev Key := List Nat

/-- `u16::to_ne_bytes`: the two bytes of a 16-bit number, the low one first.  (The byte order is that of the
machine; the theorems hold for either.)  Only the low 16 bits of a number enter the key. -/
def bytes16 (n : Nat) : Key := [n % 256, n / 256 % 256]

/-- `Edge` and its `Atom` (/repo/src/kernel/pdt.rs:44-115). -/
inductive Edge where
  | application | arrow | lambda | forAll | exists_
  | var (i : Nat) | bound (i : Nat) | true_ | false_
  | symbol (s : Symbol)
  | literal (positive : Bool)
  deriving DecidableEq, Repr

/-- `discriminant` (pdt.rs:116-149). -/
def Edge.discriminant : Edge → Nat
  | .application => 0
  | .arrow => 14
  | .lambda => 21
  | .forAll => 22
  | .exists_ => 23
  | .literal true => 1
  | .literal false => 2
  | .var _ => 3
  | .true_ => 4
  | .false_ => 5
  | .bound _ => 20
  | .symbol .true_ => 4
  | .symbol .false_ => 5
  | .symbol .bool => 10
  | .symbol .type0 => 11
  | .symbol (.type _ _) => 12
  | .symbol (.typeclass _ _) => 13
  | .symbol .not_ => 15
  | .symbol .and_ => 16
  | .symbol .or_ => 17
  | .symbol .eq_ => 18
  | .symbol .ite_ => 19
  | .symbol (.global _ _) => 6
  | .symbol (.scoped _) => 7

/-- The bytes after the discriminant (pdt.rs:155-194). -/
def Edge.payload : Edge → Key
  | .var i => bytes16 i
  | .bound i => bytes16 i
  | .symbol (.type m l) => bytes16 m ++ bytes16 l
  | .symbol (.typeclass m l) => bytes16 m ++ bytes16 l
  | .symbol (.global m l) => bytes16 m ++ bytes16 l
  | .symbol (.scoped l) => bytes16 l
  | _ => bytes16 0

/-- `append_to` (pdt.rs:150-195): what is appended. -/
def Edge.bytes (e : Edge) : Key := e.discriminant :: e.payload

/-- `u16::from_ne_bytes`. -/
def num16 (a b : Nat) : Nat := a + 256 * b

/-- `from_bytes` (pdt.rs:197-269): the edge and the number of bytes it takes; `none` is a panic, because of
an unknown discriminant or missing bytes. -/
def Edge.parse : Key → Option (Edge × Nat)
  | 0 :: _ => some (.application, 3)
  | 14 :: _ => some (.arrow, 3)
  | 21 :: _ => some (.lambda, 3)
  | 22 :: _ => some (.forAll, 3)
  | 23 :: _ => some (.exists_, 3)
  | 1 :: _ => some (.literal true, 3)
  | 2 :: _ => some (.literal false, 3)
  | 3 :: a :: b :: _ => some (.var (num16 a b), 3)
  | 4 :: _ => some (.true_, 3)
  | 5 :: _ => some (.false_, 3)
  | 20 :: a :: b :: _ => some (.bound (num16 a b), 3)
  | 6 :: a :: b :: c :: d :: _ => some (.symbol (.global (num16 a b) (num16 c d)), 5)
  | 7 :: a :: b :: _ => some (.symbol (.scoped (num16 a b)), 3)
  | 10 :: _ => some (.symbol .bool, 3)
  | 11 :: _ => some (.symbol .type0, 3)
  | 15 :: _ => some (.symbol .not_, 3)
  | 16 :: _ => some (.symbol .and_, 3)
  | 17 :: _ => some (.symbol .or_, 3)
  | 18 :: _ => some (.symbol .eq_, 3)
  | 19 :: _ => some (.symbol .ite_, 3)
  | 12 :: a :: b :: c :: d :: _ => some (.symbol (.type (num16 a b) (num16 c d)), 5)
  | 13 :: a :: b :: c :: d :: _ => some (.symbol (.typeclass (num16 a b) (num16 c d)), 5)
  | _ => none

/-- The edge for an atom in `key_from_term_structure` (pdt.rs:292-306); `none` is the panic on a
typeclass. -/
def atomEdge : Atom → Option Edge
  | .fvar i => some (.var i)
  | .bvar i => some (.bound i)
  | .sym .true_ => some .true_
  | .sym .false_ => some .false_
  | .sym (.typeclass _ _) => none
  | .sym s => some (.symbol s)

/-- The edges for the binders (pdt.rs:313-334). -/
def binderEdge : Binder → Edge
  | .pi => .arrow
  | .lam => .lambda
  | .all => .forAll
  | .ex => .exists_

/-- `key_from_term_structure` and `key_from_term` (pdt.rs:288-342). -/
def keyTerm : Term → Option Key
  | .atom a => (atomEdge a).map Edge.bytes
  | .app f a => do
    let k ← keyTerm f
    let k' ← keyTerm a
    return Edge.application.bytes ++ (k ++ k')
  | .bind b A B => do
    let k ← keyTerm A
    let k' ← keyTerm B
    return (binderEdge b).bytes ++ (k ++ k')

/-- The keys of several terms, one after the other. -/
def keyTerms : List Term → Option Key
  | [] => some []
  | t :: ts => do
    let k ← keyTerm t
    let k' ← keyTerms ts
    return k ++ k'

/-- `key_from_pair` (pdt.rs:344-350). -/
def keyPair (s t : Term) : Option Key := keyTerms [s, t]

/-- The signs at the beginning of a clause key (pdt.rs:354-356, 518-521). -/
def signsKey (ls : List Literal) : Key := ls.flatMap fun l => (Edge.literal l.positive).bytes

/-- Left and right sides of the literals (pdt.rs:357-360, 511-515). -/
def sides (ls : List Literal) : List Term := ls.flatMap fun l => [l.left, l.right]

/-- `key_from_clause` (pdt.rs:352-364). -/
def keyClause (ls : List Literal) : Option Key := do
  let k ← keyTerms (sides ls)
  return signsKey ls ++ k

/-- `Pdt` (pdt.rs:391-402).  The trie is a map from keys to value ids. -/
structure Tree (α : Type) where
  trie : AMap Key Nat
  values : List α
  metadata : List LCtx

variable {α σ : Type}

/-- `Pdt::new` (pdt.rs:404-411). -/
def Tree.empty : Tree α := ⟨.empty, [], []⟩

/-- The common part of `insert_pair` and `insert_clause` (pdt.rs:413-433): an earlier entry with the same key
is replaced in the trie. -/
def Tree.put (p : Tree α) (k : Key) (v : α) (Γ : LCtx) : Tree α :=
  ⟨p.trie.insert k p.values.length, p.values ++ [v], p.metadata ++ [Γ]⟩

/-- `insert_pair` (pdt.rs:413-422). -/
def Tree.insertPair (p : Tree α) (s t : Term) (v : α) (Γ : LCtx) : Option (Tree α) :=
  (keyPair s t).map fun k => p.put k v Γ

/-- `insert_clause` (pdt.rs:423-433). -/
def Tree.insertClause (p : Tree α) (c : Clause) (v : α) : Option (Tree α) :=
  (keyClause c.lits).map fun k => p.put k v c.ctx

/-- `insert_or_append` (pdt.rs:547-573): an existing entry keeps its metadata. -/
def Tree.insertOrAppend (p : Tree (List α)) (t : Term) (v : α) (Γ : LCtx) : Option (Tree (List α)) :=
  (keyTerm t).map fun k =>
    match p.trie.get? k with
    | some id => { p with values := p.values.modify id (· ++ [v]) }
    | none => p.put k [v] Γ

/-- The test for a typeclass constraint in `types_compatible` (pdt.rs:692-714, 777-794, 808-828): the type is an
instance, or a variable whose constraint extends the class. -/
def classFits (K : KCtx) (Γ : LCtx) (c : Id2) (t : Term) : Bool :=
  K.isInst Γ t c ||
    match t.atomicVariable with
    | none => false
    | some i =>
      match Γ.get i with
      | none => false
      | some T =>
        match Term.resolveConstraint Γ (Γ.length + 1) T with
        | none => false
        | some a => decide (a = c) || K.tcExtends a c

/-- May a term be the value of a pattern variable of sort `Type0` (pdt.rs:742-763)? -/
def typeHead (t : Term) : Bool :=
  match t.headAtom with
  | .sym (.type _ _) | .sym .bool | .fvar _ => true
  | _ => false

/-- The type of a matched term (pdt.rs:715-731); `none` is a panic, `some none` the answer "not
compatible". -/
def boundType (K : KCtx) (Γ : LCtx) (t : Term) : Option (Option Term) :=
  match t with
  | .atom (.bvar i) => some (if i + 1 ≤ Γ.length then Γ.get (Γ.length - (i + 1)) else none)
  | _ => (t.getType K Γ).map some

/-- The last step of `types_compatible` (pdt.rs:854-860): directional matching of the types. -/
def typeMatches (K : KCtx) (fuel : Nat) (P Γ : LCtx) (T S : Term) : Option Bool :=
  (Unifier.matchInst K fuel
    (Unifier.init fun s => if s = 1 then some P else if s = 2 then some Γ else none) 1 T 2 S).map Prod.fst

/-- What `types_compatible` does with the type `S` of the matched term when the pattern variable has another
type `T` (pdt.rs:770-860). -/
def otherType (K : KCtx) (fuel : Nat) (P Γ : LCtx) (t T S : Term) : Option Bool :=
  match T.asTypeclass with
  | some c => some (classFits K Γ c t)
  | none =>
    match T.atomicVariable with
    | none => typeMatches K fuel P Γ T S
    | some i =>
      match P.get i with
      | none => typeMatches K fuel P Γ T S
      | some U =>
        match U.asTypeclass with
        | some c => some (classFits K Γ c S)
        | none => if U.isType0 then some (!S.isType0) else typeMatches K fuel P Γ T S

/-- `types_compatible` (pdt.rs:685-861); `none` is a panic or missing fuel for the unifier. -/
def typesCompatible (K : KCtx) (fuel : Nat) (t T : Term) (P Γ : LCtx) : Option Bool :=
  match boundType K Γ t with
  | none => none
  | some none => some false
  | some (some S) =>
    if T.isType0 && !typeHead t then some false
    else if S = T then some true
    else otherType K fuel P Γ t T S

/-- `verify_type_compatibility` (pdt.rs:1153-1186), from pattern variable `i` on. -/
def verifyFrom (K : KCtx) (fuel : Nat) (P Γ : LCtx) : Nat → List Term → Option Bool
  | _, [] => some true
  | i, t :: ts =>
    if t.escapes then some false
    else
      match P.get i with
      | none => verifyFrom K fuel P Γ (i + 1) ts
      | some T =>
        match typesCompatible K fuel t T P Γ with
        | none => none
        | some false => some false
        | some true => verifyFrom K fuel P Γ (i + 1) ts

/-- `verify_type_compatibility`. -/
def verify (K : KCtx) (fuel : Nat) (P Γ : LCtx) (rs : List Term) : Option Bool := verifyFrom K fuel P Γ 0 rs

/-- `SubTrie::subtrie`: the entries whose key begins with the prefix. -/
def subtrie (es : List (Key × Nat)) (k : Key) : List (Key × Nat) := es.filter fun e => k.isPrefixOf e.1

/-- `SubTrie::get`. -/
def getKey (es : List (Key × Nat)) (k : Key) : Option Nat := (es.find? fun e => e.1 == k).map Prod.snd

/-- One way to continue the search: the edge to follow, the query terms left, their context and the
replacements. -/
structure Alt where
  edge : Edge
  terms : List Term
  ctx : LCtx
  repl : List Term

/-- Case 3 of `find_matches_while` (pdt.rs:973-1149): follow the structure of the query.  A variable or a
typeclass in the query has no structural edge.  Below a binder the query context is extended with the binder
type, and it stays so for the remaining terms. -/
def structural (t : Term) (rest : List Term) (Γ : LCtx) (rs : List Term) : List Alt :=
  match t with
  | .atom (.fvar _) => []
  | .atom a => ((atomEdge a).map fun e => (⟨e, rest, Γ, rs⟩ : Alt)).toList
  | .app f a => [⟨.application, f :: a :: rest, Γ, rs⟩]
  | .bind b A B => [⟨binderEdge b, A :: B :: rest, Γ.pushTy A, rs⟩]

/-- The three cases of `find_matches_while` (pdt.rs:919-1149) in order: back references, a new pattern
variable, structure. -/
def alternatives (t : Term) (rest : List Term) (Γ : LCtx) (rs : List Term) : List Alt :=
  (((List.range rs.length).filter fun i => rs[i]? == some t).map fun i => ⟨.var i, rest, Γ, rs⟩) ++
    ⟨.var rs.length, rest, Γ, rs ++ [t]⟩ :: structural t rest Γ rs

/-- Try the alternatives one after the other, until one answers `false`. -/
def tryAll (go : Alt → σ → Option (σ × Bool)) : List Alt → σ → Option (σ × Bool)
  | [], s => some (s, true)
  | a :: as, s =>
    match go a s with
    | none => none
    | some (s', false) => some (s', false)
    | some (s', true) => tryAll go as s'

/-- `find_matches_while` (pdt.rs:871-1151).  The callback is a function on a state `σ`.  `none` is a panic
(or missing fuel for the unifier).  The first argument is `stack_limit`.  The code also leaves the key and the
replacements it was given changed when it answers `false`; no caller looks at them then. -/
def find (K : KCtx) (fuel : Nat) (md : List LCtx) (cb : σ → Nat → List Term → σ × Bool) :
    Nat → List (Key × Nat) → Key → List Term → LCtx → List Term → σ → Option (σ × Bool)
  | 0, es, _, _, _, _, s => some (s, es.isEmpty)
  | _ + 1, es, key, [], Γ, rs, s =>
    if es.isEmpty then some (s, true)
    else
      match getKey es key with
      | none => none
      | some id =>
        match md[id]? with
        | none => none
        | some P =>
          match verify K fuel P Γ rs with
          | none => none
          | some true => some (cb s id rs)
          | some false => some (s, true)
  | n + 1, es, key, t :: rest, Γ, rs, s =>
    if es.isEmpty then some (s, true)
    else
      tryAll (fun a s => find K fuel md cb n (subtrie es (key ++ a.edge.bytes)) (key ++ a.edge.bytes)
        a.terms a.ctx a.repl s) (alternatives t rest Γ rs) s

/-- The stack limit (pdt.rs:458, 539). -/
def stackLimit : Nat := 500

/-- The callback that remembers the first match and stops (pdt.rs:490-503, 541-544). -/
def firstMatch : Option (Nat × List Term) → Nat → List Term → Option (Nat × List Term) × Bool :=
  fun _ id rs => (some (id, rs), false)

/-- Search from a key prefix for the first match: the value and the replacements. -/
def Tree.first (K : KCtx) (fuel : Nat) (p : Tree α) (key : Key) (ts : List Term) (Γ : LCtx) :
    Option (Option (α × List Term)) :=
  match find K fuel p.metadata firstMatch stackLimit (subtrie p.trie.entries key) key ts Γ [] none with
  | none => none
  | some (none, _) => some none
  | some (some (id, rs), _) =>
    match p.values[id]? with
    | none => none
    | some v => some (some (v, rs))

/-- `find_pair_with_replacements` (pdt.rs:476-505), and with it `find_pair` (pdt.rs:465-474). -/
def Tree.findPair (K : KCtx) (fuel : Nat) (p : Tree α) (s t : Term) (Γ : LCtx) :
    Option (Option (α × List Term)) :=
  p.first K fuel [] [s, t] Γ

/-- `find_clause` (pdt.rs:507-545). -/
def Tree.findClause (K : KCtx) (fuel : Nat) (p : Tree α) (c : Clause) : Option (Option α) :=
  (p.first K fuel (signsKey c.lits) (sides c.lits) c.ctx).map (Option.map Prod.fst)

/-- `find_term_matches_while` (pdt.rs:435-463) for one term and the empty prefix, as the rewriter calls it
(/repo/src/prover/rewrite_tree.rs:540-546). -/
def Tree.findTerm (K : KCtx) (fuel : Nat) (p : Tree α) (cb : σ → Nat → List Term → σ × Bool) (t : Term)
    (Γ : LCtx) (s : σ) : Option (σ × Bool) :=
  find K fuel p.metadata cb stackLimit (subtrie p.trie.entries []) [] [t] Γ [] s

/-- `LiteralEntry` (pdt.rs:582-591). -/
structure Entry where
  sign : Bool
  id : Nat
  flipped : Bool
  reversedIds : List Nat
  deriving DecidableEq, Repr

/-- `Literal::strict_kbo` (/repo/src/kernel/literal.rs:209-215); `none` is the panic. -/
def strictKbo (l : Literal) : Option Bool :=
  match l.left.kboCmp l.right with
  | .lt => none
  | .eq => some false
  | .gt => some true

/-- `normalized_reversed_with_var_ids` (literal.rs:246-258). -/
def normalizedReversed (l : Literal) (Γ : LCtx) : Option (Term × Term × LCtx × List Nat) := do
  let (r, ids1) ← l.right.normVars Γ []
  let (a, ids2) ← l.left.normVars Γ ids1
  let Γ' ← Γ.remap ids2
  return (r, a, Γ', ids2)

/-- `LiteralSet::insert` (pdt.rs:599-627). -/
def insertLiteral (p : Tree Entry) (l : Literal) (id : Nat) (Γ : LCtx) : Option (Tree Entry) := do
  let p1 ← p.insertPair l.left l.right ⟨l.positive, id, false, []⟩ Γ
  let strict ← strictKbo l
  if strict then return p1
  let (r, a, Γ', ids) ← normalizedReversed l Γ
  p1.insertPair r a ⟨l.positive, id, true, ids⟩ Γ'

/-- `find_generalization` (pdt.rs:629-642). -/
def findGeneralization (K : KCtx) (fuel : Nat) (p : Tree Entry) (l : Literal) (Γ : LCtx) :
    Option (Option (Bool × Nat × Bool)) :=
  (p.findPair K fuel l.left l.right Γ).map
    (Option.map fun r => (decide (r.1.sign = l.positive), r.1.id, r.1.flipped))

/-- The loops of `find_generalization_with_map` (pdt.rs:660-671): put the replacement of the `i`-th variable
of the stored pair at the original variable.  `none` is the early return for a missing id. -/
def setAll : List Nat → List Term → VMap → Option VMap
  | _, [], m => some m
  | [], _ :: _, _ => none
  | i :: is, t :: ts, m => setAll is ts (setSlot m i t)

/-- `find_generalization_with_map` (pdt.rs:645-679). -/
def findWithMap (K : KCtx) (fuel : Nat) (p : Tree Entry) (l : Literal) (Γ : LCtx) :
    Option (Option (Bool × Nat × Bool × VMap)) :=
  match p.findPair K fuel l.left l.right Γ with
  | none => none
  | some none => some none
  | some (some (e, rs)) =>
    some <|
      (setAll (if e.flipped then e.reversedIds else List.range rs.length) rs []).map fun m =>
        (decide (e.sign = l.positive), e.id, e.flipped, m)

end Pdt
end Acorn
