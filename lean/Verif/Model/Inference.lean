/-
Injectivity and extensionality.
-/
import Verif.Model.Clause
import Verif.Model.Typing
namespace Acorn

/-- The loop over the arguments in `find_injectivities` (clause.rs:650-659): the one index where the
arguments differ.  Outer `none`: the index into the right arguments is out of range (a panic). -/
def differingArg : Nat → Option Nat → List Term → List Term → Option (Option Nat)
  | _, d, [], _ => some d
  | _, _, _ :: _, [] => none
  | j, d, a :: as, b :: bs =>
    if a ≠ b then
      match d with
      | some _ => some none
      | none => differingArg (j + 1) (some j) as bs
    else differingArg (j + 1) d as bs

/-- The body of the loop of `find_injectivities` for one negative literal (clause.rs:640-667). -/
def injectLiteral (l : Literal) : Option (Option Literal) :=
  if l.left.headAtom ≠ l.right.headAtom then some none
  else if l.left.numArgs ≠ l.right.numArgs then some none
  else do
    match ← differingArg 0 none l.left.args l.right.args with
    | none => return none
    | some j =>
      let a ← l.left.args[j]?
      let b ← l.right.args[j]?
      return some (Literal.new false a b)

/-- `find_injectivities` (clause.rs:631-672), from the literal with index `i` on. -/
def findInjectivitiesFrom (ls : List Literal) : Nat → List Literal → Option (List (List Literal))
  | _, [] => some []
  | i, l :: rest =>
    if l.positive then some []
    else do
      let r ← injectLiteral l
      let more ← findInjectivitiesFrom ls (i + 1) rest
      match r with
      | some l' => return ls.set i l' :: more
      | none => return more

/-- `find_injectivities` (clause.rs:631-672). -/
def findInjectivities (ls : List Literal) : Option (List (List Literal)) :=
  findInjectivitiesFrom ls 0 ls

/-- Length of the longest common suffix (clause.rs:765-776), computed on the reversed lists. -/
def commonPrefix : List Term → List Term → Nat
  | a :: as, b :: bs => if a ≠ b then 0 else commonPrefix as bs + 1
  | _, _ => 0

/-- `expected_input_type_for_arg` (clause.rs:782-798). -/
def expectedInput (K : KCtx) (Γ : LCtx) (h : Atom) (args : List Term) (k : Nat) : Option Term := do
  let T ← Term.checkedType K Γ ((Term.atom h).apply (args.take k))
  let (input, _) ← T.splitPi
  return input

/-- `would_leave_unsupported_bare_head` (clause.rs:800-834).  `vp` says for which constants the symbol
table records value parameters (`get_polymorphic_info`). -/
def badBareHead (vp : Symbol → Bool) (h : Atom) (remaining : Nat) : Bool :=
  if remaining ≠ 0 then false
  else
    match h with
    | .sym .eq_ => true
    | .sym .ite_ => true
    | .sym s => vp s
    | _ => false

/-- The loop that peels variables from the right (clause.rs:841-915).  `i` counts the peeled variables,
`peeled` are their ids.  `none` is an early `return None`.  (The two conditions on `j` in the prefix
test of the longer side are together `j < longer_len - 1 - i`.) -/
def peelLoop (K : KCtx) (Γ : LCtx) (vp : Symbol → Bool) (h1 : Atom) (la : List Term) (h2 : Atom)
    (sa : List Term) : Nat → Nat → List Nat → Option (List Nat)
  | 0, _, peeled => some peeled
  | m + 1, i, peeled =>
    match sa[sa.length - 1 - i]? with
    | some (.atom (.fvar v)) => do
      let T ← Γ.get v
      let t1 ← expectedInput K Γ h1 la (la.length - 1 - i)
      let t2 ← expectedInput K Γ h2 sa (sa.length - 1 - i)
      if T ≠ t1 ∨ T ≠ t2 then some peeled
      else if badBareHead vp h1 (la.length - (i + 1)) || badBareHead vp h2 (sa.length - (i + 1)) then
        some peeled
      else if peeled.contains v then some peeled
      else if (la.take (la.length - 1 - i)).any (·.hasVar v) then some peeled
      else if (sa.take (sa.length - 1 - i)).any (·.hasVar v) then some peeled
      else peelLoop K Γ vp h1 la h2 sa m (i + 1) (peeled ++ [v])
    | _ => some peeled

/-- `Atom::is_variable` (/repo/src/kernel/atom.rs:92-94). -/
def Atom.isVar : Atom → Bool
  | .sym _ => false
  | _ => true

/-- `find_extensionality_for_literal` (clause.rs:725-965).  `none` also covers the panics of the type
computation at the end. -/
def extendLiteral (K : KCtx) (Γ : LCtx) (vp : Symbol → Bool) (l : Literal) :
    Option (Literal × List Nat) :=
  if !l.positive then none
  else if l.left = l.right then none
  else
    let (longer, shorter) :=
      if l.left.numArgs ≥ l.right.numArgs then (l.left, l.right) else (l.right, l.left)
    let la := longer.args
    let sa := shorter.args
    if la.isEmpty || sa.isEmpty then none
    else if longer.headAtom.isVar || shorter.headAtom.isVar then none
    else
      let m := commonPrefix la.reverse sa.reverse
      if m = 0 then none
      else do
        let peeled ← peelLoop K Γ vp longer.headAtom la shorter.headAtom sa m 0 []
        if peeled.length = 0 then none
        else
          let a := (Term.atom longer.headAtom).apply (la.take (la.length - peeled.length))
          let b := (Term.atom shorter.headAtom).apply (sa.take (sa.length - peeled.length))
          if a = b then none
          else do
            let ta ← Term.getType K Γ a
            let tb ← Term.getType K Γ b
            if ta ≠ tb then none else some (Literal.new true a b, peeled)

/-- `find_extensionality` (clause.rs:686-723), from the literal with index `i` on.  Also returns the
peeled variables. -/
def findExtensionalityFrom (K : KCtx) (Γ : LCtx) (vp : Symbol → Bool) (ls : List Literal) :
    Nat → List Literal → Option (List Literal × List Nat)
  | _, [] => none
  | i, l :: rest =>
    match extendLiteral K Γ vp l with
    | none => findExtensionalityFrom K Γ vp ls (i + 1) rest
    | some (l', peeled) =>
      if (ls.eraseIdx i).any (fun o => peeled.any fun v => o.left.hasVar v || o.right.hasVar v) then
        findExtensionalityFrom K Γ vp ls (i + 1) rest
      else some (ls.set i l', peeled)

/-- `find_extensionality` (clause.rs:686-723). -/
def Clause.findExtensionality (K : KCtx) (vp : Symbol → Bool) (c : Clause) :
    Option (List Literal × List Nat) :=
  findExtensionalityFrom K c.ctx vp c.lits 0 c.lits

end Acorn
