/-
Sub-term addressing.  Models /repo/src/kernel/term.rs:10-18, 1317-1329, 2568-2661.
-/
import Verif.Model.Term
namespace Acorn

/-- `PathStep` (/repo/src/kernel/term.rs:12-18). -/
inductive PathStep where
  | function | argument
  deriving DecidableEq, Repr, Inhabited

namespace Term

/-- `TermRef::is_variable` (term.rs:510-512) with `Atom::is_variable` (atom.rs:92-94): free *or*
bound variable atoms. -/
def isVariable : Term → Bool
  | fvar _ => true
  | bvar _ => true
  | _ => false

/-- `TermRef::get_term_at_path` (term.rs:1317-1329). -/
def getAt : Term → List PathStep → Option Term
  | t, [] => some t
  | app f _, .function :: p => getAt f p
  | app _ a, .argument :: p => getAt a p
  | _, _ :: _ => none

/-- `Term::replace_at_path` (term.rs:2577-2604); `none` is the panic on a path that does not
exist. -/
def replaceAt : Term → List PathStep → Term → Option Term
  | _, [], r => some r
  | app f a, .function :: p, r => (replaceAt f p r).map (fun f' => app f' a)
  | app f a, .argument :: p, r => (replaceAt a p r).map (fun a' => app f a')
  | _, _ :: _, _ => none

/-- `push_rewritable_subterms_with_paths` (term.rs:2618-2661).  The accumulator is returned instead
of being mutated; `none` is the panic on a variable. -/
def rewritable : Term → List PathStep → Option (List (List PathStep × Term))
  | t@(app f a), pre =>
    if t.isTrue then some [] else do
      let l1 ← rewritable f (pre ++ [.function])
      let l2 ← rewritable a (pre ++ [.argument])
      return l1 ++ l2 ++ [(pre, t)]
  | t, pre =>
    if t.isTrue then some []
    else if t.isVariable then none
    else some [(pre, t)]

/-- `Term::rewritable_subterms_with_paths` (term.rs:2610-2615). -/
def rewritableSubterms (t : Term) : Option (List (List PathStep × Term)) := rewritable t []

end Term
end Acorn
