/-
Equality resolution and equality factoring.  Models /repo/src/kernel/inference.rs.
-/
import Verif.Model.Unifier
import Verif.Model.Inference
namespace Acorn

/-- One result of `find_equality_resolutions` or `find_equality_factorings` (inference.rs:30-33, 93-96): the
literals, the context of their variables, and the replacements of the variables of the clause. -/
structure Found where
  lits : List Literal
  ctx : LCtx
  map : VMap

/-- A unifier whose left scope (scope 1) is the clause (inference.rs:44-45, 120-121). -/
def clauseUnifier (Γ : LCtx) : UState := Unifier.init fun s => if s = 1 then some Γ else none

/-- `apply_to_literal` for several literals in order (inference.rs:52-57, 142-148). -/
def applyLits (n : Nat) : UState → List Literal → Option (List Literal × UState)
  | st, [] => some ([], st)
  | st, l :: ls =>
    match Unifier.applyLit n st 1 l with
    | none => none
    | some (l', st1) =>
      match applyLits n st1 ls with
      | none => none
      | some (ls', st2) => some (l' :: ls', st2)

/-- The body of the loop of `find_equality_resolutions` for the negative literal `l` with index `i`
(inference.rs:43-69).  Outer `none`: a panic, or the fuel `n` of the unifier does not suffice. -/
def resolveAt (K : KCtx) (n : Nat) (c : Clause) (i : Nat) (l : Literal) : Option (Option Found) :=
  match Unifier.unify K n (clauseUnifier c.ctx) 1 l.left 1 l.right with
  | none => none
  | some (false, _) => some none
  | some (true, st) =>
    match applyLits n st (c.lits.eraseIdx i) with
    | none => none
    | some (ls, st') => some (some ⟨ls, st'.out, st'.maps 1⟩)

/-- Keep the results, in order. -/
def consFound (r : Option (Option Found)) (more : Option (List Found)) : Option (List Found) :=
  match r, more with
  | some (some f), some fs => some (f :: fs)
  | some none, some fs => some fs
  | _, _ => none

/-- `find_equality_resolutions` (inference.rs:30-72), from the literal with index `i` on: it stops at the
first positive literal. -/
def resolutionsFrom (K : KCtx) (n : Nat) (c : Clause) : Nat → List Literal → Option (List Found)
  | _, [] => some []
  | i, l :: ls =>
    if l.positive then some []
    else consFound (resolveAt K n c i l) (resolutionsFrom K n c (i + 1) ls)

/-- `find_equality_resolutions` (inference.rs:30-72). -/
def findResolutions (K : KCtx) (n : Nat) (c : Clause) : Option (List Found) := resolutionsFrom K n c 0 c.lits

/-- `is_boolean_equality` (inference.rs:12-19); `none`: the type computation panics. -/
def isBoolEq (K : KCtx) (Γ : LCtx) (l : Literal) : Option Bool :=
  (l.left.getType K Γ).map fun T => decide (T = .boolTy)

/-- The innermost body of `find_equality_factorings` (inference.rs:120-161), for `s = t` the first literal
and `u = v` the literal with index `i` among the others, `rest`. -/
def factorAt (K : KCtx) (n : Nat) (Γ : LCtx) (rest : List Literal) (s t : Term) (i : Nat) (u v : Term) :
    Option (Option Found) :=
  match Unifier.unify K n (clauseUnifier Γ) 1 s 1 u with
  | none => none
  | some (false, _) => some none
  | some (true, st) =>
    match Unifier.applyLit n st 1 ⟨false, t, v⟩ with
    | none => none
    | some (tv, st1) =>
      match Unifier.applyLit n st1 1 ⟨true, u, v⟩ with
      | none => none
      | some (uv, st2) =>
        match applyLits n st2 (rest.eraseIdx i) with
        | none => none
        | some (ls, st') => some (some ⟨tv :: uv :: ls, st'.out, st'.maps 1⟩)

/-- The loop over the other literals in `find_equality_factorings` (inference.rs:110-163). -/
def factorRest (K : KCtx) (n : Nat) (Γ : LCtx) (rest : List Literal) (s t : Term) :
    Nat → List Literal → Option (List Found)
  | _, [] => some []
  | i, l :: ls =>
    if !l.positive then factorRest K n Γ rest s t (i + 1) ls
    else
      match isBoolEq K Γ l with
      | none => none
      | some true => factorRest K n Γ rest s t (i + 1) ls
      | some false =>
        consFound (factorAt K n Γ rest s t i l.left l.right)
          (consFound (factorAt K n Γ rest s t i l.right l.left) (factorRest K n Γ rest s t (i + 1) ls))

/-- `find_equality_factorings` (inference.rs:93-165). -/
def findFactorings (K : KCtx) (n : Nat) (c : Clause) : Option (List Found) :=
  match c.lits with
  | [] => some []
  | l :: rest =>
    if !l.positive then some []
    else
      match isBoolEq K c.ctx l with
      | none => none
      | some true => some []
      | some false =>
        match factorRest K n c.ctx rest l.left l.right 0 rest, factorRest K n c.ctx rest l.right l.left 0 rest with
        | some a, some b => some (a ++ b)
        | _, _ => none

end Acorn
