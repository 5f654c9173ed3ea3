/-
Terms of the Acorn kernel.

Models /repo/src/kernel/symbol.rs, atom.rs, types.rs and the tree structure of term.rs.
-/
namespace Acorn

/-- `Symbol` (/repo/src/kernel/symbol.rs:11-54).  `ModuleId` and the 16-bit local ids are natural
numbers here: the model does not bound the number of modules or constants.  `GroundTypeId` and
`TypeclassId` (/repo/src/kernel/types.rs:20, 58) are the two-field pairs `(module, local id)`. -/
inductive Symbol where
  | true_ | false_ | not_ | and_ | or_ | eq_ | ite_ | bool | type0
  | type (module lid : Nat)
  | typeclass (module lid : Nat)
  | global (module lid : Nat)
  | scoped (lid : Nat)
  deriving DecidableEq, Repr, Inhabited

/-- `Atom` (/repo/src/kernel/atom.rs:14-27).  Variable ids are unbounded naturals instead of `u16`. -/
inductive Atom where
  | fvar (i : Nat)
  | bvar (i : Nat)
  | sym (s : Symbol)
  deriving DecidableEq, Repr, Inhabited

/-- The four binders of `TermComponent` / `Decomposition`
(/repo/src/kernel/term.rs:23-60, 65-88): `Pi`, `Lambda`, `ForAll`, `Exists`. -/
inductive Binder where
  | pi | lam | all | ex
  deriving DecidableEq, Repr, Inhabited

/-- The tree that a `Term` (/repo/src/kernel/term.rs:1609-1612) stands for: what repeated
`decompose` calls (term.rs:337-399) reveal.  The flat component vector is modelled separately in
`Verif.Model.FlatTerm`, together with the proof that the two correspond. -/
inductive Term where
  | atom (a : Atom)
  | app (f a : Term)
  | bind (b : Binder) (ty body : Term)
  deriving DecidableEq, Repr, Inhabited

namespace Term

/-- `Term::new_variable` (term.rs:2182). -/
@[match_pattern] abbrev fvar (i : Nat) : Term := atom (.fvar i)
/-- A bound variable atom. -/
@[match_pattern] abbrev bvar (i : Nat) : Term := atom (.bvar i)
/-- A symbol atom. -/
@[match_pattern] abbrev sym (s : Symbol) : Term := atom (.sym s)
/-- `Term::pi` (term.rs:1766). -/
@[match_pattern] abbrev pi (a b : Term) : Term := bind .pi a b
/-- `Term::lambda` (term.rs:1776). -/
@[match_pattern] abbrev lam (a b : Term) : Term := bind .lam a b
/-- `Term::forall` (term.rs:1794). -/
@[match_pattern] abbrev all (a b : Term) : Term := bind .all a b
/-- `Term::exists` (term.rs:1811). -/
@[match_pattern] abbrev ex (a b : Term) : Term := bind .ex a b

/-- `Term::new_true` (term.rs:2147). -/
@[match_pattern] abbrev tt : Term := sym .true_
/-- `Term::new_false` (term.rs:2152). -/
@[match_pattern] abbrev ff : Term := sym .false_
/-- `Term::bool_type` (term.rs:1850). -/
@[match_pattern] abbrev boolTy : Term := sym .bool
/-- `Term::type_sort` (term.rs:1862). -/
@[match_pattern] abbrev type0 : Term := sym .type0
/-- `Term::not` (term.rs:2157). -/
@[match_pattern] abbrev not (t : Term) : Term := app (sym .not_) t
/-- `Term::and` (term.rs:2162). -/
@[match_pattern] abbrev and (a b : Term) : Term := app (app (sym .and_) a) b
/-- `Term::or` (term.rs:2167). -/
@[match_pattern] abbrev or (a b : Term) : Term := app (app (sym .or_) a) b
/-- `Term::eq` (term.rs:2172). -/
@[match_pattern] abbrev eq (ty a b : Term) : Term := app (app (app (sym .eq_) ty) a) b
/-- Fully applied if-then-else: `Ite` applied to a type, a condition and two branches
(symbol.rs:30-31). -/
@[match_pattern] abbrev ite (ty c a b : Term) : Term :=
  app (app (app (app (sym .ite_) ty) c) a) b

/-- `Term::apply` (term.rs:2516-2533) on trees: curried application to a list of arguments. -/
def apply (f : Term) (args : List Term) : Term := args.foldl app f

/-- Number of components of the flat representation; used as a termination measure. -/
def size : Term → Nat
  | atom _ => 1
  | app f a => 1 + f.size + a.size
  | bind _ a b => 1 + a.size + b.size

/-- `TermRef::is_atomic` (term.rs:318-320). -/
def isAtomic : Term → Bool
  | atom _ => true
  | _ => false

/-- `TermRef::get_head_atom` (term.rs:287-315): descend to the left child at every marker,
including binders. -/
def headAtom : Term → Atom
  | atom a => a
  | app f _ => f.headAtom
  | bind _ a _ => a.headAtom

/-- `TermRef::is_true` (term.rs:505-507): compares the *head atom* with `True`. -/
def isTrue (t : Term) : Bool := t.headAtom == .sym .true_

/-- `TermRef::is_type0` (term.rs:643-645). -/
def isType0 (t : Term) : Bool := t == type0
/-- `TermRef::is_bool_type` (term.rs:638-640). -/
def isBoolType (t : Term) : Bool := t == boolTy

/-- `TermRef::as_typeclass` (term.rs:538-547). -/
def asTypeclass : Term → Option (Nat × Nat)
  | sym (.typeclass m l) => some (m, l)
  | _ => none

/-- `TermRef::as_type_atom` (term.rs:526-535). -/
def asTypeAtom : Term → Option (Nat × Nat)
  | sym (.type m l) => some (m, l)
  | _ => none

/-- `TermRef::is_type_param_kind` (term.rs:556-558). -/
def isTypeParamKind (t : Term) : Bool := t.isType0 || t.asTypeclass.isSome

/-- `TermRef::atomic_variable` (term.rs:515-523). -/
def atomicVariable : Term → Option Nat
  | fvar i => some i
  | _ => none

/-- The atoms of a term in component order: `iter_atoms` (term.rs:1081-1089). -/
def atoms : Term → List Atom
  | atom a => [a]
  | app f a => f.atoms ++ a.atoms
  | bind _ a b => a.atoms ++ b.atoms

/-- `TermRef::has_variable` (term.rs:961-970). -/
def hasVar (t : Term) (i : Nat) : Bool := t.atoms.any (· == .fvar i)

/-- `TermRef::has_any_variable` (term.rs:976-985). -/
def hasAnyVar (t : Term) : Bool := t.atoms.any fun a => match a with | .fvar _ => true | _ => false

/-- `Term::has_bound_variable` (term.rs:2671-2678). -/
def hasBound (t : Term) : Bool := t.atoms.any fun a => match a with | .bvar _ => true | _ => false

/-- `TermRef::max_variable` (term.rs:1092-1103) and `least_unused_variable` (term.rs:1107-1112)
combined: one more than the largest free variable, `0` if there is none. -/
def varBound : Term → Nat
  | fvar i => i + 1
  | atom _ => 0
  | app f a => max f.varBound a.varBound
  | bind _ a b => max a.varBound b.varBound

end Term
end Acorn
