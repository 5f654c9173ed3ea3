/-
Local and kernel contexts: variable types, symbol types, typeclass instances.
-/
import Verif.Model.Bound
namespace Acorn

/-- `LocalContext` (/repo/src/kernel/local_context.rs:11-18): the type of each free variable,
possibly missing. -/
abbrev LCtx := List (Option Term)

/-- `LocalContext::get_var_type` (local_context.rs:73-75). -/
def LCtx.get (Γ : LCtx) (i : Nat) : Option Term := (Γ[i]?).join

/-- `LocalContext::push_type` (local_context.rs:93-97); the new variable id is the old length. -/
def LCtx.pushTy (Γ : LCtx) (T : Term) : LCtx := Γ ++ [some T]

/-- A ground type id or typeclass id (/repo/src/kernel/types.rs:20, 58). -/
abbrev Id2 := Nat × Nat

/-- What the kernel context (`KernelContext`, /repo/src/kernel/kernel_context.rs:19-60) contributes
to type checking: the constant types of the symbol table (symbol_table.rs:102-118) and, from the type
store (type_store.rs:73-140), the parameter kinds of type constructors and the typeclass tables.
Missing entries are `none` where the Rust code would panic on an out-of-range index. -/
structure KCtx where
  globalType : Nat → Nat → Option Term
  scopedType : Nat → Option Term
  paramKinds : Id2 → List Term
  /-- `typeclass_extends`: `tcExtends c d` when `c` extends `d`. -/
  tcExtends : Id2 → Id2 → Bool
  /-- `typeclass_instances`: `tcInstances c g`. -/
  tcInstances : Id2 → Id2 → Bool
  /-- `get_arbitrary_typeclass` (type_store.rs:1671-1682). -/
  arbitraryTc : Id2 → Option Id2
  /-- `typeclass_instance_schemes`: scheme context and target type. -/
  schemes : Id2 → List (LCtx × Term)

namespace KCtx

/-- `TypeStore::get_type_kind` (type_store.rs:512-525). -/
def typeKind (K : KCtx) (g : Id2) : Term :=
  (K.paramKinds g).foldr Term.pi Term.type0

/-- `eq_symbol_type_ref` (symbol_table.rs:33-46). -/
def eqType : Term := .pi .type0 (.pi (.bvar 0) (.pi (.bvar 1) .boolTy))

/-- `ite_symbol_type_ref` (symbol_table.rs:48-65). -/
def iteType : Term :=
  .pi .type0 (.pi .boolTy (.pi (.bvar 1) (.pi (.bvar 2) (.bvar 3))))

/-- `SymbolTable::get_symbol_type` (symbol_table.rs:473-489). -/
def symbolType (K : KCtx) : Symbol → Option Term
  | .true_ | .false_ => some .boolTy
  | .not_ => some (.pi .boolTy .boolTy)
  | .and_ | .or_ => some (.pi .boolTy (.pi .boolTy .boolTy))
  | .eq_ => some eqType
  | .ite_ => some iteType
  | .bool | .type0 | .typeclass _ _ => some .type0
  | .type m l => some (K.typeKind (m, l))
  | .global m l => K.globalType m l
  | .scoped l => K.scopedType l

/-- `TypeStore::is_instance_of` (type_store.rs:1535-1557). -/
def isInstanceOf (K : KCtx) (g c : Id2) : Bool :=
  K.tcInstances c g ||
    match K.arbitraryTc g with
    | some a => a == c || K.tcExtends a c
    | none => false

/-- `TypeStore::type_term_typeclass_constraint` (type_store.rs:1597-1605). -/
def typeclassConstraint (Γ : LCtx) (t : Term) : Option Id2 :=
  match t.atomicVariable with
  | some i => (Γ.get i).bind Term.asTypeclass
  | none => none

/-- `TypeStore::match_instance_scheme_term` (type_store.rs:1607-1645) together with
`scheme_binding_satisfies_type` (type_store.rs:1647-1661); the bindings map is returned.  `inst` is
the recursive instance query. -/
def matchScheme (inst : Term → Id2 → Bool) (sctx : LCtx) :
    Term → Term → List (Nat × Term) → Option (List (Nat × Term))
  | .fvar v, q, bs =>
    match bs.lookup v with
    | some b => if b = q then some bs else none
    | none =>
      match sctx.get v with
      | none => none
      | some T =>
        if (if T.isType0 then !q.isType0 && q.asTypeclass.isNone
            else match T.asTypeclass with
              | some c => inst q c
              | none => true)
        then some ((v, q) :: bs) else none
  | .app pf pa, .app qf qa, bs =>
    match matchScheme inst sctx pf qf bs with
    | none => none
    | some bs' => matchScheme inst sctx pa qa bs'
  | p, q, bs => if p = q then some bs else none

/-- `TypeStore::type_term_is_instance_of` (type_store.rs:1559-1595).  The recursion goes through the
instance schemes; a scheme whose target is a bare variable would make the Rust code recurse forever,
here it runs out of fuel and answers `false`. -/
def isInstFuel (K : KCtx) (Γ : LCtx) : Nat → Term → Id2 → Bool
  | 0, _, _ => false
  | fuel + 1, t, c =>
    (match t.asTypeAtom with
      | some g => K.isInstanceOf g c
      | none => false) ||
    (match typeclassConstraint Γ t with
      | some a => a == c || K.tcExtends a c
      | none => (K.schemes c).any fun s => (matchScheme (isInstFuel K Γ fuel) s.1 s.2 t []).isSome)

/-- The query with enough fuel: a scheme match descends to proper sub-terms, unless a scheme target
is a bare variable. -/
def isInst (K : KCtx) (Γ : LCtx) (t : Term) (c : Id2) : Bool := isInstFuel K Γ (t.size + 1) t c

end KCtx
end Acorn
