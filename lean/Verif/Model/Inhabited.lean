/-
Which types are known to have elements: the search for a witness and the tables it consults.  Models parts
of /repo/src/kernel/kernel_context.rs and /repo/src/kernel/symbol_table.rs.
-/
import Verif.Model.Checker
namespace Acorn

/-- The tables consulted by the search: `type_to_element`, `inhabited_type_constructor_witnesses`,
`inhabited_typeclass_witnesses` of the symbol table (symbol_table.rs:132-150), and the answers of
`get_typeclass_extends` and `find_instance_of_typeclass` of the type store.  The two sets
`inhabited_type_constructors` and `inhabited_typeclasses` are the key sets of the two maps. -/
structure Witnesses where
  elem : Term → Option Symbol
  ctor : Id2 → Option Symbol
  cls : Id2 → Option Symbol
  bases : Id2 → List Id2
  inst : Id2 → Option Id2

namespace Witnesses

/-- The tables of a new symbol table. -/
def empty (bases : Id2 → List Id2) (inst : Id2 → Option Id2) : Witnesses :=
  ⟨fun _ => none, fun _ => none, fun _ => none, bases, inst⟩

/-- The variable a type consists of (symbol_table.rs:252-259). -/
def outputVar : Term → Option Nat
  | .fvar i => some i
  | .bvar i => some i
  | _ => none

/-- The loop over the leading type parameters in `record_inhabited_type_constructor`
(symbol_table.rs:237-272); the number of parameters passed and the rest of the type. -/
def recordKinds (s : Symbol) : Nat → Term → Witnesses → Nat × Term × Witnesses
  | depth, .pi A B, W =>
    match A.headAtom with
    | .sym .type0 => recordKinds s (depth + 1) B W
    | .sym (.typeclass m l) =>
      recordKinds s (depth + 1) B
        (if outputVar B = some depth ∧ W.cls (m, l) = none then
          { W with cls := fun c => if c = (m, l) then some s else W.cls c }
        else W)
    | _ => (depth, .pi A B, W)
  | depth, T, W => (depth, T, W)

/-- The codomain after all parameters (symbol_table.rs:281-284). -/
def codomain : Term → Term
  | .pi _ B => codomain B
  | T => T

/-- `record_inhabited_type_constructor` (symbol_table.rs:229-305). -/
def recordConstructor (W : Witnesses) (T : Term) (s : Symbol) : Witnesses :=
  let (depth, cur, W) := recordKinds s 0 T W
  if depth > 0 then
    match (codomain cur).headAtom with
    | .sym (.type m l) =>
      if W.ctor (m, l) = none ∨ cur.splitPi = none then
        { W with ctor := fun g => if g = (m, l) then some s else W.ctor g }
      else W
    | _ => W
  else W

/-- `record_element` (symbol_table.rs:219-227). -/
def record (W : Witnesses) (T : Term) (s : Symbol) : Witnesses :=
  let W := W.recordConstructor T s
  if W.elem T = none then { W with elem := fun U => if U = T then some s else W.elem U } else W

/-- Recording a sequence of declarations. -/
def recordAll (W : Witnesses) (ds : List (Symbol × Term)) : Witnesses :=
  ds.foldl (fun W d => W.record d.2 d.1) W

/-- `find_typeclass_provider` (kernel_context.rs:482-492). -/
def classProvider (W : Witnesses) (c : Id2) : Option Symbol :=
  (W.cls c).or ((W.bases c).findSome? W.cls)

/-- `find_type_witness_for_typeclass` (kernel_context.rs:494-504). -/
def classMember (W : Witnesses) (c : Id2) : Option Term :=
  ((W.inst c).or ((W.bases c).findSome? W.inst)).map fun g => .sym (.type g.1 g.2)

end Witnesses

/-- `find_local_typeclass_witness` (kernel_context.rs:506-522). -/
def localMember (K : KCtx) (Γ : LCtx) (c : Id2) : Option Term :=
  ((List.range Γ.length).find? fun i =>
    match (Γ.get i).bind Term.asTypeclass with
    | some d => d == c || K.tcExtends d c
    | none => false).map Term.fvar

/-- The arguments of the target type applied to the provider (kernel_context.rs:436-449); `none` is a
failure of `type_apply_with_arg`. -/
def applyTypeArgs : List Term → Term → Term → Option (Term × Term)
  | [], w, ty => some (w, ty)
  | a :: as, w, ty =>
    match ty.splitPi with
    | none => some (w, ty)
    | some (A, _) =>
      if A.isTypeParamKind then
        match ty.typeApply a with
        | none => none
        | some ty' => applyTypeArgs as (.app w a) ty'
      else some (w, ty)

/-- The loop over the value arguments (kernel_context.rs:455-479); `find` is the recursive search. -/
def applyValueArgs (find : Term → Out (Option Term)) (target : Term) : Nat → Term → Term → Out (Option Term)
  | 0, _, _ => .more
  | fuel + 1, w, ty =>
    match ty.splitPi with
    | none => .done (if ty = target then some w else none)
    | some (A, _) =>
      if A.isTypeParamKind then .done none
      else
        find A >>= fun
          | none => .done none
          | some a =>
            match ty.typeApply a with
            | none => .done none
            | some ty' =>
              if ty' = target then .done (some (.app w a))
              else applyValueArgs find target fuel (.app w a) ty'

/-- `instantiate_type_constructor_witness` (kernel_context.rs:424-480). -/
def instantiateWitness (K : KCtx) (find : Term → Out (Option Term)) (fuel : Nat) (provider : Symbol)
    (target : Term) : Out (Option Term) :=
  match K.symbolType provider with
  | none => .panic
  | some ty =>
    match applyTypeArgs target.args (.sym provider) ty with
    | none => .done none
    | some (w, ty) => if ty = target then .done (some w) else applyValueArgs find target fuel w ty

/-- The constraint on the head of a type (kernel_context.rs:269-279). -/
def headConstraint (K : KCtx) (Γ : Option LCtx) (T : Term) : Option Term :=
  match T.headAtom with
  | .fvar i => Γ.bind fun Γ => Γ.get i
  | .bvar i => Γ.bind fun Γ => Γ.get i
  | .sym (.scoped l) => K.scopedType l
  | _ => none

/-- The provider of the class of an arbitrary type (kernel_context.rs:321-344). -/
def arbitraryWitness (K : KCtx) (W : Witnesses) (g : Id2) (T : Term) : Option Term :=
  match K.arbitraryTc g with
  | none => none
  | some c => (W.classProvider c).map fun p => .app (.sym p) T

/-- A registered element of the type (kernel_context.rs:299-305). -/
def elementOf (W : Witnesses) (allow : Bool) (T : Term) : Option Symbol :=
  (W.elem T).filter fun s => allow || match s with
    | .scoped _ => false
    | _ => true

/-- The last part of the search, by the head of the type (kernel_context.rs:307-359). -/
def findByHead (K : KCtx) (W : Witnesses) (find : Term → Out (Option Term)) (fuel : Nat)
    (Γ : Option LCtx) (T : Term) : Out (Option Term) :=
  match T.headAtom with
  | .sym .bool => .done (some .tt)
  | .sym .type0 => .done (some .boolTy)
  | .sym (.type m l) =>
    match W.ctor (m, l) with
    | some p =>
      instantiateWitness K find fuel p T >>= fun
        | some w => .done (some w)
        | none => .done (arbitraryWitness K W (m, l) T)
    | none => .done (arbitraryWitness K W (m, l) T)
  | .sym (.typeclass m l) =>
    .done (match Γ.bind fun Γ => localMember K Γ (m, l) with
      | some w => some w
      | none => W.classMember (m, l))
  | _ => .done none

/-- `find_inhabitant_with_seen` (kernel_context.rs:219-362); the witness, if one is found. -/
def findInhabitant (K : KCtx) (W : Witnesses) (allow : Bool) (Γ : Option LCtx) :
    Nat → List Term → Term → Out (Option Term)
  | 0, _, _ => .more
  | fuel + 1, seen, T =>
    if seen.contains T then .done none
    else
      match T.splitPi with
      | some (A, B) =>
        if B.refsBound 0 then .done none
        else
          match B.shift 1 (-1) with
          | none => .panic
          | some B' =>
            if A = B' then .done (some (.lam A (.bvar 0)))
            else
              findInhabitant K W allow Γ fuel (T :: seen) B' >>= fun
                | none => .done none
                | some w =>
                  match w.shift 0 1 with
                  | none => .panic
                  | some w' => .done (some (.lam A w'))
      | none =>
        match (headConstraint K Γ T).map fun C => (C.isType0, C.asTypeclass) with
        | some (true, _) => .done none
        | some (false, some c) => .done ((W.classProvider c).map fun p => .app (.sym p) T)
        | _ =>
          match elementOf W allow T with
          | some s => .done (some (.sym s))
          | none => findByHead K W (findInhabitant K W allow Γ fuel (T :: seen)) fuel Γ T

/-- `provably_inhabited_with_options` (kernel_context.rs:386-422). -/
def provablyInhabited (K : KCtx) (W : Witnesses) (allow : Bool) (fuel : Nat) (T : Term) (Γ : Option LCtx) :
    Out Bool :=
  findInhabitant K W allow Γ fuel [] T >>= fun
    | some _ => .done true
    | none =>
      match Γ with
      | none => .done false
      | some Γ =>
        match Term.resolveConstraint Γ (Γ.length + 2) T with
        | none => .done false
        | some c =>
          match W.classMember c with
          | none => .done false
          | some U => findInhabitant K W allow none fuel [] U >>= fun r => .done r.isSome

/-- The test used by the checker (checker.rs:263-269), as an answer for `CheckEnv.inh`; without enough fuel
it is `false`. -/
def inhabitedTest (K : KCtx) (W : Witnesses) (fuel : Nat) (T : Term) (Γ : LCtx) : Bool :=
  match provablyInhabited K W false fuel T (some Γ) with
  | .done b => b
  | _ => false

end Acorn
