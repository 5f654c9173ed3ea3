/-
Variable maps: substitution, matching and specialization.
Models /repo/src/kernel/variable_map.rs and the instance aliases of kernel_context.rs.
-/
import Verif.Model.Clause
import Verif.Model.Typing
namespace Acorn

/-- `VariableMap` (variable_map.rs:57-60): what each variable is mapped to, if anything. -/
abbrev VMap := List (Option Term)

/-- `LocalContext::set_type` (local_context.rs:99-106) and `VariableMap::set`
(variable_map.rs:426-432): write at an index, extending with missing entries. -/
def setSlot (m : List (Option Term)) (i : Nat) (t : Term) : List (Option Term) :=
  (if i < m.length then m else m ++ List.replicate (i + 1 - m.length) none).set i (some t)

namespace VMap

/-- `get_mapping` (variable_map.rs:135-142). -/
def get (m : VMap) (i : Nat) : Option Term := (m[i]?).join

/-- `match_var` (variable_map.rs:144-156).  `none`: the variable is already mapped to something else.
(The code may also leave the vector longer when it fails; the callers drop the map then.) -/
def matchVar (m : VMap) (i : Nat) (t : Term) : Option VMap :=
  match m.get i with
  | none => some (setSlot m i t)
  | some u => if u = t then some m else none

/-- `apply_to_term` (variable_map.rs:779-811) and `specialize_term` (variable_map.rs:498-558), which
are the same function: replace the mapped variables, keep the others.  Nothing is shifted when a
replacement goes under a binder. -/
def apply (m : VMap) : Term → Term
  | .atom (.fvar i) => (m.get i).getD (.fvar i)
  | .atom a => .atom a
  | .app f a => .app (m.apply f) (m.apply a)
  | .bind b A B => .bind b (m.apply A) (m.apply B)

/-- `resolve_typeclass_constraint` (variable_map.rs:12-19) is `Term.resolveConstraint` with enough
fuel. -/
def constraint (Γ : LCtx) (T : Term) : Option Id2 := Term.resolveConstraint Γ (Γ.length + 1) T

/-- `type_term_satisfies_typeclass_constraint` (variable_map.rs:32-53) with
`typeclass_binding_is_compatible` (variable_map.rs:21-30). -/
def satisfies (K : KCtx) (Γ : LCtx) (T : Term) (c : Id2) : Bool :=
  K.isInst Γ T c ||
    match T.atomicVariable with
    | none => false
    | some v =>
      match Γ.get v with
      | none => false
      | some U =>
        match constraint Γ U with
        | none => false
        | some a => a == c || K.tcExtends a c

/-- The variable case of `match_terms` (variable_map.rs:252-287).  Outer `none` is a panic: the
variable has no type in the general context, or the type of the special term cannot be computed.
(`type_in_context` has a case for bound variables, which the first test has already excluded.) -/
def matchVarTyped (K : KCtx) (Γ Δ : LCtx) (m : VMap) (i : Nat) (s : Term) : Option (Option VMap) :=
  if s.escapes then some none
  else
    match Γ.get i with
    | none => none
    | some T =>
      match s.getType K Δ with
      | none => none
      | some S =>
        let T' := m.apply T
        if !(decide (T' = S) || (T'.isType0 && S.isTypeParamKind) || T'.asTypeclass.isSome) then
          some none
        else
          match constraint Γ T with
          | some c => if satisfies K Δ S c then some (m.matchVar i s) else some none
          | none => some (m.matchVar i s)

/-- The Rust `&&` between two matching steps that share the map.  `none` is a panic, `some none` a failed
match. -/
def andThen (r : Option (Option VMap)) (k : VMap → Option (Option VMap)) : Option (Option VMap) :=
  match r with
  | none => none
  | some none => some none
  | some (some m) => k m

/-- Try a second way if the first one fails (variable_map.rs:193-246). -/
def orElse (r : Option (Option VMap)) (k : Option (Option VMap)) : Option (Option VMap) :=
  match r with
  | none => none
  | some none => k
  | some (some m) => some (some m)

/-- `match_terms` (variable_map.rs:166-417).  Outer `none` is a panic, inner `none` means that the terms
do not match.  Equality terms are tried in both orientations. -/
def matchTerms (K : KCtx) : LCtx → LCtx → VMap → Term → Term → Option (Option VMap)
  | Γ, Δ, m, .app (.app (.app (.atom (.sym .eq_)) T) a) b,
      .app (.app (.app (.atom (.sym .eq_)) T') a') b' =>
    orElse
      (andThen (matchTerms K Γ Δ m T T') fun m1 => andThen (matchTerms K Γ Δ m1 a a') fun m2 =>
        matchTerms K Γ Δ m2 b b')
      (andThen (matchTerms K Γ Δ m T T') fun m1 => andThen (matchTerms K Γ Δ m1 a b') fun m2 =>
        matchTerms K Γ Δ m2 b a')
  | Γ, Δ, m, .atom (.fvar i), s => matchVarTyped K Γ Δ m i s
  | _, _, m, .atom x, .atom y => some (if x = y then some m else none)
  | Γ, Δ, m, .app f a, .app f' a' =>
    andThen (matchTerms K Γ Δ m f f') fun m1 => matchTerms K Γ Δ m1 a a'
  | Γ, Δ, m, .bind c A B, .bind c' A' B' =>
    if c = c' then
      andThen (matchTerms K Γ Δ m A A') fun m1 =>
        matchTerms K (Γ.pushTy (m1.apply A)) (Δ.pushTy A') m1 B B'
    else some none
  | _, _, _, _, _ => some none

/-- `match_term_no_type_check` (variable_map.rs:685-723). -/
def matchRaw : VMap → Term → Term → Option VMap
  | m, .atom (.fvar i), s => if s.escapes then none else m.matchVar i s
  | m, .atom x, .atom y => if x = y then some m else none
  | m, .app f a, .app f' a' => (matchRaw m f f').bind fun m1 => matchRaw m1 a a'
  | m, .bind c A B, .bind c' A' B' =>
    if c = c' then (matchRaw m A A').bind fun m1 => matchRaw m1 B B' else none
  | _, _, _ => none

/-- `match_terms_no_type_check` (variable_map.rs:725-757): equality terms are tried in both orientations,
but only at the top. -/
def matchRawEq : VMap → Term → Term → Option VMap
  | m, .app (.app (.app (.atom (.sym .eq_)) T) a) b,
      .app (.app (.app (.atom (.sym .eq_)) T') a') b' =>
    match (matchRawEq m T T').bind fun m1 => (matchRawEq m1 a a').bind fun m2 => matchRawEq m2 b b' with
    | some m' => some m'
    | none =>
      (matchRawEq m T T').bind fun m1 => (matchRawEq m1 a b').bind fun m2 => matchRawEq m2 b a'
  | m, g, s => matchRaw m g s

/-- `match_literal` (variable_map.rs:765-776). -/
def matchLiteral (m : VMap) (g s : Literal) (flipped : Bool) : Option VMap :=
  if g.isSigned && s.isSigned then matchRaw m g.left s.left
  else if flipped then (matchRaw m g.left s.right).bind fun m1 => matchRaw m1 g.right s.left
  else (matchRaw m g.left s.left).bind fun m1 => matchRaw m1 g.right s.right

end VMap

/-- The registered instance aliases: for each typeclass attribute (without value parameters) its number
of type parameters (`get_polymorphic_info`, kernel_context.rs:98-115), and the constant that stands for
the attribute at given type arguments (`lookup_instance_alias_by_keys`, kernel_context.rs:126-132). -/
structure Aliases where
  params : Nat → Nat → Option Nat
  lookup : Nat → Nat → List Term → Option Symbol

/-- `looks_like_type_term` (kernel_context.rs:140-154). -/
def looksLikeType (t : Term) : Bool :=
  t.atoms.all fun a =>
    match a with
    | .sym .bool | .sym .type0 | .sym (.type _ _) | .sym (.typeclass _ _) | .bvar _ | .fvar _ => true
    | _ => false

/-- `try_canonicalize_typeclass_call` (kernel_context.rs:86-135) for an atomic head. -/
def Aliases.call (A : Aliases) (h : Atom) (args : List Term) : Option Term :=
  match h with
  | .sym (.global m l) => do
    let n ← A.params m l
    if n = 0 ∨ args.length < n then none
    else if (args.take n).any fun t => !looksLikeType t then none
    else do
      let s ← A.lookup m l (args.take n)
      return (Term.sym s).apply (args.drop n)
  | _ => none

/-- `canonicalize_instance_calls` (kernel_context.rs:40-84) for a term applied to arguments that are
already canonical.  An atom without arguments is left alone. -/
def Aliases.canonSpine (A : Aliases) : Term → List Term → Term
  | .app f a, args => A.canonSpine f (A.canonSpine a [] :: args)
  | .atom h, args => if args.isEmpty then .atom h else (A.call h args).getD ((Term.atom h).apply args)
  | .bind b T B, args => (Term.bind b (A.canonSpine T []) (A.canonSpine B [])).apply args

/-- `canonicalize_instance_calls` (kernel_context.rs:40-84). -/
def Aliases.canon (A : Aliases) (t : Term) : Term := A.canonSpine t []

namespace VMap

/-- `specialize_literal` (variable_map.rs:563-597). -/
def specLiteral (A : Aliases) (m : VMap) (l : Literal) : Literal :=
  Literal.new l.positive (A.canon (m.apply l.left)) (A.canon (m.apply l.right))

/-- The variables of the replacement terms, in order, with repetitions: what the loops of
`build_output_context` (variable_map.rs:107-132) visit. -/
def outVars (m : VMap) : List Nat := m.flatMap fun o => o.elim [] Term.fvars

/-- One round of the loop of `specialize_clause` (variable_map.rs:606-611). -/
def keepOne (m : VMap) (Γ : LCtx) (out : LCtx) (i : Nat) : LCtx :=
  match m.get i, Γ.get i with
  | none, some T => setSlot out i T
  | _, _ => out

/-- The loop of `specialize_clause` (variable_map.rs:605-611, 644-651): unmapped variables keep
their types, unchanged. -/
def keepUnmapped (m : VMap) (Γ : LCtx) (out : LCtx) : LCtx :=
  (List.range Γ.length).foldl (m.keepOne Γ) out

/-- `build_output_context` (variable_map.rs:107-117); `none` is the panic on an undeclared variable. -/
def outCtx (m : VMap) (Γ : LCtx) : Option LCtx :=
  m.outVars.foldlM (fun o v => (Γ.get v).map fun T => setSlot o v (m.apply T)) []

/-- `build_output_context_from_replacement_context` (variable_map.rs:119-132). -/
def outCtxFrom (m : VMap) (Δ : LCtx) : Option LCtx :=
  m.outVars.foldlM (fun o v => (Δ.get v).map fun T => setSlot o v T) []

/-- `specialize_clause` (variable_map.rs:601-618). -/
def specClause (A : Aliases) (m : VMap) (c : Clause) : Option Clause := do
  let out ← m.outCtx c.ctx
  return ⟨c.lits.map (m.specLiteral A), m.keepUnmapped c.ctx out⟩

/-- `specialize_clause_with_replacement_context` (variable_map.rs:637-659). -/
def specClauseFrom (A : Aliases) (m : VMap) (Δ : LCtx) (c : Clause) : Option Clause := do
  let out ← m.outCtxFrom Δ
  return ⟨c.lits.map (m.specLiteral A), m.keepUnmapped c.ctx out⟩

/-- `compose` (variable_map.rs:472-492). -/
def compose (m o : VMap) : VMap :=
  (List.range m.length).foldl
    (fun r i => match m.get i with | some t => setSlot r i (o.apply t) | none => r) []

end VMap

/-- `compact_var_ids_preserving_literal_shape` (clause.rs:448-463): renumber the variables of each
literal, without reordering its sides. -/
def compactLits (Γ : LCtx) : List Nat → List Literal → Option (List Literal × List Nat)
  | ids, [] => some ([], ids)
  | ids, l :: ls => do
    let (a, ids1) ← l.left.normVars Γ ids
    let (b, ids2) ← l.right.normVars Γ ids1
    let (ls', ids3) ← compactLits Γ ids2 ls
    return (⟨l.positive, a, b⟩ :: ls', ids3)

/-- `compacted_var_ids_preserving_literal_shape` (clause.rs:448-470). -/
def Clause.compact (c : Clause) : Option Clause := do
  let (ls, ids) ← compactLits c.ctx [] c.lits
  let Γ' ← c.ctx.remap ids
  return ⟨ls, Γ'⟩

end Acorn
