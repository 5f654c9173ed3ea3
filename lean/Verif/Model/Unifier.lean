/-
The unifier.  Models /repo/src/kernel/unifier.rs.
-/
import Verif.Model.VariableMap
namespace Acorn

/-- `Unifier` (unifier.rs:36-47).  Scope `0` is `Scope::OUTPUT`, scopes `1` and `2` are `Scope::LEFT` and
`Scope::RIGHT` (unifier.rs:14-17).  The vectors of maps and input contexts are functions of the scope; a
scope that was never added has an empty map and no context, where the code would panic. -/
structure UState where
  maps : Nat → VMap
  inputs : Nat → Option LCtx
  out : LCtx

namespace Unifier

/-- `Unifier::new` followed by `set_input_context` calls (unifier.rs:89-111). -/
def init (inputs : Nat → Option LCtx) : UState := ⟨fun _ => [], inputs, []⟩

/-- `max_output_variable` (variable_map.rs:446-454) as a length: one more than the largest variable of the
replacement terms. -/
def outLen (m : VMap) : Nat := m.foldr (fun o n => max (o.elim 0 Term.varBound) n) 0

/-- `with_map` (unifier.rs:390-410). -/
def withMap (m : VMap) (out : LCtx) : UState :=
  ⟨fun s => if s = 0 then List.replicate (outLen m) none else if s = 1 then m else [], fun _ => none, out⟩

/-- `set_mapping` (unifier.rs:451-453). -/
def setMap (st : UState) (s i : Nat) (t : Term) : UState :=
  { st with maps := fun s' => if s' = s then setSlot (st.maps s) i t else st.maps s' }

/-- `self.maps[Scope::OUTPUT].push_none()` (variable_map.rs:467-469). -/
def pushNone (st : UState) : UState :=
  { st with maps := fun s => if s = 0 then st.maps 0 ++ [none] else st.maps s }

/-- `output_context.set_type`. -/
def setOut (st : UState) (i : Nat) (T : Term) : UState := { st with out := setSlot st.out i T }

/-- `get_local_context` (unifier.rs:380-386); `none` is the panic. -/
def ctxOf (st : UState) (s : Nat) : Option LCtx := if s = 0 then some st.out else st.inputs s

/-- `apply_internal` (unifier.rs:489-559), with fuel, because translating the type of a new variable is
another call.  `none`: a variable without a type (a panic), or no fuel.
An unmapped input variable becomes a fresh output variable; the mapping is set before its type is
translated. -/
def apply : Nat → UState → Nat → Term → Option (Term × UState)
  | 0, _, _, _ => none
  | n + 1, st, s, .atom (.fvar i) =>
    match (st.maps s).get i with
    | some t => some (t, st)
    | none =>
      if s = 0 then some (.fvar i, st)
      else
        let v := (st.maps 0).length
        let st1 := setMap (pushNone st) s i (.fvar v)
        match ((st1.inputs s).bind fun Γ => Γ.get i) with
        | none => none
        | some T =>
          match apply n st1 s T with
          | none => none
          | some (T', st2) => some (((st2.maps s).get i).getD (.fvar i), setOut st2 v T')
  | _ + 1, st, _, .atom a => some (.atom a, st)
  | n + 1, st, s, .app f a =>
    match apply n st s f with
    | none => none
    | some (f', st1) =>
      match apply n st1 s a with
      | none => none
      | some (a', st2) => some (.app f' a', st2)
  | n + 1, st, s, .bind b A B =>
    match apply n st s A with
    | none => none
    | some (A', st1) =>
      match apply n st1 s B with
      | none => none
      | some (B', st2) => some (.bind b A' B', st2)

/-- `TypeConstraintKind` (unifier.rs:50-55). -/
inductive CKind
  | type0
  | tc (c : Id2)
  | other
deriving DecidableEq

/-- `resolve_type_constraint_kind` (unifier.rs:57-72).  Fuel, because a variable whose type leads back to
itself would make the code recurse forever. -/
def kindOf (Γ : LCtx) : Nat → Term → CKind
  | 0, _ => .other
  | n + 1, t =>
    match t with
    | .atom (.sym .type0) => .type0
    | .atom (.sym (.typeclass m l)) => .tc (m, l)
    | .atom (.fvar i) =>
      match Γ.get i with
      | some T => kindOf Γ n T
      | none => .other
    | _ => .other

/-- `resolve_type_constraint_kind` with enough fuel. -/
def kind (Γ : LCtx) (t : Term) : CKind := kindOf Γ (Γ.length + 1) t

/-- Does an argument of a type constructor fit its declared kind (unifier.rs:152-161)?  `p` says whether the
argument is a proper type expression. -/
def argFits (kind arg : Term) (p : Bool) : Bool :=
  if kind.isType0 || kind.asTypeclass.isSome then p else !arg.isType0

/-- The application case of `is_proper_type_expr` (unifier.rs:137-162): walk down the spine with the
arguments seen so far.  `args` are pairs of an argument and whether it is a proper type expression.
(The arity is the number of recorded kinds, type_store.rs:478-494, so the case "no recorded kinds" cannot
occur.) -/
def properSpine (K : KCtx) : Term → List (Term × Bool) → Bool
  | .atom (.sym (.type m l)), args =>
    decide (args.length = (K.paramKinds (m, l)).length) &&
      (args.zip (K.paramKinds (m, l))).all fun p => argFits p.2 p.1.1 p.1.2
  | _, _ => false

/-- `is_proper_type_expr` (unifier.rs:121-166), for a term applied to already classified arguments. -/
def proper (K : KCtx) (Γ : LCtx) : Term → List (Term × Bool) → Bool
  | .app f a, args => proper K Γ f ((a, proper K Γ a []) :: args)
  | .atom a, args =>
    if args.isEmpty then
      match a with
      | .sym .bool => true
      | .sym (.type m l) => (K.paramKinds (m, l)).isEmpty
      | .fvar i =>
        match Γ.get i with
        | some T => !decide (kind Γ T = .other)
        | none => false
      | _ => false
    else properSpine K (.atom a) args
  | .bind .pi A _, args => args.isEmpty && !A.isTypeParamKind
  | .bind _ _ _, _ => false

/-- The tests common to `enforce_typeclass_constraint_on_type_expr` and the rigid version
(unifier.rs:213-227, 288-302): the expression is not a sort, a function type, a lambda or `Bool`. -/
def classArgShape (t : Term) : Bool :=
  !t.isType0 && !t.isBoolType &&
    match t with
    | .bind .pi _ _ | .bind .lam _ _ => false
    | _ => true

/-- `enforce_typeclass_constraint_on_type_expr` (unifier.rs:208-281): the verdict and the new output
context, in which the constraint of a variable may have been strengthened. -/
def enforce (K : KCtx) (Γ : LCtx) (c : Id2) (t : Term) : Bool × LCtx :=
  if !classArgShape t then (false, Γ)
  else if K.isInst Γ t c then (true, Γ)
  else
    match t.atomicVariable with
    | none => (false, Γ)
    | some v =>
      match Γ.get v with
      | none => (false, Γ)
      | some T =>
        match kind Γ T with
        | .tc a =>
          if a = c then (true, Γ)
          else if !K.tcExtends a c && !K.tcExtends c a then (false, Γ)
          else if K.tcExtends c a && !K.tcExtends a c then
            (true, setSlot Γ v (.sym (.typeclass c.1 c.2)))
          else (true, Γ)
        | .type0 => (true, setSlot Γ v (.sym (.typeclass c.1 c.2)))
        | .other => (false, Γ)

/-- `type_expr_satisfies_typeclass_constraint_rigid` (unifier.rs:283-327). -/
def rigid (K : KCtx) (Γ : LCtx) (c : Id2) (t : Term) : Bool :=
  classArgShape t &&
    (K.isInst Γ t c ||
      match t.atomicVariable with
      | none => false
      | some v =>
        match Γ.get v with
        | none => false
        | some T =>
          match kind Γ T with
          | .tc a => decide (a = c) || K.tcExtends a c
          | _ => false)

/-- The expression whose class membership is tested (unifier.rs:190-197, 346-352). -/
def classArg (t T : Term) : Term := if T.isType0 || T.asTypeclass.isSome then t else T

/-- The loop over the variables of the term in `remap` (unifier.rs:603-615): a variable of the term whose
type mentions `id` gets the type of `id` there instead. -/
def untangle (id : Nat) (idType : Term) (Γ : LCtx) (v : Nat) : LCtx :=
  match Γ.get v with
  | none => Γ
  | some T => if T.hasVar id then setSlot Γ v (Term.replaceVar id idType T) else Γ

/-- The output context after `remap` (unifier.rs:601-618). -/
def remapOut (Γ : LCtx) (id : Nat) (t : Term) : LCtx :=
  let Γ1 := match Γ.get id with
    | none => Γ
    | some T => t.fvars.foldl (untangle id T) Γ
  Γ1.map (Option.map (Term.replaceVar id t))

/-- The effect of a successful `remap` (unifier.rs:588-620). -/
def remapTo (st : UState) (id : Nat) (t : Term) : UState :=
  let maps := fun s => (st.maps s).map (Option.map (Term.replaceVar id t))
  { st with
    maps := fun s => if s = 0 then setSlot (maps 0) id t else maps s
    out := remapOut st.out id t }

/-- The answer of a unification step: `none` is a panic, missing fuel or a cut-off run, otherwise the
Boolean result and the state left behind. -/
abbrev Res := Option (Bool × UState)

/-- The Rust `&&` between two steps. -/
def andThen (r : Res) (k : UState → Res) : Res :=
  match r with
  | none => none
  | some (false, st) => some (false, st)
  | some (true, st) => k st

/-- Two attempts on clones of the unifier (unifier.rs:940-961): the second starts from the old state, and
if both fail the old state remains. -/
def orElse (st : UState) (r1 r2 : Res) : Res :=
  match r1 with
  | none => none
  | some (true, st') => some (true, st')
  | some (false, _) =>
    match r2 with
    | none => none
    | some (true, st') => some (true, st')
    | some (false, _) => some (false, st)

/-- `unify_atoms` for atoms that are not free variables (unifier.rs:719-734): equal, or a typeclass
against `Type0`. -/
def atomsAgree (a b : Atom) : Bool :=
  decide (a = b) ||
    match a, b with
    | .sym (.typeclass _ _), .sym .type0 => true
    | .sym .type0, .sym (.typeclass _ _) => true
    | _, _ => false

mutual

/-- `unify_internal` (unifier.rs:923-990).  The calls are mutually recursive without an obvious measure,
so they carry fuel. -/
def unify (K : KCtx) : Nat → UState → Nat → Term → Nat → Term → Res
  | 0, _, _, _, _, _ => none
  | n + 1, st, s1, t1, s2, t2 =>
    match t1, t2 with
    | .atom (.fvar i), t2 => unifyVar K n st s1 i s2 t2
    | t1, .atom (.fvar i) => unifyVar K n st s2 i s1 t1
    | .app (.app (.app (.atom (.sym .eq_)) T) a) b, .app (.app (.app (.atom (.sym .eq_)) T') a') b' =>
      orElse st
        (andThen (unify K n st s1 T s2 T') fun st1 => andThen (unify K n st1 s1 a s2 a') fun st2 =>
          unify K n st2 s1 b s2 b')
        (andThen (unify K n st s1 T s2 T') fun st1 => andThen (unify K n st1 s1 a s2 b') fun st2 =>
          unify K n st2 s1 b s2 a')
    | .atom a, .atom b => some (atomsAgree a b, st)
    | .app f a, .app f' a' =>
      andThen (unify K n st s1 f s2 f') fun st1 => unify K n st1 s1 a s2 a'
    | .bind c A B, .bind c' A' B' =>
      if c = c' then andThen (unify K n st s1 A s2 A') fun st1 => unify K n st1 s1 B s2 B'
      else some (false, st)
    | _, _ => some (false, st)

/-- `unify_variable` (unifier.rs:624-707).  If unifying the types has already bound the input variable, the
code overwrites that binding; the model cuts the run off there (`none`). -/
def unifyVar (K : KCtx) : Nat → UState → Nat → Nat → Nat → Term → Res
  | 0, _, _, _, _, _ => none
  | n + 1, st, vs, i, ts, t =>
    if ts ≠ 0 then
      match apply n st ts t with
      | none => none
      | some (t', st1) => unifyVar K n st1 vs i 0 t'
    else
      match (st.maps vs).get i with
      | some e => unify K n st 0 e 0 t
      | none =>
        if vs = 0 then
          if t = .fvar i then some (true, st)
          else if t.hasVar i then some (false, st)
          else if t.escapes then some (false, st)
          else
            match st.out.get i with
            | some T => andThen (compatible K n st 0 T t) fun st1 => remap K n st1 i t
            | none => remap K n st i t
        else
          match (ctxOf st vs).bind fun Γ => Γ.get i with
          | none => none
          | some T =>
            if t.escapes then some (false, st)
            else
              andThen (compatible K n st vs T t) fun st1 =>
                match apply n st1 0 t with
                | none => none
                | some (t', st2) =>
                  if ((st2.maps vs).get i).isSome then none
                  else some (true, setMap st2 vs i t')

/-- `binding_type_is_compatible` (unifier.rs:172-206). -/
def compatible (K : KCtx) : Nat → UState → Nat → Term → Term → Res
  | 0, _, _, _, _ => none
  | n + 1, st, vs, T, t =>
    if T.isType0 then some (!t.isType0 && proper K st.out t [], st)
    else
      match t.getType K st.out with
      | none => none
      | some S =>
        match T.asTypeclass with
        | some c =>
          some ((enforce K st.out c (classArg t S)).1, { st with out := (enforce K st.out c (classArg t S)).2 })
        | none => unify K n st vs T 0 S

/-- `remap` (unifier.rs:572-620).  If the variable is already bound (by unifying the types), the code
overwrites the binding; the model cuts the run off there (`none`). -/
def remap (K : KCtx) : Nat → UState → Nat → Term → Res
  | 0, _, _, _ => none
  | n + 1, st, i, t =>
    match t.atomicVariable with
    | some j =>
      if i < j then unifyVar K n st 0 j 0 (.fvar i)
      else remapNow n st i t
    | none => remapNow n st i t
where
  /-- The part of `remap` after the exchange of two variables (unifier.rs:582-620). -/
  remapNow (n : Nat) (st : UState) (i : Nat) (t : Term) : Res :=
    match apply n st 0 t with
    | none => none
    | some (t', st1) =>
      if t'.hasVar i then some (false, st1)
      else if ((st1.maps 0).get i).isSome then none
      else some (true, remapTo st1 i t')

end

mutual

/-- `match_instance_internal` (unifier.rs:823-920) with `match_instance_atoms` (unifier.rs:810-821). -/
def matchInst (K : KCtx) : Nat → UState → Nat → Term → Nat → Term → Res
  | 0, _, _, _, _, _ => none
  | n + 1, st, ps, p, s, t =>
    match p, t with
    | .atom (.fvar i), t => matchInstVar K n st ps i s t
    | .atom a, .atom b => some (decide (a = b) || instanceAtoms a b, st)
    | .app f a, .app f' a' =>
      andThen (matchInst K n st ps f s f') fun st1 => matchInst K n st1 ps a s a'
    | .bind c A B, .bind c' A' B' =>
      if c = c' then andThen (matchInst K n st ps A s A') fun st1 => matchInst K n st1 ps B s B'
      else some (false, st)
    | _, _ => some (false, st)
where
  /-- The sort `Type0` in a pattern stands for any typeclass (unifier.rs:814-820). -/
  instanceAtoms (a b : Atom) : Bool :=
    match a, b with
    | .sym .type0, .sym (.typeclass _ _) => true
    | _, _ => false

/-- `match_instance_variable` (unifier.rs:782-808).  As in `unifyVar`, a run that would overwrite a
binding is cut off. -/
def matchInstVar (K : KCtx) : Nat → UState → Nat → Nat → Nat → Term → Res
  | 0, _, _, _, _, _ => none
  | n + 1, st, ps, i, s, t =>
    match apply n st s t with
    | none => none
    | some (t', st1) =>
      match (st1.maps ps).get i with
      | some e => some (decide (e = t'), st1)
      | none =>
        if t'.escapes then some (false, st1)
        else
          match (ctxOf st1 ps).bind fun Γ => Γ.get i with
          | none => none
          | some T =>
            andThen (matchesInstance K n st1 ps T t') fun st2 =>
              if ((st2.maps ps).get i).isSome then none
              else some (true, setMap st2 ps i t')

/-- `binding_type_matches_instance` (unifier.rs:329-358). -/
def matchesInstance (K : KCtx) : Nat → UState → Nat → Term → Term → Res
  | 0, _, _, _, _ => none
  | n + 1, st, vs, T, t =>
    if T.isType0 then some (!t.isType0 && proper K st.out t [], st)
    else
      match t.getType K st.out with
      | none => none
      | some S =>
        match T.asTypeclass with
        | some c => some (rigid K st.out c (classArg t S), st)
        | none => matchInst K n st vs T 0 S

end

/-- `apply_to_literal` (unifier.rs:562-566): the literal, without the flag that says whether its sides were
exchanged. -/
def applyLit (n : Nat) (st : UState) (s : Nat) (l : Literal) : Option (Literal × UState) :=
  match apply n st s l.left with
  | none => none
  | some (a, st1) =>
    match apply n st1 s l.right with
    | none => none
    | some (b, st2) => some (Literal.new l.positive a b, st2)

/-- `unify_literals` (unifier.rs:993-1028). -/
def unifyLits (K : KCtx) (n : Nat) (st : UState) (s1 : Nat) (l1 : Literal) (s2 : Nat) (l2 : Literal)
    (flipped : Bool) : Res :=
  if flipped then
    andThen (unify K n st s1 l1.right s2 l2.left) fun st1 => unify K n st1 s1 l1.left s2 l2.right
  else
    andThen (unify K n st s1 l1.left s2 l2.left) fun st1 => unify K n st1 s1 l1.right s2 l2.right

/-- The loop of `unify_clauses` (unifier.rs:1039-1043). -/
def unifyAll (K : KCtx) (n : Nat) : UState → List Literal → List Literal → Res
  | st, l :: ls, r :: rs => andThen (unifyLits K n st 1 l 2 r false) fun st1 => unifyAll K n st1 ls rs
  | st, _, _ => some (true, st)

/-- `unify_clauses` (unifier.rs:1032-1045): signs are not compared. -/
def unifyClauses (K : KCtx) (n : Nat) (c d : Clause) : Option Bool :=
  if c.lits.length ≠ d.lits.length then some false
  else (unifyAll K n (init fun s => if s = 1 then some c.ctx else if s = 2 then some d.ctx else none)
    c.lits d.lits).map Prod.fst

end Unifier
end Acorn
