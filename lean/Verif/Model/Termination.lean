/-
Model of `elaborator/termination_checker.rs`: the check that a recursive definition terminates.

`AcornValue` (elaborator/acorn_value.rs:727-773) is modelled with its types left out, since the
checker does not read them.  Constants are identified by a number for their name; the hidden value
arguments bound in a constant (`bound_value_args`), which the checker does not visit, are left out.
-/
namespace Acorn.Termination

/-- `AcornValue` (elaborator/acorn_value.rs:727-773) without types.  `Lambda`, `ForAll` and `Exists`
are `binder`, with the number of variables they introduce; a case of a `Match` is the number of its
new variables, its pattern and its result. -/
inductive Val where
  | var (level : Nat)
  | bool (b : Bool)
  | const (name : Nat)
  | tyApp (f : Val)
  | binder (vars : Nat) (body : Val)
  | group (v : Val)
  | not (v : Val)
  | try_ (v : Val)
  | binary (l r : Val)
  | ite (a b c : Val)
  | app (f : Val) (args : List Val)
  | match_ (scrutinee : Val) (cases : List (Nat × Val × Val))
  deriving Repr, Inhabited

/-- `AcornValue::as_name` (acorn_value.rs:3238-3244). -/
def Val.asName : Val → Option Nat
  | .const n => some n
  | .tyApp f => f.asName
  | _ => none

/-- `AcornValue::apply` (acorn_value.rs:1043-1052). -/
def Val.apply (f : Val) (args : List Val) : Val := if args.isEmpty then f else .app f args

mutual
/-- Size of a value, the measure for the recursion of `traverse`. -/
def Val.size : Val → Nat
  | .var _ => 1
  | .bool _ => 1
  | .const _ => 1
  | .tyApp f => f.size + 1
  | .binder _ v => v.size + 1
  | .group v => v.size + 1
  | .not v => v.size + 1
  | .try_ v => v.size + 1
  | .binary l r => l.size + r.size + 1
  | .ite a b c => a.size + b.size + c.size + 1
  | .app f args => f.size + Val.sizes args + 1
  | .match_ s cs => s.size + Val.caseSizes cs + 1
/-- Total size of a list of values. -/
def Val.sizes : List Val → Nat
  | [] => 0
  | v :: vs => v.size + Val.sizes vs + 1
/-- Total size of a list of cases. -/
def Val.caseSizes : List (Nat × Val × Val) → Nat
  | [] => 0
  | (_, p, r) :: cs => p.size + r.size + Val.caseSizes cs + 1
end

theorem Val.sizes_append (as bs : List Val) : Val.sizes (as ++ bs) = Val.sizes as + Val.sizes bs := by
  induction as with
  | nil => simp [Val.sizes]
  | cons a as ih => simp only [List.cons_append, Val.sizes, ih]; omega

theorem Val.size_pos (v : Val) : 0 < v.size := by cases v <;> simp [Val.size]

theorem Val.size_apply (f : Val) (args : List Val) :
    (Val.apply f args).size ≤ f.size + Val.sizes args + 1 := by
  unfold Val.apply
  split
  · omega
  · simp [Val.size]

/-- The test of one argument of a recursive call (termination_checker.rs:103-109): position `i` is
passed a variable `j ≠ i` that was obtained by matching on variable `i`.  `none` is the panic of
`substructure_map[j]` on an unknown level. -/
def strictSub (map : List (Option Nat)) (i : Nat) : Val → Option Bool
  | .var j =>
    if i ≠ j then (map[j]?).map fun s => s == some i else some false
  | _ => some false

/-- The loop over the argument positions of a recursive call (termination_checker.rs:93-111), from
position `i` on. -/
def checkArgs (map : List (Option Nat)) : Nat → List Bool → List Val → Option (List Bool)
  | _, [], _ => some []
  | i, _ :: strict, [] => (checkArgs map (i + 1) strict []).map (false :: ·)
  | i, b :: strict, a :: args =>
    (strictSub map i a).bind fun s => (checkArgs map (i + 1) strict args).map ((b && s) :: ·)

/-- The level of a value if it is a variable (termination_checker.rs:121-124). -/
def Val.asVar : Val → Option Nat
  | .var i => some i
  | _ => none

mutual
/-- `TerminationChecker::traverse` (termination_checker.rs:33-137).  `map` is `substructure_map`,
which the code extends under binders and truncates afterwards, and `strict` is `always_strict_sub`.
`none` is a panic. -/
def traverse (name : Nat) (map : List (Option Nat)) (strict : List Bool) : Val → Option (List Bool)
  | .var _ => some strict
  | .bool _ => some strict
  | .const n => some (if n = name then List.replicate strict.length false else strict)
  | .tyApp f => traverse name map strict f
  | .binder k v => traverse name (map ++ List.replicate k none) strict v
  | .group v => traverse name map strict v
  | .not v => traverse name map strict v
  | .try_ v => traverse name map strict v
  | .binary l r => (traverse name map strict l).bind fun strict => traverse name map strict r
  | .ite a b c => (traverse name map strict a).bind fun strict =>
      (traverse name map strict b).bind fun strict => traverse name map strict c
  | .app (.app f as) bs => traverse name map strict (Val.apply f (as ++ bs))
  | .app f args =>
      (if f.asName = some name then checkArgs map 0 strict args else traverse name map strict f).bind
        fun strict => traverseAll name map strict args
  | .match_ s cs => (traverse name map strict s).bind fun strict =>
      traverseCases name map strict s.asVar cs
termination_by v => v.size
decreasing_by
  all_goals simp only [Val.size]
  all_goals try omega
  have := Val.size_apply f (as ++ bs)
  rw [Val.sizes_append] at this
  omega
/-- The loop over the arguments (termination_checker.rs:115-117). -/
def traverseAll (name : Nat) (map : List (Option Nat)) (strict : List Bool) :
    List Val → Option (List Bool)
  | [] => some strict
  | v :: vs => (traverse name map strict v).bind fun strict => traverseAll name map strict vs
termination_by vs => Val.sizes vs
decreasing_by all_goals simp only [Val.sizes]; omega
/-- The loop over the cases of a match (termination_checker.rs:126-133). -/
def traverseCases (name : Nat) (map : List (Option Nat)) (strict : List Bool)
    (sup : Option Nat) : List (Nat × Val × Val) → Option (List Bool)
  | [] => some strict
  | (k, p, r) :: cs =>
    (traverse name (map ++ List.replicate k sup) strict p).bind fun strict =>
    (traverse name (map ++ List.replicate k sup) strict r).bind fun strict =>
    traverseCases name map strict sup cs
termination_by cs => Val.caseSizes cs
decreasing_by all_goals simp only [Val.caseSizes]; omega
end

/-- `TerminationChecker::new` and `check` (termination_checker.rs:23-31,139-144), for a function
called `name` with `n` arguments. -/
def check (name n : Nat) (body : Val) : Option Bool :=
  (traverse name ((List.range n).map some) (List.replicate n true) body).map fun strict =>
    strict.contains true

end Acorn.Termination
