import Verif.Model.AMap
/-
Model of the stack of local variables (elaborator/stack.rs) and of the code that opens and closes scopes
(elaborator/evaluator.rs).
-/
namespace Acorn

/-- `Stack` (elaborator/stack.rs:16-19).  `T` stands for `AcornType`. -/
structure Stack (T : Type) where
  vars : AMap String (Nat × T)

namespace Stack
variable {T : Type}

/-- `Stack::new` (stack.rs:22-26). -/
def new : Stack T := ⟨AMap.empty⟩

/-- `Stack::len` (stack.rs:50-52). -/
def len (s : Stack T) : Nat := s.vars.entries.length

/-- The loop shared by `Stack::names` and `Stack::entries`: writes each entry at its level; `none` is an
index out of bounds. -/
def fill {α : Type} (f : String → T → α) (answer : List α) : List (String × Nat × T) → Option (List α)
  | [] => some answer
  | (name, i, t) :: es => if i < answer.length then fill f (answer.set i (f name t)) es else none

/-- `Stack::names` (stack.rs:28-34).  The map is iterated in the order `order`, a permutation of its
entries; `none` is a panic. -/
def names (s : Stack T) (order : List (String × Nat × T)) : Option (List String) :=
  fill (fun n _ => n) (List.replicate s.len "") order

/-- `Option::unwrap` of every element; `none` is a panic. -/
def unwrapAll {α : Type} : List (Option α) → Option (List α)
  | [] => some []
  | none :: _ => none
  | some a :: l => (unwrapAll l).map (a :: ·)

/-- `Stack::entries` (stack.rs:36-42). -/
def entries (s : Stack T) (order : List (String × Nat × T)) : Option (List (String × T)) :=
  (fill (fun n t => some (n, t)) (List.replicate s.len none) order).bind unwrapAll

/-- `Stack::insert` (stack.rs:44-48); the level is cast to `AtomId`, that is `u16`. -/
def insert (s : Stack T) (name : String) (t : T) : Stack T × Nat :=
  let i := s.len % 65536
  (⟨s.vars.insert name (i, t)⟩, i)

/-- `Stack::remove` (stack.rs:54-56). -/
def remove (s : Stack T) (name : String) : Stack T := ⟨s.vars.erase name⟩

/-- `Stack::remove_all` (stack.rs:58-62). -/
def removeAll (s : Stack T) (names : List String) : Stack T := names.foldl remove s

/-- `Stack::get` (stack.rs:65-67). -/
def get (s : Stack T) (name : String) : Option (Nat × T) := s.vars.get? name

end Stack

/-- `Declaration` (syntax/expression.rs).  A typed declaration carries the evaluation of its type in the
current stack (`evaluate_type_with_stack`), which may fail. -/
inductive Decl (T : Type) where
  | selfToken
  | typed (name : String) (type : Stack T → Option T)

/-- Model of the bindings: which unqualified names are available
(`check_unqualified_name_available`). -/
abbrev Available := String → Bool

variable {T : Type}

/-- The loop of `bind_args_internal` (evaluator.rs:1455-1499).  `bound` holds the vectors `names` and
`types`, which always have the same length, as pairs.  The last component tells success. -/
def bindLoop (free : Available) (datatypeType : Option T) (allowShadowing : Bool) :
    List (Decl T) → Nat → Stack T → List (String × T) → Stack T × List (String × T) × Bool
  | [], _, s, bound => (s, bound, true)
  | d :: ds, i, s, bound =>
    match datatypeType, i, d with
    | some selfType, 0, .selfToken =>
      bindLoop free datatypeType allowShadowing ds (i + 1) (s.insert "self" selfType).1
        (bound ++ [("self", selfType)])
    | some _, 0, .typed _ _ => (s, bound, false)
    | _, _, .selfToken => (s, bound, false)
    | _, _, .typed name type =>
      match type s with
      | none => (s, bound, false)
      | some t =>
        if !allowShadowing && !free name then (s, bound, false)
        else if (bound.map Prod.fst).contains name then (s, bound, false)
        else if (s.get name).isSome then (s, bound, false)
        else bindLoop free datatypeType allowShadowing ds (i + 1) (s.insert name t).1 (bound ++ [(name, t)])

/-- `bind_args_internal` (evaluator.rs:1442-1506): the new stack, and the names and types or `none` for an
error. -/
def bindArgs (free : Available) (datatypeType : Option T) (allowShadowing : Bool) (ds : List (Decl T))
    (s : Stack T) : Stack T × Option (List (String × T)) :=
  let (s', bound, ok) := bindLoop free datatypeType allowShadowing ds 0 s []
  if ok then (s', some bound) else (s'.removeAll (bound.map Prod.fst), none)

/-- Binding the arguments of a pattern in a match case (evaluator.rs:2958-2967, 3846-3857), of a local
destructuring (2767-2782) or of a local satisfy or let (2513-2518, 2668-2670): the names are checked to be
new to the stack, then inserted.  `alias` models `has_local_alias`. -/
def bindPattern (alias : String → Bool) (args : List (String × T)) (s : Stack T) :
    Stack T × Option (List (String × T)) :=
  if args.any fun a => (s.get a.1).isSome || alias a.1 then (s, none)
  else (args.foldl (fun s a => (s.insert a.1 a.2).1) s, some args)

end Acorn
