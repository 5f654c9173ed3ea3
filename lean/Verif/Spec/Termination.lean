import Verif.Model.Termination
/-
Which recursive calls the evaluation of a value can make.

The meaning of values is left open: `ev env v` is any assignment of data to values that reads a
variable from the environment.  `lt` is the strict substructure relation on data.
-/
namespace Acorn.Spec
open Termination

universe u
variable {D : Type u}

/-- `Calls lt ev name env v pending args`: evaluating `v` in the environment `env`, where the result
is applied to the arguments `pending`, may call the function `name` on `args`.  Uses of `name`
without arguments count as a call on no arguments.  Bound variables take any value, and the variables
of a `match` case take strict substructures of the scrutinee. -/
inductive Calls (lt : D → D → Prop) (ev : List D → Val → D) (name : Nat) :
    List D → Val → List D → List D → Prop
  | call {env p} : Calls lt ev name env (.const name) p p
  | tyApp {env f p ys} : Calls lt ev name env f p ys → Calls lt ev name env (.tyApp f) p ys
  | group {env v p ys} : Calls lt ev name env v p ys → Calls lt ev name env (.group v) p ys
  | fn {env f args p ys} : Calls lt ev name env f (args.map (ev env) ++ p) ys →
      Calls lt ev name env (.app f args) p ys
  | arg {env f args p a ys} : a ∈ args → Calls lt ev name env a [] ys →
      Calls lt ev name env (.app f args) p ys
  | binder {env k v p ys ds} : ds.length = k → Calls lt ev name (env ++ ds) v [] ys →
      Calls lt ev name env (.binder k v) p ys
  | not {env v p ys} : Calls lt ev name env v [] ys → Calls lt ev name env (.not v) p ys
  | try_ {env v p ys} : Calls lt ev name env v [] ys → Calls lt ev name env (.try_ v) p ys
  | binaryL {env l r p ys} : Calls lt ev name env l [] ys → Calls lt ev name env (.binary l r) p ys
  | binaryR {env l r p ys} : Calls lt ev name env r [] ys → Calls lt ev name env (.binary l r) p ys
  | iteA {env a b c p ys} : Calls lt ev name env a [] ys → Calls lt ev name env (.ite a b c) p ys
  | iteB {env a b c p ys} : Calls lt ev name env b [] ys → Calls lt ev name env (.ite a b c) p ys
  | iteC {env a b c p ys} : Calls lt ev name env c [] ys → Calls lt ev name env (.ite a b c) p ys
  | scrutinee {env s cs p ys} : Calls lt ev name env s [] ys → Calls lt ev name env (.match_ s cs) p ys
  | pattern {env s cs p ys k pat res ds} : (k, pat, res) ∈ cs → ds.length = k →
      (∀ d ∈ ds, lt d (ev env s)) → Calls lt ev name (env ++ ds) pat [] ys →
      Calls lt ev name env (.match_ s cs) p ys
  | result {env s cs p ys k pat res ds} : (k, pat, res) ∈ cs → ds.length = k →
      (∀ d ∈ ds, lt d (ev env s)) → Calls lt ev name (env ++ ds) res [] ys →
      Calls lt ev name env (.match_ s cs) p ys

/-- Computing the function on `xs` may need its value on `xs'`: the body calls it on some arguments,
and `xs'` starts with them (a call may supply only the first arguments). -/
def CallsOn (lt : D → D → Prop) (ev : List D → Val → D) (name : Nat) (body : Val) (xs' xs : List D) : Prop :=
  ∃ ys, Calls lt ev name xs body [] ys ∧ ys <+: xs'

mutual
/-- The value only uses variables below `k` and those it binds itself, numbered by stack level. -/
def Scoped (k : Nat) : Val → Prop
  | .var j => j < k
  | .bool _ => True
  | .const _ => True
  | .tyApp f => Scoped k f
  | .binder m v => Scoped (k + m) v
  | .group v => Scoped k v
  | .not v => Scoped k v
  | .try_ v => Scoped k v
  | .binary l r => Scoped k l ∧ Scoped k r
  | .ite a b c => Scoped k a ∧ Scoped k b ∧ Scoped k c
  | .app f args => Scoped k f ∧ ScopedAll k args
  | .match_ s cs => Scoped k s ∧ ScopedCases k cs
/-- All the values are scoped. -/
def ScopedAll (k : Nat) : List Val → Prop
  | [] => True
  | v :: vs => Scoped k v ∧ ScopedAll k vs
/-- All the cases are scoped, given their new variables. -/
def ScopedCases (k : Nat) : List (Nat × Val × Val) → Prop
  | [] => True
  | (m, p, r) :: cs => Scoped (k + m) p ∧ Scoped (k + m) r ∧ ScopedCases k cs
end

end Acorn.Spec
