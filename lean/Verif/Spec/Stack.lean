import Verif.Model.Stack
/-
Histories of scope operations.
-/
namespace Acorn.Spec
variable {T : Type}

/-- The stack together with the variables declared by each open scope, innermost scope first. -/
structure Scopes (T : Type) where
  stack : Stack T
  opened : List (List (String × T))

/-- The variables declared by the open scopes, in order of declaration. -/
def Scopes.declared (c : Scopes T) : List (String × T) := c.opened.reverse.flatten

/-- What an attempt to open a scope leaves behind: an error opens no scope. -/
def Scopes.after (c : Scopes T) (r : Stack T × Option (List (String × T))) : Scopes T :=
  match r.2 with
  | some bound => ⟨r.1, bound :: c.opened⟩
  | none => ⟨r.1, c.opened⟩

/-- One operation of the evaluator on its scopes. -/
inductive ScopeStep : Scopes T → Scopes T → Prop where
  /-- Binds an argument list.  With a datatype the first argument is `self`; the evaluator binds member
  functions in a stack without `self`. -/
  | args (c : Scopes T) (free : Available) (datatypeType : Option T) (shadow : Bool) (ds : List (Decl T))
      (hself : datatypeType.isSome → ∀ p ∈ c.declared, p.1 ≠ "self") :
      ScopeStep c (c.after (bindArgs free datatypeType shadow ds c.stack))
  /-- Binds the arguments of a pattern, which are pairwise different (evaluator.rs:1606-1612). -/
  | pattern (c : Scopes T) (alias : String → Bool) (args : List (String × T)) (hd : (args.map Prod.fst).Nodup) :
      ScopeStep c (c.after (bindPattern alias args c.stack))
  /-- Leaves the innermost scope, whether its body was elaborated or failed. -/
  | leave (stack : Stack T) (bound : List (String × T)) (opened : List (List (String × T))) :
      ScopeStep ⟨stack, bound :: opened⟩ ⟨stack.removeAll (bound.map Prod.fst), opened⟩

/-- Any history of operations. -/
inductive ScopeRun : Scopes T → Scopes T → Prop where
  | refl (c : Scopes T) : ScopeRun c c
  | step {a b c : Scopes T} : ScopeRun a b → ScopeStep b c → ScopeRun a c

end Acorn.Spec
