/-
C38: local scopes restore exactly.
-/
import Mathlib.Data.List.Forall2
import Verif.Spec.Stack
import Verif.Lemmas.Stack
namespace Acorn
open Spec
variable {T : Type}

/-- C38: after any history of opening scopes (successfully or not) and closing them, the stack shows
exactly the variables of the open scopes: their number, their names and types in order of declaration,
whatever order the hash map is iterated in, and for each name the level and type of its declaration. -/
theorem C38_stack_exact {c : Scopes T} (h : ScopeRun ⟨Stack.new, []⟩ c) (hl : c.declared.length ≤ 65536) :
    (c.declared.map Prod.fst).Nodup ∧
    c.stack.len = c.declared.length ∧
    (∀ name i t, c.stack.get name = some (i, t) ↔ c.declared[i]? = some (name, t)) ∧
    (∀ order, order.Perm c.stack.vars.entries →
      c.stack.names order = some (c.declared.map Prod.fst) ∧ c.stack.entries order = some c.declared) := by
  have hr : c.stack.Rep c.declared := scopeRun_rep h Stack.Rep.new
  refine ⟨hr.nodup, hr.len, fun name i t => ?_, fun order ho => ⟨?_, ?_⟩⟩
  · rw [hr.get]
    have hlt : ∀ {k : Nat}, c.declared[k]? = some (name, t) → k % 65536 = k := fun hk =>
      Nat.mod_eq_of_lt (by have := (List.getElem?_eq_some_iff.mp hk).1; omega)
    constructor
    · rintro ⟨k, hk, rfl⟩
      rw [hlt hk]
      exact hk
    · intro hk
      exact ⟨i, hk, (hlt hk).symm⟩
  · rw [Stack.names, hr.fill hl _ _ ho]
  · rw [Stack.entries, hr.fill hl _ _ ho, Option.bind_some]
    have := unwrapAll_some c.declared
    simpa using this

/-- C38: whatever happens between two moments with the same open scopes, every name means the same at both;
in particular opening a scope, any balanced history inside it, and closing it, and also a failed attempt to
open a scope, leave the stack as it was. -/
theorem C38_restores {c c' : Scopes T} (h : ScopeRun ⟨Stack.new, []⟩ c) (h' : ScopeRun c c')
    (ho : c'.opened = c.opened) :
    (∀ name, c'.stack.get name = c.stack.get name) ∧ c'.stack.len = c.stack.len := by
  have hr : c.stack.Rep c.declared := scopeRun_rep h Stack.Rep.new
  have hr' : c'.stack.Rep c'.declared := scopeRun_rep h' hr
  have hd : c'.declared = c.declared := by simp only [Scopes.declared, ho]
  rw [hd] at hr'
  refine ⟨fun name => ?_, by rw [hr.len, hr'.len]⟩
  apply AMap.ext_get?
  rintro ⟨i, t⟩
  rw [hr.get, hr'.get]

/-- C38: binding an argument list that succeeds declares exactly its names, in order, each new to the
stack; the stack then grows by exactly these. -/
theorem C38_bind {c : Scopes T} (h : ScopeRun ⟨Stack.new, []⟩ c) (free : Available) (shadow : Bool)
    (ds : List (Decl T)) {s' : Stack T} {bound : List (String × T)}
    (hb : bindArgs free none shadow ds c.stack = (s', some bound)) :
    List.Forall₂ (fun d p => ∃ type s, d = Decl.typed p.1 type ∧ type s = some p.2) ds bound ∧
    (∀ p ∈ bound, c.stack.get p.1 = none ∧ (shadow = false → free p.1 = true)) ∧
    s'.len = c.stack.len + bound.length := by
  have hr : c.stack.Rep c.declared := scopeRun_rep h Stack.Rep.new
  have hstep := scopeStep_rep (ScopeStep.args c free none shadow ds (by simp)) hr
  rw [hb] at hstep
  have hlen : s'.len = c.stack.len + bound.length := by
    have := hstep.len
    simpa [Scopes.after, Scopes.declared, hr.len] using this
  refine ⟨?_, ?_, hlen⟩
  · have key : ∀ (ds : List (Decl T)) (i : Nat) (s : Stack T) (b r : List (String × T)) (s' : Stack T),
        bindLoop free none shadow ds i s b = (s', r, true) → ∃ b', r = b ++ b' ∧
        List.Forall₂ (fun d p => ∃ type s, d = Decl.typed p.1 type ∧ type s = some p.2) ds b' := by
      intro ds
      induction ds with
      | nil => intro i s b r s' e; simp only [bindLoop, Prod.mk.injEq] at e; exact ⟨[], by simp [e.2.1], .nil⟩
      | cons d ds ih =>
        intro i s b r s' e
        rw [bindLoop.eq_def] at e
        cases d with
        | selfToken => simp at e
        | typed name type =>
          dsimp only at e
          cases ht : type s with
          | none => rw [ht] at e; simp at e
          | some t =>
            rw [ht] at e
            dsimp only at e
            split at e
            · simp at e
            · split at e
              · simp at e
              · split at e
                · simp at e
                · obtain ⟨b', rfl, hf⟩ := ih _ _ _ _ _ e
                  exact ⟨(name, t) :: b', by simp, .cons ⟨type, s, rfl, ht⟩ hf⟩
    simp only [bindArgs] at hb
    generalize hx : bindLoop free none shadow ds 0 c.stack [] = x at hb
    obtain ⟨s1, b1, ok⟩ := x
    cases ok with
    | false => simp at hb
    | true =>
      simp only [if_true, Prod.mk.injEq, Option.some.injEq] at hb
      obtain ⟨rfl, rfl⟩ := hb
      obtain ⟨b', he, hf⟩ := key _ _ _ _ _ _ hx
      simp only [List.nil_append] at he
      subst he
      exact hf
  · intro p hp
    have hnd := hstep.nodup
    simp only [Scopes.after, Scopes.declared, List.reverse_cons, List.flatten_append, List.flatten_cons,
      List.flatten_nil, List.append_nil, List.map_append, List.nodup_append] at hnd
    refine ⟨?_, ?_⟩
    · cases hg : c.stack.get p.1 with
      | none => rfl
      | some v =>
        obtain ⟨i, t⟩ := v
        obtain ⟨k, hk, -⟩ := hr.get.mp hg
        have h1 : p.1 ∈ c.declared.map Prod.fst := List.mem_map.mpr ⟨_, List.mem_of_getElem? hk, rfl⟩
        exact absurd rfl (hnd.2.2 _ h1 _ (List.mem_map_of_mem hp))
    · intro hs
      subst hs
      have key : ∀ (ds : List (Decl T)) (i : Nat) (s : Stack T) (b r : List (String × T)) (s' : Stack T) (ok : Bool),
          (∀ q ∈ b, free q.1 = true) →
          bindLoop free none false ds i s b = (s', r, ok) → ∀ q ∈ r, free q.1 = true := by
        intro ds
        induction ds with
        | nil => intro i s b r s' ok hq e; simp only [bindLoop, Prod.mk.injEq] at e; rw [← e.2.1]; exact hq
        | cons d ds ih =>
          intro i s b r s' ok hq e
          rw [bindLoop.eq_def] at e
          cases d with
          | selfToken => simp only [Prod.mk.injEq] at e; rw [← e.2.1]; exact hq
          | typed name type =>
            dsimp only at e
            cases ht : type s with
            | none => rw [ht] at e; simp only [Prod.mk.injEq] at e; rw [← e.2.1]; exact hq
            | some t =>
              rw [ht] at e
              dsimp only at e
              split at e
              · simp only [Prod.mk.injEq] at e; rw [← e.2.1]; exact hq
              · rename_i hfree
                split at e
                · simp only [Prod.mk.injEq] at e; rw [← e.2.1]; exact hq
                · split at e
                  · simp only [Prod.mk.injEq] at e; rw [← e.2.1]; exact hq
                  · refine ih _ _ _ _ _ _ ?_ e
                    intro q hm
                    rcases List.mem_append.mp hm with hm | hm
                    · exact hq q hm
                    · simp only [List.mem_singleton] at hm
                      subst hm
                      simpa using hfree
      simp only [bindArgs] at hb
      generalize hx : bindLoop free none false ds 0 c.stack [] = x at hb
      obtain ⟨s1, b1, ok⟩ := x
      cases ok with
      | false => simp at hb
      | true =>
        simp only [if_true, Prod.mk.injEq, Option.some.injEq] at hb
        obtain ⟨rfl, rfl⟩ := hb
        exact key _ _ _ _ _ _ _ (by simp) hx p hp

/-- C38: the operations of the stack alone do not keep levels dense: inserting a name twice leaves a level
beyond the number of variables, and listing the names then fails.  The callers check for this. -/
theorem C38_insert_twice_not_dense (t : T) :
    let s := ((Stack.new.insert "x" t).1.insert "x" t).1
    s.len = 1 ∧ s.get "x" = some (1, t) ∧ s.names s.vars.entries = none := by
  refine ⟨rfl, rfl, rfl⟩

/-! ### Concrete case -/

namespace StackDemo

def free : Available := fun n => n != "zero"
def ty (n : Nat) : Stack Nat → Option Nat := fun _ => some n
def c0 : Scopes Nat := ⟨Stack.new, []⟩
/-- Binds `x` and `y`. -/
def c1 : Scopes Nat := c0.after (bindArgs free none false [.typed "x" (ty 1), .typed "y" (ty 2)] c0.stack)
/-- Fails after binding `u`: `x` is already bound. -/
def c2 : Scopes Nat := c1.after (bindArgs free none false [.typed "u" (ty 1), .typed "x" (ty 2)] c1.stack)
/-- A pattern. -/
def c3 : Scopes Nat := c2.after (bindPattern (fun _ => false) [("a", 3), ("b", 4)] c2.stack)

theorem run : ScopeRun c0 c3 :=
  .step (.step (.step (.refl _) (.args c0 free none false _ (by simp))) (.args c1 free none false _ (by simp)))
    (.pattern c2 _ _ (by decide))

example : c2.opened = c1.opened := by decide +kernel
example : c3.declared = [("x", 1), ("y", 2), ("a", 3), ("b", 4)] := by decide +kernel
example : c3.stack.entries c3.stack.vars.entries = some [("x", 1), ("y", 2), ("a", 3), ("b", 4)] := by
  decide +kernel

end StackDemo

end Acorn
