import Verif.Spec.Stack
/-
Lemmas about the stack of local variables.
-/
namespace Acorn
open Spec
variable {T : Type}

/-- The entry of the `i`-th declared variable. -/
def levelEntry (e : (String × T) × Nat) : String × Nat × T := (e.1.1, e.2 % 65536, e.1.2)

/-- The stack holds exactly the declared variables, each at its position. -/
structure Stack.Rep (s : Stack T) (l : List (String × T)) : Prop where
  nodup : (l.map Prod.fst).Nodup
  perm : s.vars.entries.Perm (l.zipIdx.map levelEntry)

theorem Stack.Rep.len {s : Stack T} {l : List (String × T)} (h : s.Rep l) : s.len = l.length := by
  have := h.perm.length_eq
  simpa [Stack.len] using this

theorem Stack.Rep.get {s : Stack T} {l : List (String × T)} (h : s.Rep l) {name : String} {i : Nat} {t : T} :
    s.get name = some (i, t) ↔ ∃ k : Nat, l[k]? = some (name, t) ∧ i = k % 65536 := by
  rw [Stack.get, AMap.get?_eq_some, h.perm.mem_iff]
  simp only [List.mem_map, levelEntry, Prod.exists, Prod.mk.injEq, List.mem_zipIdx_iff_getElem?]
  constructor
  · rintro ⟨n, t', k, hk, rfl, rfl, rfl⟩
    exact ⟨k, hk, rfl⟩
  · rintro ⟨k, hk, rfl⟩
    exact ⟨name, t, k, hk, rfl, rfl, rfl⟩

theorem Stack.Rep.fresh {s : Stack T} {l : List (String × T)} (h : s.Rep l) {name : String}
    (hn : s.get name = none) : name ∉ l.map Prod.fst := by
  intro hm
  obtain ⟨⟨n, t⟩, ht, rfl⟩ := List.mem_map.mp hm
  obtain ⟨k, hk⟩ := List.mem_iff_getElem?.mp ht
  rw [h.get.mpr ⟨k, hk, rfl⟩] at hn
  cases hn

theorem Stack.Rep.new : (Stack.new : Stack T).Rep [] := ⟨by simp, by simp [Stack.new, AMap.empty]⟩

theorem AMap.erase_entries_of_not_mem {κ ν : Type} [DecidableEq κ] {m : AMap κ ν} {k : κ}
    (h : k ∉ m.keys) : (m.erase k).entries = m.entries := by
  simp only [AMap.erase]
  refine List.filter_eq_self.mpr fun e he => ?_
  simp only [bne_iff_ne, ne_eq]
  rintro rfl
  exact h (List.mem_map_of_mem he)

theorem Stack.Rep.keys {s : Stack T} {l : List (String × T)} (h : s.Rep l) {name : String} :
    name ∈ s.vars.keys ↔ name ∈ l.map Prod.fst := by
  have hp := h.perm.map Prod.fst
  rw [AMap.keys, hp.mem_iff, List.map_map]
  have : (Prod.fst ∘ levelEntry : (String × T) × Nat → String) = Prod.fst ∘ Prod.fst := rfl
  rw [this, ← List.map_map, List.zipIdx_map_fst]

theorem Stack.Rep.insert {s : Stack T} {l : List (String × T)} (h : s.Rep l) {name : String} {t : T}
    (hn : name ∉ l.map Prod.fst) : (s.insert name t).1.Rep (l ++ [(name, t)]) := by
  refine ⟨?_, ?_⟩
  · rw [List.map_append, List.nodup_append]
    refine ⟨h.nodup, by simp, ?_⟩
    intro a ha b hb
    simp only [List.map_cons, List.map_nil, List.mem_singleton] at hb
    subst hb
    rintro rfl
    exact hn ha
  · have hk : name ∉ s.vars.keys := fun hm => hn (h.keys.mp hm)
    simp only [Stack.insert, AMap.insert]
    rw [AMap.erase_entries_of_not_mem hk, h.len]
    have e : (l ++ [(name, t)]).zipIdx.map levelEntry =
        l.zipIdx.map levelEntry ++ [(name, l.length % 65536, t)] := by
      simp [List.zipIdx_append, levelEntry]
    rw [e]
    exact (List.Perm.cons _ h.perm).trans (List.perm_append_comm (l₁ := [_]))

theorem Stack.Rep.insertAll {s : Stack T} {l : List (String × T)} (h : s.Rep l) (args : List (String × T))
    (hn : ((l ++ args).map Prod.fst).Nodup) :
    (args.foldl (fun s a => (s.insert a.1 a.2).1) s).Rep (l ++ args) := by
  induction args generalizing s l with
  | nil => simpa using h
  | cons a as ih =>
    have e : l ++ a :: as = (l ++ [a]) ++ as := by simp
    rw [e] at hn ⊢
    refine ih (h.insert ?_) hn
    rw [List.map_append, List.nodup_append] at hn
    have := hn.1
    rw [List.map_append, List.nodup_append] at this
    exact fun hm => this.2.2 _ hm _ (by simp) rfl

theorem removeAll_entries (s : Stack T) (names : List String) :
    (s.removeAll names).vars.entries = s.vars.entries.filter fun e => !(names.contains e.1) := by
  induction names generalizing s with
  | nil => exact (List.filter_eq_self.mpr (by simp)).symm
  | cons n ns ih =>
    rw [Stack.removeAll, List.foldl_cons, ← Stack.removeAll, ih]
    simp only [Stack.remove, AMap.erase, List.filter_filter]
    congr 1
    funext e
    rw [List.contains_cons, Bool.not_or, Bool.and_comm]
    rfl

theorem Stack.Rep.removeAll {s : Stack T} {l bound : List (String × T)} (h : s.Rep (l ++ bound)) :
    (s.removeAll (bound.map Prod.fst)).Rep l := by
  have hn := h.nodup
  rw [List.map_append, List.nodup_append] at hn
  refine ⟨hn.1, ?_⟩
  rw [removeAll_entries]
  refine (h.perm.filter _).trans ?_
  rw [List.zipIdx_append, List.map_append, List.filter_append]
  have e1 : ((l.zipIdx.map levelEntry).filter fun e => !((bound.map Prod.fst).contains e.1)) =
      l.zipIdx.map levelEntry := by
    refine List.filter_eq_self.mpr fun e he => ?_
    obtain ⟨⟨p, i⟩, hp, rfl⟩ := List.mem_map.mp he
    have hpl : p ∈ l := List.fst_mem_of_mem_zipIdx hp
    simp only [levelEntry, List.contains_eq_mem, Bool.not_eq_true', decide_eq_false_iff_not]
    exact fun hm => hn.2.2 _ (List.mem_map_of_mem hpl) _ hm rfl
  have e2 : (((bound.zipIdx (0 + l.length)).map levelEntry).filter
      fun e => !((bound.map Prod.fst).contains e.1)) = [] := by
    refine List.filter_eq_nil_iff.mpr fun e he => ?_
    obtain ⟨⟨p, i⟩, hp, rfl⟩ := List.mem_map.mp he
    have hpl : p ∈ bound := List.fst_mem_of_mem_zipIdx hp
    simp only [levelEntry, List.contains_eq_mem, Bool.not_eq_true', decide_eq_false_iff_not,
      Decidable.not_not]
    exact List.mem_map_of_mem hpl
  rw [e1, e2, List.append_nil]

theorem bindLoop_rep (free : Available) (dt : Option T) (shadow : Bool) (l : List (String × T))
    (hself : dt.isSome → "self" ∉ l.map Prod.fst) (ds : List (Decl T)) (i : Nat) (s : Stack T)
    (bound : List (String × T)) (h : s.Rep (l ++ bound)) (hb : i = 0 → bound = []) :
    let r := bindLoop free dt shadow ds i s bound
    r.1.Rep (l ++ r.2.1) := by
  induction ds generalizing i s bound with
  | nil => exact h
  | cons d ds ih =>
    dsimp only
    rw [bindLoop.eq_def]
    dsimp only
    split
    · have hb := hb rfl
      subst hb
      refine ih _ _ _ ?_ (by simp)
      rw [List.append_nil] at h
      exact h.insert (hself (by simp))
    · exact h
    · exact h
    · rename_i name type _
      split
      · exact h
      · rename_i t ht
        split
        · exact h
        · split
          · exact h
          · split
            · exact h
            · rename_i hg
              refine ih _ _ _ ?_ (by simp)
              rw [← List.append_assoc]
              refine h.insert (h.fresh ?_)
              cases hx : s.get name with
              | none => rfl
              | some v => rw [hx] at hg; simp at hg

theorem scopeStep_rep {c c' : Scopes T} (hs : ScopeStep c c') (h : c.stack.Rep c.declared) :
    c'.stack.Rep c'.declared := by
  cases hs with
  | args _ free dt shadow ds hself =>
    have hr := bindLoop_rep free dt shadow c.declared (fun hd hm => by
      obtain ⟨p, hp, he⟩ := List.mem_map.mp hm
      exact hself hd p hp he) ds 0 c.stack [] (by simpa using h) (fun _ => rfl)
    dsimp only at hr
    simp only [bindArgs, Scopes.after]
    split
    · rename_i hb
      split at hb
      · cases hb
        rename_i hok
        simp only [if_pos hok, Scopes.declared, List.reverse_cons, List.flatten_append, List.flatten_cons,
          List.flatten_nil, List.append_nil]
        exact hr
      · cases hb
    · rename_i hb
      split at hb
      · cases hb
      · rename_i hok
        simp only [if_neg hok]
        exact hr.removeAll
  | pattern _ alias args hd =>
    simp only [bindPattern, Scopes.after]
    split
    · rename_i hb
      split at hb
      · cases hb
      · rename_i ha
        cases hb
        simp only [if_neg ha, Scopes.declared, List.reverse_cons, List.flatten_append, List.flatten_cons,
          List.flatten_nil, List.append_nil]
        refine h.insertAll args ?_
        rw [List.map_append, List.nodup_append]
        refine ⟨h.nodup, hd, ?_⟩
        rintro a hm b hb rfl
        obtain ⟨p, hp, rfl⟩ := List.mem_map.mp hb
        refine h.fresh ?_ hm
        simp only [List.any_eq_true, not_exists, not_and] at ha
        have := ha p hp
        cases hx : c.stack.get p.1 with
        | none => rfl
        | some v => rw [hx] at this; simp at this
    · rename_i hb
      split at hb
      · rename_i ha
        simp only [if_pos ha]
        exact h
      · cases hb
  | leave stack bound opened =>
    have e : (Scopes.mk stack (bound :: opened)).declared = (Scopes.mk stack opened).declared ++ bound := by
      simp [Scopes.declared]
    rw [e] at h
    exact h.removeAll

theorem scopeRun_rep {c c' : Scopes T} (hs : ScopeRun c c') (h : c.stack.Rep c.declared) :
    c'.stack.Rep c'.declared := by
  induction hs with
  | refl => exact h
  | step _ hst ih => exact scopeStep_rep hst ih

theorem fill_spec {α : Type} (f : String → T → α) (es : List (String × Nat × T)) :
    ∀ (answer : List α), (es.map fun e => e.2.1).Nodup → (∀ e ∈ es, e.2.1 < answer.length) →
    ∃ r, Stack.fill f answer es = some r ∧ r.length = answer.length ∧
      (∀ e ∈ es, r[e.2.1]? = some (f e.1 e.2.2)) ∧
      (∀ i : Nat, (∀ e ∈ es, e.2.1 ≠ i) → r[i]? = answer[i]?) := by
  induction es with
  | nil => intro answer _ _; exact ⟨answer, rfl, rfl, by simp, by simp⟩
  | cons e es ih =>
    intro answer hn hl
    obtain ⟨name, i, t⟩ := e
    simp only [List.map_cons, List.nodup_cons] at hn
    have hi : i < answer.length := hl (name, i, t) (by simp)
    obtain ⟨r, hr, hlen, h1, h2⟩ := ih (answer.set i (f name t)) hn.2 fun e he => by
      simpa using hl e (by simp [he])
    refine ⟨r, by rw [Stack.fill, if_pos hi, hr], by simpa using hlen, ?_, ?_⟩
    · intro e he
      rcases List.mem_cons.mp he with rfl | he
      · have := h2 i fun e he hei => hn.1 (List.mem_map.mpr ⟨e, he, hei⟩)
        simp only [this, List.getElem?_set_self hi]
      · exact h1 e he
    · intro j hj
      rw [h2 j fun e he => hj e (by simp [he])]
      exact List.getElem?_set_ne (hj (name, i, t) (by simp))

theorem unwrapAll_some {α : Type} (l : List α) : Stack.unwrapAll (l.map some) = some l := by
  induction l with
  | nil => rfl
  | cons a l ih => simp [Stack.unwrapAll, ih]

theorem Stack.Rep.fill {α : Type} {s : Stack T} {l : List (String × T)} (h : s.Rep l) (hl : l.length ≤ 65536)
    (f : String → T → α) (a : α) {order : List (String × Nat × T)} (ho : order.Perm s.vars.entries) :
    Stack.fill f (List.replicate s.len a) order = some (l.map fun p => f p.1 p.2) := by
  have hp := ho.trans h.perm
  have hmod : l.zipIdx.map levelEntry = l.zipIdx.map fun e => (e.1.1, e.2, e.1.2) := by
    refine List.map_congr_left fun e he => ?_
    obtain ⟨p, i⟩ := e
    have := List.mem_zipIdx_iff_getElem?.mp he
    have : i < l.length := (List.getElem?_eq_some_iff.mp this).1
    simp only [levelEntry]
    rw [Nat.mod_eq_of_lt (by omega)]
  rw [hmod] at hp
  have hnd : (order.map fun e => e.2.1).Nodup := by
    rw [(hp.map _).nodup_iff, List.map_map]
    have : ((fun e : String × Nat × T => e.2.1) ∘ fun e : (String × T) × Nat => (e.1.1, e.2, e.1.2)) = Prod.snd := rfl
    rw [this, List.zipIdx_map_snd]
    exact List.nodup_range'
  have hmem : ∀ e, e ∈ order ↔ l[e.2.1]? = some (e.1, e.2.2) := by
    intro e
    rw [hp.mem_iff]
    simp only [List.mem_map, Prod.exists, List.mem_zipIdx_iff_getElem?]
    constructor
    · rintro ⟨n, t, i, hi, rfl⟩; exact hi
    · intro he; exact ⟨e.1, e.2.2, e.2.1, he, rfl⟩
  obtain ⟨r, hr, hlen, h1, -⟩ := fill_spec f order (List.replicate s.len a) hnd fun e he => by
    rw [List.length_replicate, h.len]
    exact (List.getElem?_eq_some_iff.mp ((hmem e).mp he)).1
  rw [hr]
  congr 1
  rw [List.length_replicate, h.len] at hlen
  refine List.ext_getElem? fun i => ?_
  rw [List.getElem?_map]
  by_cases hi : i < l.length
  · rw [List.getElem?_eq_getElem hi]
    have := h1 (l[i].1, i, l[i].2) ((hmem _).mpr (by simp [List.getElem?_eq_getElem hi]))
    simpa using this
  · rw [List.getElem?_eq_none (by omega), List.getElem?_eq_none (by omega)]
    rfl

end Acorn
