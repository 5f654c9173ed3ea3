import Verif.Spec.Certificates
/-
Lemmas about certificate worklists and files.
-/
namespace Acorn
open Spec

/-! ### Worklists -/

/-- The worklist lists, under each goal, the unused certificates with that goal in store order. -/
structure Worklist.Ok (store : List Cert) (unused : List (Cert × Nat)) (w : Worklist) : Prop where
  store : w.store = store
  idx : ∀ g, w.getIndexes g = (unused.filter fun e => e.1.goal == g).map Prod.snd
  nonempty : ∀ g is, w.indexes.get? g = some is → is ≠ []

theorem Worklist.new_ok (store : List Cert) : (Worklist.new store).Ok store store.zipIdx := by
  have key : ∀ (es : List (Cert × Nat)) (m : AMap String (List Nat)) (pre : List (Cert × Nat)),
      (∀ g, (m.get? g).getD [] = (pre.filter fun e => e.1.goal == g).map Prod.snd) →
      (∀ g is, m.get? g = some is → is ≠ []) →
      (∀ g, ((es.foldl addIndex m).get? g).getD [] =
        ((pre ++ es).filter fun e => e.1.goal == g).map Prod.snd) ∧
      (∀ g is, (es.foldl addIndex m).get? g = some is → is ≠ []) := by
    intro es
    induction es with
    | nil => intro m pre h h'; simpa using ⟨h, h'⟩
    | cons e es ih =>
      intro m pre h h'
      have := ih (addIndex m e) (pre ++ [e]) ?_ ?_
      · simpa using this
      · intro g
        simp only [addIndex, AMap.get?_insert]
        by_cases hg : g = e.1.goal
        · subst hg
          simp [h]
        · have : ¬ e.1.goal = g := fun h => hg h.symm
          simp [hg, this, h]
      · intro g is
        simp only [addIndex, AMap.get?_insert]
        split
        · intro e; cases e; simp
        · exact h' g is
  obtain ⟨h1, h2⟩ := key store.zipIdx AMap.empty [] (by simp) (by simp)
  exact ⟨rfl, by simpa [getIndexes, new] using h1, h2⟩

theorem Worklist.Ok.remove {store : List Cert} {unused : List (Cert × Nat)} {w : Worklist} (h : w.Ok store unused)
    (goal : String) (index : Nat) :
    (w.remove goal index).Ok store (unused.filter fun e => !((e.1.goal, e.2) == (goal, index))) := by
  have hidx : ∀ g, (w.remove goal index).getIndexes g =
      if g = goal then (w.getIndexes g).filter (fun i => i != index) else w.getIndexes g := by
    intro g
    unfold Worklist.remove
    cases hg : w.indexes.get? goal with
    | none =>
      dsimp only
      split
      · rename_i e; subst e; simp [getIndexes, hg]
      · rfl
    | some is =>
      dsimp only
      by_cases he : (is.filter fun i => i != index).isEmpty = true
      · rw [if_pos he]
        simp only [getIndexes, AMap.get?_erase]
        split
        · rename_i e; subst e
          have : (is.filter fun i => i != index) = [] := by simpa using he
          rw [hg]
          simp [this]
        · rfl
      · rw [if_neg he]
        simp only [getIndexes, AMap.get?_insert]
        split
        · rename_i e; subst e; simp [hg]
        · rfl
  refine ⟨?_, ?_, ?_⟩
  · unfold Worklist.remove
    split
    · exact h.store
    · dsimp only; split <;> exact h.store
  · intro g
    rw [hidx, h.idx]
    have hf : ∀ l : List (Cert × Nat),
        (if g = goal then ((l.filter fun e => e.1.goal == g).map Prod.snd).filter (fun i => i != index)
          else (l.filter fun e => e.1.goal == g).map Prod.snd) =
        ((l.filter fun e => !((e.1.goal, e.2) == (goal, index))).filter fun e => e.1.goal == g).map Prod.snd := by
      intro l
      induction l with
      | nil => simp
      | cons e l ih =>
        obtain ⟨c, i⟩ := e
        by_cases hg : g = goal
        · subst hg
          simp only [if_true] at ih ⊢
          by_cases hc : c.goal = g
          · by_cases hi : i = index
            · simp [hc, hi] at ih ⊢
              exact ih
            · simp [hc, hi] at ih ⊢
              exact ih
          · simp [hc] at ih ⊢
            exact ih
        · simp only [if_neg hg] at ih ⊢
          by_cases hc : c.goal = g
          · subst hc
            simp [hg] at ih ⊢
            exact ih
          · by_cases hx : (c.goal = goal ∧ i = index)
            · have hp : ((c.goal, i) == (goal, index)) = true := by simp [hx.1, hx.2]
              have hq : (c.goal == g) = false := by simp [hc]
              simp only [List.filter_cons, hp, hq, Bool.not_true, Bool.false_eq_true, if_false]
              exact ih
            · have : ((c.goal, i) == (goal, index)) = false := by
                simp only [beq_eq_false_iff_ne, ne_eq, Prod.mk.injEq]
                exact hx
              simp [hc, this] at ih ⊢
              exact ih
    exact hf unused
  · intro g is
    unfold Worklist.remove
    split
    · exact h.nonempty g is
    · dsimp only
      split
      · simp only [AMap.get?_erase]
        split
        · intro e; cases e
        · exact h.nonempty g is
      · rename_i he
        simp only [AMap.get?_insert]
        split
        · intro e; cases e; simpa using he
        · exact h.nonempty g is

theorem worklistAfter_ok (store : List Cert) (removals : List (String × Nat)) :
    (worklistAfter store removals).Ok store (unusedCerts store removals) := by
  have key : ∀ (rs : List (String × Nat)) (w : Worklist) (u : List (Cert × Nat)), w.Ok store u →
      (rs.foldl (fun w r => w.remove r.1 r.2) w).Ok store
        (u.filter fun e => !(rs.contains (e.1.goal, e.2))) := by
    intro rs
    induction rs with
    | nil =>
      intro w u h
      have : (u.filter fun e => !(([] : List (String × Nat)).contains (e.1.goal, e.2))) = u :=
        List.filter_eq_self.mpr (by simp)
      rw [this]
      exact h
    | cons r rs ih =>
      intro w u h
      have := ih _ _ (h.remove r.1 r.2)
      rw [List.filter_filter] at this
      rw [List.foldl_cons]
      have e : (u.filter fun e => (!(rs.contains (e.1.goal, e.2)) && !((e.1.goal, e.2) == (r.1, r.2)))) =
          (u.filter fun e => !((r :: rs).contains (e.1.goal, e.2))) := by
        congr 1
        funext e
        rw [List.contains_cons, Bool.not_or, Bool.and_comm]
      rw [← e]
      exact this
  exact key removals _ _ (Worklist.new_ok store)

theorem nodup_unused (store : List Cert) (removals : List (String × Nat)) :
    ((unusedCerts store removals).map Prod.snd).Nodup := by
  have h1 : (store.zipIdx.map Prod.snd).Nodup := by
    rw [List.zipIdx_map_snd]
    exact List.nodup_range'
  exact h1.sublist (List.filter_sublist.map _)

/-! ### Files -/

theorem linesGo_line (l rest cur : List Char) (h : ∀ c ∈ l, c ≠ '\n') :
    Text.linesGo cur (l ++ '\n' :: rest) = Text.dropCr (cur ++ l) :: Text.linesGo [] rest := by
  induction l generalizing cur with
  | nil => simp [Text.linesGo]
  | cons c l ih =>
    have hc : c ≠ '\n' := h c (by simp)
    rw [List.cons_append, Text.linesGo, if_neg hc, ih _ fun x hx => h x (by simp [hx])]
    simp

theorem lines_saveStore (encode : Cert → List Char) (certs : List Cert)
    (h : ∀ c ∈ certs, ∀ x ∈ encode c, x ≠ '\n' ∧ x ≠ '\r') :
    Text.lines (saveStore encode certs) = certs.map encode := by
  induction certs with
  | nil => simp [saveStore, Text.lines, Text.linesGo]
  | cons c cs ih =>
    have hc := h c (by simp)
    have := ih fun d hd => h d (by simp [hd])
    simp only [saveStore, List.flatMap_cons, List.append_assoc, List.singleton_append, Text.lines,
      List.map_cons] at this ⊢
    rw [linesGo_line _ _ _ fun x hx => (hc x hx).1, this, List.nil_append]
    congr 1
    unfold Text.dropCr
    rw [if_neg]
    intro hl
    exact (hc _ (List.mem_of_getLast? hl)).2 rfl

theorem trim_nonempty {l : List Char} (h : ∃ c ∈ l, Text.isWhitespace c = false) : (Text.trim l).isEmpty = false := by
  obtain ⟨c, hc, hw⟩ := h
  have keep : ∀ s : List Char, c ∈ s → c ∈ s.dropWhile Text.isWhitespace := by
    intro s hs
    induction s with
    | nil => simp at hs
    | cons x s ih =>
      rw [List.dropWhile_cons]
      split
      · rename_i hx
        rcases List.mem_cons.mp hs with rfl | hs
        · rw [hw] at hx; cases hx
        · exact ih hs
      · exact hs
  have : c ∈ Text.trim l := by
    unfold Text.trim Text.trimEnd Text.trimStart
    rw [List.mem_reverse]
    exact keep _ (List.mem_reverse.mpr (keep l hc))
  cases hE : Text.trim l with
  | nil => rw [hE] at this; simp at this
  | cons => rfl

end Acorn
