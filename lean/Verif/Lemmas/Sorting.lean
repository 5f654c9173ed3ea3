/-
Insertion sort with a comparison that refines a coarser total preorder.
-/
import Verif.Model.Clause
namespace Acorn

theorem insertRev_perm {α : Type} (le : α → α → Bool) (x : α) : ∀ (l : List α), (insertRev le x l).Perm (x :: l)
  | [] => .refl _
  | p :: ps => by
    simp only [insertRev]
    split
    · exact .refl _
    · exact ((insertRev_perm le x ps).cons p).trans (.swap x p ps)

theorem foldl_insertRev_perm {α : Type} (le : α → α → Bool) : ∀ (l acc : List α),
    (l.foldl (fun acc x => insertRev le x acc) acc).Perm (l ++ acc)
  | [], acc => .refl _
  | x :: l, acc => by
    refine (foldl_insertRev_perm le l _).trans ?_
    exact ((insertRev_perm le x acc).append_left l).trans List.perm_middle

theorem insertSort_perm {α : Type} (le : α → α → Bool) (l : List α) : (insertSort le l).Perm l :=
  (List.reverse_perm _).trans (by simpa using foldl_insertRev_perm le l [])

theorem insertRev_pairwise {α : Type} {le : α → α → Bool} {R : α → α → Prop} {P : α → Prop}
    (h1 : ∀ a b, P a → P b → le a b = true → R a b) (h2 : ∀ a b, P a → P b → le a b = false → R b a)
    (ht : ∀ a b c, P a → P b → P c → R a b → R b c → R a c) {x : α} (hx : P x) : ∀ (l : List α),
      (∀ y ∈ l, P y) → l.Pairwise (fun a b => R b a) → (insertRev le x l).Pairwise (fun a b => R b a)
  | [], _, _ => by simp [insertRev]
  | p :: ps, hp, hl => by
    have pp := hp p (by simp)
    have pps : ∀ y ∈ ps, P y := fun y hy => hp y (by simp [hy])
    have hl := List.pairwise_cons.1 hl
    simp only [insertRev]
    split
    · rename_i h
      refine List.pairwise_cons.2 ⟨fun y hy => ?_, List.pairwise_cons.2 hl⟩
      have hxp := h1 _ _ pp hx h
      rcases List.mem_cons.1 hy with rfl | hy
      · exact hxp
      · exact ht _ _ _ (pps y hy) pp hx (hl.1 y hy) hxp
    · rename_i h
      refine List.pairwise_cons.2 ⟨fun y hy => ?_, insertRev_pairwise h1 h2 ht hx ps pps hl.2⟩
      rcases List.mem_cons.1 ((insertRev_perm le x ps).mem_iff.1 hy) with rfl | hy
      · exact h2 _ _ pp hx (by simpa using h)
      · exact hl.1 y hy

theorem insertSort_pairwise {α : Type} {le : α → α → Bool} {R : α → α → Prop} {P : α → Prop}
    (h1 : ∀ a b, P a → P b → le a b = true → R a b) (h2 : ∀ a b, P a → P b → le a b = false → R b a)
    (ht : ∀ a b c, P a → P b → P c → R a b → R b c → R a c) (l : List α) (hl : ∀ x ∈ l, P x) :
    (insertSort le l).Pairwise R := by
  rw [insertSort, List.pairwise_reverse]
  have : ∀ (l acc : List α), (∀ x ∈ l, P x) → (∀ x ∈ acc, P x) → acc.Pairwise (fun a b => R b a) →
      (l.foldl (fun acc x => insertRev le x acc) acc).Pairwise (fun a b => R b a) := by
    intro l
    induction l with
    | nil => intro acc _ _ h; exact h
    | cons x l ih =>
      intro acc hl ha h
      have hx := hl x (by simp)
      refine ih _ (fun y hy => hl y (by simp [hy])) (fun y hy => ?_) (insertRev_pairwise h1 h2 ht hx acc ha h)
      rcases List.mem_cons.1 ((insertRev_perm le x acc).mem_iff.1 hy) with rfl | hy
      · exact hx
      · exact ha y hy
  exact this l [] hl (by simp) .nil

theorem dedupAdj_sublist {α : Type} [DecidableEq α] : ∀ (l : List α), (dedupAdj l).Sublist l
  | [] => by simp [dedupAdj]
  | [a] => by simp [dedupAdj]
  | a :: b :: l => by
    have ih := dedupAdj_sublist (b :: l)
    simp only [dedupAdj]
    split
    · exact ih.trans (List.sublist_cons_self _ _)
    · exact ih.cons_cons _

theorem dedupAdj_nodup {α : Type} [DecidableEq α] {R : α → α → Prop}
    (ha : ∀ a b, R a b → R b a → a = b) : ∀ (l : List α), l.Pairwise R → (dedupAdj l).Nodup
  | [], _ => by simp [dedupAdj]
  | [a], _ => by simp [dedupAdj]
  | a :: b :: l, h => by
    obtain ⟨h1, h2⟩ := List.pairwise_cons.1 h
    have ih := dedupAdj_nodup ha (b :: l) h2
    simp only [dedupAdj]
    split
    · exact ih
    · rename_i hne
      refine List.nodup_cons.2 ⟨?_, ih⟩
      intro hm
      have hm' := (dedupAdj_sublist _).subset hm
      rcases List.mem_cons.1 hm' with e | hm'
      · exact hne e
      · exact hne (ha a b (h1 b (by simp)) ((List.pairwise_cons.1 h2).1 a hm'))

end Acorn
