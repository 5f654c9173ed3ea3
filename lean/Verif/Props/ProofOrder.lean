/-
C31: the suggested order of certificate lines is the stable topological order of their dependencies.
-/
import Verif.Spec.ProofOrder
import Verif.Lemmas.ProofOrder
namespace Acorn
open Spec ProofOrder

theorem Before.idx {o : List Nat} (hn : o.Nodup) {a b : Nat} (h : Before o a b) : o.idxOf a < o.idxOf b := by
  obtain ⟨pre, post, rfl, ha⟩ := h
  have hb : b ∉ pre := by
    intro hb
    rw [List.nodup_append] at hn
    exact hn.2.2 b hb b (by simp) rfl
  rw [List.idxOf_append_of_mem ha, List.idxOf_append_of_notMem hb]
  have := List.idxOf_lt_length_of_mem ha
  simp
  omega

/-- What the loop computes, in terms of the dependencies. -/
theorem unitSupportOrder_cases (cs : List (List Literal)) :
    ∃ (E : List (Nat × Nat)) (o : List Nat), (∀ s d, (s, d) ∈ E ↔ Supports cs s d) ∧
      Greedy E cs.length o ∧ (∀ x < cs.length, x ∉ o → ∃ s, (s, x) ∈ E ∧ s ∉ o) ∧
      unitSupportOrder cs = some (if E = [] ∨ o.length ≠ cs.length ∨ o = List.range cs.length then none
        else some o) := by
  obtain ⟨g, e, w, hs⟩ := graph_wf cs
  have hready : ∀ x, x ∈ (g.indegree.zipIdx.filter fun e => e.1 == 0).map Prod.snd ↔
      x < cs.length ∧ x ∉ ([] : List Nat) ∧ ∀ s, (s, x) ∈ g.seen → s ∈ ([] : List Nat) := by
    intro x
    simp only [List.mem_map, List.mem_filter, Prod.exists, List.mem_zipIdx_iff_getElem?, beq_iff_eq]
    constructor
    · rintro ⟨k, i, ⟨hk, rfl⟩, rfl⟩
      have hlt : i < cs.length := by
        have := (List.getElem?_eq_some_iff.mp hk).1
        rwa [w.il] at this
      rw [w.deg i hlt, Option.some.injEq, List.countP_eq_zero] at hk
      refine ⟨hlt, by simp, fun s hs => ?_⟩
      have := hk _ hs
      simp at this
    · rintro ⟨hlt, -, h⟩
      refine ⟨0, x, ⟨?_, rfl⟩, rfl⟩
      rw [w.deg x hlt, Option.some.injEq, List.countP_eq_zero]
      rintro ⟨s, d⟩ he hd
      simp only [beq_iff_eq] at hd
      subst hd
      simpa using h s he
  have hrn : ((g.indegree.zipIdx.filter fun e => e.1 == 0).map Prod.snd).Nodup := by
    have h1 : (g.indegree.zipIdx.map Prod.snd).Nodup := by
      rw [List.zipIdx_map_snd]
      exact List.nodup_range' _
    exact h1.sublist (List.filter_sublist.map _)
  obtain ⟨o, ho, hg, hrest⟩ := kahn_spec w cs.length g.indegree _ [] (by simp) .nil
    (fun d hd => by rw [w.deg d hd]; simp [waiting]) w.il hrn hready
  refine ⟨g.seen, o, hs, hg, hrest, ?_⟩
  simp only [unitSupportOrder, e, ho]
  have hid : (o.zipIdx.all fun e => e.2 == e.1) = true ↔ o = List.range o.length := by
    rw [List.all_eq_true]
    constructor
    · intro h
      refine List.ext_getElem (by simp) fun i h1 h2 => ?_
      have := h (o[i], i) (by rw [List.mem_zipIdx_iff_getElem?]; exact List.getElem?_eq_getElem h1)
      simp at this
      simp [← this]
    · rintro h ⟨x, i⟩ hx
      rw [List.mem_zipIdx_iff_getElem?] at hx
      obtain ⟨h1, h2⟩ := List.getElem?_eq_some_iff.mp hx
      dsimp only at h1 h2
      have : x = i := by
        rw [← h2]
        have := congrArg (fun l => l[i]?) h
        simp only [List.getElem?_range h1, List.getElem?_eq_getElem h1, Option.some.injEq] at this
        exact this
      simp [this]
  by_cases h1 : g.seen = []
  · simp [h1]
  · rw [if_neg (by simpa using h1)]
    by_cases h2 : o.length = cs.length
    · rw [if_neg (by simpa using h2)]
      by_cases h3 : o = List.range cs.length
      · rw [if_pos (hid.mpr (by rw [h2]; exact h3)), if_pos (.inr (.inr h3))]
      · rw [if_neg (fun h => h3 (by rw [← h2]; exact hid.mp h)), if_neg]
        rintro (h | h | h)
        · exact h1 h
        · exact h h2
        · exact h3 h
    · rw [if_pos h2, if_pos (.inr (.inl h2))]

/-- C31: computing the order never fails. -/
theorem C31_total (cs : List (List Literal)) : ∃ r, unitSupportOrder cs = some r := by
  obtain ⟨_, _, _, _, _, h⟩ := unitSupportOrder_cases cs
  exact ⟨_, h⟩

/-- C31: a suggested order lists every line exactly once, puts each line after all the lines it
depends on, and at every position takes the earliest line whose dependencies are already placed; it
differs from the order given. -/
theorem C31_order {cs : List (List Literal)} {order : List Nat}
    (h : unitSupportOrder cs = some (some order)) :
    order.Perm (List.range cs.length) ∧
    (∀ s d, Supports cs s d → Before order s d) ∧
    (∀ pre x post, order = pre ++ x :: post →
      ∀ y < cs.length, y ∉ pre → Unblocked cs pre y → x ≤ y) ∧
    order ≠ List.range cs.length := by
  obtain ⟨E, o, hE, hg, _, he⟩ := unitSupportOrder_cases cs
  rw [he] at h
  split at h
  · cases h
  · rename_i hc
    cases h
    simp only [not_or, not_not] at hc
    have hp : order.Perm (List.range cs.length) := by
      refine (List.subperm_of_subset hg.nodup fun x hx => by simpa using hg.lt x hx).perm_of_length_le ?_
      simp [hc.2.1]
    refine ⟨hp, ?_, ?_, hc.2.2⟩
    · intro s d hsd
      have hd : d ∈ order := hp.mem_iff.mpr (by simpa using (Supports.lt hsd).2)
      obtain ⟨pre, post, ho⟩ := List.append_of_mem hd
      exact ⟨pre, post, ho, (hg.split ho).1 s ((hE s d).mpr hsd)⟩
    · intro pre x post ho y hy hyp hu
      exact (hg.split ho).2 y hy hyp fun s hs => hu s ((hE s y).mp hs)

/-- C31: the dependencies are never cyclic (each line only waits for later ones), so the cycle check
of the code never fires. -/
theorem C31_acyclic (cs : List (List Literal)) : ¬ Cyclic cs := by
  rintro ⟨i, hi⟩
  have : ∀ a b, Relation.TransGen (Supports cs) a b → b < a := by
    intro a b h
    induction h with
    | single h => exact h.1
    | tail _ h ih => exact Nat.lt_trans h.1 ih
  exact Nat.lt_irrefl _ (this i i hi)

/-- C31: no order is suggested exactly when no line depends on a later one. -/
theorem C31_absent (cs : List (List Literal)) :
    unitSupportOrder cs = some none ↔ ∀ s d, ¬ Supports cs s d := by
  obtain ⟨E, o, hE, hg, hrest, he⟩ := unitSupportOrder_cases cs
  constructor
  · intro h
    refine Classical.byContradiction fun hnone => ?_
    have hlen : o.length = cs.length := by
      refine Classical.byContradiction fun hl => ?_
      -- some line is left over
      obtain ⟨x, hx, hxo⟩ : ∃ x < cs.length, x ∉ o := by
        refine Classical.byContradiction fun hc => hl ?_
        have hall : ∀ x < cs.length, x ∈ o := fun x hx => Classical.byContradiction fun h => hc ⟨x, hx, h⟩
        have h1 := (List.subperm_of_subset hg.nodup
          (fun x hx => by simpa using hg.lt x hx : o ⊆ List.range cs.length)).length_le
        have h2 := (List.subperm_of_subset List.nodup_range
          (fun x hx => hall x (by simpa using hx) : List.range cs.length ⊆ o)).length_le
        simp at h1 h2
        omega
      have key : ∀ k a, cs.length - a = k → a < cs.length → a ∈ o := by
        intro k
        induction k using Nat.strongRecOn with
        | ind k ih =>
          intro a hk ha
          refine Classical.byContradiction fun hao => ?_
          obtain ⟨s, hs, hso⟩ := hrest a ha hao
          have hsup := (hE s a).mp hs
          have := hsup.1
          exact hso (ih (cs.length - s) (by omega) s rfl (Supports.lt hsup).1)
      exact hxo (key _ x rfl hx)
    rw [he] at h
    have hne : E ≠ [] := by
      rintro rfl
      exact hnone fun s d hsd => by simpa using (hE s d).mpr hsd
    rw [if_neg] at h
    · cases h
    · rintro (h | h | h)
      · exact hne h
      · exact h hlen
      · refine hnone fun s d hsd => ?_
        have hd : d ∈ o := by rw [h]; simpa using (Supports.lt hsd).2
        obtain ⟨pre, post, ho⟩ := List.append_of_mem hd
        have hb : Before o s d := ⟨pre, post, ho, (hg.split ho).1 s ((hE s d).mpr hsd)⟩
        have := Before.idx hg.nodup hb
        have hidx : ∀ x < cs.length, o.idxOf x = x := by
          intro x hx
          have hx' : x < o.length := by omega
          have : o[x] = x := by simp [h]
          conv_lhs => rw [← this]
          exact hg.nodup.idxOf_getElem x hx'
        rw [hidx s (Supports.lt hsd).1, hidx d (Supports.lt hsd).2] at this
        have := hsd.1
        omega
  · intro h
    rw [he, if_pos]
    left
    refine List.eq_nil_iff_forall_not_mem.mpr ?_
    rintro ⟨s, d⟩ hsd
    exact h s d ((hE s d).mp hsd)

/-! ### Concrete cases -/

namespace OrderDemo

/-- The boolean atom number `i` as an equation with true. -/
def lit (pos : Bool) (i : Nat) : Literal := ⟨pos, .atom (.sym (.scoped i)), .atom (.sym .true_)⟩

/-- `¬p0 ∨ p1`, then `p2`, then `p0`: the first line waits for the third. -/
def lines : List (List Literal) := [[lit false 0, lit true 1], [lit true 2], [lit true 0]]

example : unitSupportOrder lines = some (some [1, 2, 0]) := by decide +kernel

/-- Nothing waits for a later line. -/
example : unitSupportOrder [[lit true 0], [lit false 0, lit true 1]] = some none := by decide +kernel

/-- `p0`, `¬p1 ∨ p2`, `p0 ∨ ¬q`, …: a single literal waits for the longer clause containing it. -/
example : unitSupportOrder [[lit true 0], [lit true 3], [lit false 1, lit true 0], [lit true 1]] =
    some (some [1, 3, 2, 0]) := by decide +kernel

end OrderDemo

end Acorn
