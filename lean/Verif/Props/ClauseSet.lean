/-
C21: the ground clause index is coherent and clause identifiers are canonical.
-/
import Verif.Spec.ClauseSet
import Verif.Lemmas.ClauseSet
namespace Acorn
open Spec

universe u

/-- The clauses under a key of an index. -/
theorem runCSet_spec (ops : List CSetOp) : (runCSet ops).Coherent ∧
    ∀ c, c ∈ (runCSet ops).clauses ↔ storedAfter ops c := by
  have key : ∀ (ops : List CSetOp) (s : ClauseSet) (S : GClause → Prop), s.Coherent →
      (∀ c, c ∈ s.clauses ↔ S c) → (ops.foldl CSetOp.run s).Coherent ∧
      ∀ c, c ∈ (ops.foldl CSetOp.run s).clauses ↔ ops.foldl CSetOp.after S c := by
    intro ops
    induction ops with
    | nil => intro s S h1 h2; exact ⟨h1, h2⟩
    | cons op ops ih =>
      intro s S h1 h2
      rw [List.foldl_cons, List.foldl_cons]
      cases op with
      | insert c =>
        exact ih _ _ (h1.insert c) fun d => by
          simp only [CSetOp.run, CSetOp.after, ClauseSet.insert_clauses, h2]
      | remove c =>
        exact ih _ _ (h1.remove c) fun d => by
          simp only [CSetOp.run, CSetOp.after, ClauseSet.remove_clauses, h2]
      | removeLiteral l =>
        exact ih _ _ (h1.removeLiteral l).1 fun d => by
          simp only [CSetOp.run, CSetOp.after, (h1.removeLiteral l).2.2, h2]
      | removeGroup k =>
        exact ih _ _ (h1.removeGroup k).1 fun d => by
          simp only [CSetOp.run, CSetOp.after, (h1.removeGroup k).2.2, h2, Mentions]
  exact key ops _ _ ClauseSet.coherent_empty (by simp [ClauseSet.empty])

/-- **C21 (index).** After any history of insertions and removals: the membership test answers for
exactly the clauses that were inserted and not removed since; each index lists exactly the stored
clauses that mention the group, or contain the literal; and a removal by literal or by group returns
exactly those clauses. -/
theorem C21_index (ops : List CSetOp) :
    (∀ c, (runCSet ops).contains c = true ↔ storedAfter ops c) ∧
    (∀ k c, c ∈ ((runCSet ops).forGroup.get? k).getD [] ↔ storedAfter ops c ∧ Mentions k c) ∧
    (∀ l c, c ∈ ((runCSet ops).forLiteral.get? l).getD [] ↔ storedAfter ops c ∧ l ∈ c) ∧
    (∀ l c, c ∈ ((runCSet ops).removeLiteral l).1 ↔ storedAfter ops c ∧ l ∈ c) ∧
    (∀ k c, c ∈ ((runCSet ops).removeGroup k).1 ↔ storedAfter ops c ∧ Mentions k c) := by
  obtain ⟨h1, h2⟩ := runCSet_spec ops
  refine ⟨fun c => ?_, fun k c => ?_, fun l c => ?_, fun l c => ?_, fun k c => ?_⟩
  · rw [← h2]; simp [ClauseSet.contains]
  · rw [← h2]; exact h1.group k c
  · rw [← h2]; exact h1.literal l c
  · rw [← h2]; exact (h1.removeLiteral l).2.1 c
  · rw [← h2]; exact (h1.removeGroup k).2.1 c

/-- Two groups joined, a clause of two literals, removed by group and inserted again. -/
example :
    let a : GLit := ⟨0, 1, true⟩
    let b : GLit := ⟨1, 2, false⟩
    let ops := [.insert [a, b], .insert [a], .removeGroup 2, .insert [b]]
    storedAfter ops [a] ∧ storedAfter ops [b] ∧ ¬ storedAfter ops [a, b] := by
  refine ⟨?_, ?_, ?_⟩ <;> simp [storedAfter, CSetOp.after, Mentions]

/-- **C21 (canonical).** Two lists with the same literals, up to repetition, order and literals of the
form `g ≠ g`, get the same identifier. -/
theorem C21_canonical {ls ms : List GLit}
    (h : ∀ l, ¬ (l.left = l.right ∧ l.positive = false) → (l ∈ ls ↔ l ∈ ms)) :
    GClause.new ls = GClause.new ms :=
  GClause.new_congr fun l hl => h l fun ⟨a, b⟩ => by rw [hl a] at b; cases b

example : GClause.new [⟨3, 3, false⟩, ⟨1, 2, true⟩, ⟨0, 2, false⟩, ⟨1, 2, true⟩] =
    GClause.new [⟨0, 2, false⟩, ⟨1, 2, true⟩] := C21_canonical fun l hl => by
  simp only [List.mem_cons, List.not_mem_nil, or_false]
  constructor
  · rintro (rfl | rfl | rfl | rfl)
    · exact absurd ⟨rfl, rfl⟩ hl
    · exact Or.inr rfl
    · exact Or.inl rfl
    · exact Or.inr rfl
  · rintro (rfl | rfl)
    · exact Or.inr (Or.inr (Or.inl rfl))
    · exact Or.inr (Or.inl rfl)

/-- **C21 (identifiers are faithful).** Lists with the same identifier, which is a stored clause, have
the same literals up to literals of the form `g ≠ g`; and the identifier contains no literal between a
group and itself, no repetition, and no two opposite literals. -/
theorem C21_faithful {ls : List GLit} {c : GClause} (h : GClause.new ls = .clause c) :
    (∀ l, l ∈ c ↔ l ∈ ls ∧ l.left ≠ l.right) ∧ c ≠ [] ∧ c.Nodup ∧
    (∀ a ∈ c, ∀ b ∈ c, a.left = b.left → a.right = b.right → a = b) ∧
    ∀ l ∈ ls, l.left = l.right → l.positive = false := by
  rcases GClause.new_spec ls with ⟨e, _⟩ | ⟨e, _⟩ | ⟨d, e, hne, hs, hd, ho, hn⟩
  · rw [e] at h; cases h
  · rw [e] at h; cases h
  · rw [e] at h; cases h
    refine ⟨hd, hne, hs.imp And.right, fun a ha b hb h1 h2 => ?_, hn⟩
    apply Classical.byContradiction
    intro hab
    have : a.positive ≠ b.positive := by
      intro h3
      obtain ⟨a1, a2, a3⟩ := a
      obtain ⟨b1, b2, b3⟩ := b
      simp only at h1 h2 h3
      subst h1 h2 h3
      exact hab rfl
    have := hasOpposite_iff.2 ⟨a, ha, b, hb, opposite_iff.2 ⟨h1, h2, this⟩⟩
    rw [ho] at this; cases this

/-- **C21 (meaning).** Normalizing preserves the truth of the clause, whatever the groups denote. -/
theorem C21_meaning {D : Type u} (v : Nat → D) (ls : List GLit) :
    GClauseHolds v ls ↔
      match GClause.new ls with
      | .tt => True
      | .ff => False
      | .clause c => GClauseHolds v c := by
  rcases GClause.new_spec ls with ⟨e, h⟩ | ⟨e, h⟩ | ⟨d, e, hne, hs, hd, ho, hn⟩
  · rw [e]
    simp only [iff_true]
    rcases h with ⟨l, hl, h1, h2⟩ | ⟨a, ha, b, hb, hab⟩
    · exact ⟨l, hl, by simp [GLitHolds, h1, h2]⟩
    · rw [opposite_iff] at hab
      by_cases hv : v a.left = v a.right
      · cases hp : a.positive with
        | true => exact ⟨a, ha, by simp [GLitHolds, hp, hv]⟩
        | false =>
          have : b.positive = true := by
            cases hb : b.positive with
            | true => rfl
            | false => rw [hp, hb] at hab; exact absurd rfl hab.2.2
          exact ⟨b, hb, by simp [GLitHolds, this, ← hab.1, ← hab.2.1, hv]⟩
      · cases hp : a.positive with
        | false => exact ⟨a, ha, by simp [GLitHolds, hp, hv]⟩
        | true =>
          have : b.positive = false := by
            cases hb : b.positive with
            | false => rfl
            | true => rw [hp, hb] at hab; exact absurd rfl hab.2.2
          exact ⟨b, hb, by simp [GLitHolds, this, ← hab.1, ← hab.2.1, hv]⟩
  · rw [e]
    simp only [iff_false]
    rintro ⟨l, hl, h'⟩
    obtain ⟨h1, h2⟩ := h l hl
    simp [GLitHolds, h1, h2] at h'
  · rw [e]
    constructor
    · rintro ⟨l, hl, h'⟩
      refine ⟨l, (hd l).2 ⟨hl, fun e => ?_⟩, h'⟩
      simp [GLitHolds, hn l hl e, e] at h'
    · rintro ⟨l, hl, h'⟩
      exact ⟨l, ((hd l).1 hl).1, h'⟩

example : ¬ GClauseHolds (fun n : Nat => n) [⟨3, 3, false⟩, ⟨1, 2, true⟩] := by
  simp [GClauseHolds, GLitHolds]

/-- **C21 (orientation).** The identifier of a literal does not depend on the order of its sides. -/
theorem C21_orientation (a b : Nat) (p : Bool) : GLit.new a b p = GLit.new b a p ∧
    ((GLit.new a b p).left = min a b ∧ (GLit.new a b p).right = max a b ∧
      (GLit.new a b p).positive = p) := by
  refine ⟨GLit.new_comm a b p, ?_⟩
  simp only [GLit.new]
  split <;> simp <;> omega

end Acorn
