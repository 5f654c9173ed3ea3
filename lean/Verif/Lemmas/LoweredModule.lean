/-
The facts visible to each goal of a lowered module.
-/
import Verif.Model.LoweredModule
import Verif.Spec.Environment
namespace Acorn
namespace Elab

open Spec Spec.Modules

/-- The numbers are those of the facts. -/
def Reads (facts : List EnvFact) (ids : List Nat) (fs : List EnvFact) : Prop := ids.map (facts[·]?) = fs.map some

theorem Reads.more {facts more fs : List EnvFact} {ids : List Nat} (h : Reads facts ids fs) :
    Reads (facts ++ more) ids fs := by
  unfold Reads at h ⊢
  rw [← h]
  refine List.map_congr_left fun i hi => ?_
  have : facts[i]? ∈ fs.map some := h ▸ List.mem_map.2 ⟨i, hi, rfl⟩
  obtain ⟨f, _, e⟩ := List.mem_map.1 this
  obtain ⟨hlt, _⟩ := List.getElem?_eq_some_iff.1 e.symm
  rw [List.getElem?_append_left hlt]

theorem Reads.append {facts fs gs : List EnvFact} {ids js : List Nat} (h : Reads facts ids fs) (h' : Reads facts js gs) :
    Reads facts (ids ++ js) (fs ++ gs) := by
  unfold Reads at *
  rw [List.map_append, List.map_append, h, h']

theorem Reads.new {facts : List EnvFact} {f : EnvFact} : Reads (facts ++ [f]) [facts.length] [f] := by
  simp [Reads]

/-- What the search for a goal gives after some nodes. -/
structure Finds (m r : LowModule) (goals : List GoalAt) (goal : Nat) (found : Option (List Nat)) : Prop where
  inside : ∀ g, m.goals.length ≤ goal → goals[goal - m.goals.length]? = some g →
    ∃ ids, found = some ids ∧ Reads r.facts ids g.visible
  outside : (goal < m.goals.length ∨ r.goals.length ≤ goal) → found = none

/-- What lowering some nodes does. -/
structure Lowers (importable : EnvFact → Bool) (top : Bool) (m r : LowModule) (goals : List EnvFact → List GoalAt)
    (made : List EnvFact) : Prop where
  facts : ∃ fs, r.facts = m.facts ++ fs
  goals : ∀ above, r.goals = m.goals ++ (goals above).map fun g => (g.known, g.goal)
  exported : ∃ ids, r.moduleFacts = m.moduleFacts ++ ids ∧
    Reads r.facts ids (if top then made.filter importable else [])

theorem Lowers.length {importable : EnvFact → Bool} {top : Bool} {m r : LowModule} {goals : List EnvFact → List GoalAt}
    {made : List EnvFact} (h : Lowers importable top m r goals made) (above : List EnvFact) :
    r.goals.length = m.goals.length + (goals above).length := by
  rw [h.goals above]
  simp

theorem addFact_exported (importable : EnvFact → Bool) (top : Bool) (m : LowModule) (f : EnvFact) :
    ∃ ids, (m.addFact importable top f).1.moduleFacts = m.moduleFacts ++ ids ∧
      Reads (m.addFact importable top f).1.facts ids (if top then [f].filter importable else []) := by
  unfold LowModule.addFact
  cases top with
  | false => exact ⟨[], by simp, by simp [Reads]⟩
  | true =>
    cases e : importable f with
    | false => exact ⟨[], by simp [e], by simp [Reads, e]⟩
    | true => exact ⟨[m.facts.length], by simp [e], by simpa [e] using Reads.new⟩

mutual

theorem lowerNode_spec (importable : EnvFact → Bool) : ∀ (n : EnvNode) (top : Bool) (m : LowModule),
    Lowers importable top m (lowerNode importable top m n).1 (fun above => goalsOf above n) (nodeFact n) ∧
    ∀ above acc, Reads m.facts acc above → ∀ goal,
      match visibleItem goal acc (lowerNode importable top m n).2 with
      | .inl ids => Finds m (lowerNode importable top m n).1 (goalsOf above n) goal (some ids)
      | .inr acc' => Finds m (lowerNode importable top m n).1 (goalsOf above n) goal none ∧
          Reads (lowerNode importable top m n).1.facts acc' (above ++ nodeFact n)
  | .structural f, top, m => by
    refine ⟨⟨⟨[f], rfl⟩, fun above => by simp [lowerNode, goalsOf, LowModule.addFact], ?_⟩, fun above acc h goal => ?_⟩
    · exact addFact_exported importable top m f
    · refine ⟨⟨fun g _ e => ?_, fun _ => rfl⟩, (Reads.more h).append Reads.new⟩
      simp [goalsOf] at e
  | .claim known v f, top, m => by
    have hl : (lowerNode importable top m (.claim known v f)).1.goals = m.goals ++ [(known, v)] := rfl
    refine ⟨⟨⟨[f], rfl⟩, fun above => by simp [lowerNode, goalsOf, LowModule.addFact, LowModule.addGoal], ?_⟩,
      fun above acc h goal => ?_⟩
    · exact addFact_exported importable top (m.addGoal known v).1 f
    · show match (if m.goals.length = goal then (Sum.inl acc : List Nat ⊕ List Nat) else .inr (acc ++ [m.facts.length])) with
        | .inl ids => _
        | .inr acc' => _
      by_cases e : m.goals.length = goal
      · rw [if_pos e]
        refine ⟨fun g _ hg => ?_, fun ho => ?_⟩
        · subst e
          simp only [goalsOf, Nat.sub_self, List.getElem?_cons_zero, Option.some.injEq] at hg
          subst hg
          exact ⟨acc, rfl, Reads.more h⟩
        · rw [hl] at ho
          simp only [List.length_append, List.length_cons, List.length_nil] at ho
          omega
      · rw [if_neg e]
        refine ⟨⟨fun g hle hg => ?_, fun _ => rfl⟩, (Reads.more h).append Reads.new⟩
        simp only [goalsOf] at hg
        obtain ⟨hlt, _⟩ := List.getElem?_eq_some_iff.1 hg
        simp only [List.length_cons, List.length_nil] at hlt
        omega
  | .block nodes ext, top, m => by
    obtain ⟨hL, hV⟩ := lowerNodes_spec importable nodes false m
    obtain ⟨fs, hfs⟩ := hL.facts
    obtain ⟨ids, hids, hrd⟩ := hL.exported
    simp only [Bool.false_eq_true, if_false] at hrd
    have hnil : ids = [] := by
      unfold Reads at hrd
      simpa using hrd
    subst hnil
    rw [List.append_nil] at hids
    cases ext with
    | none =>
      refine ⟨⟨hL.facts, hL.goals, [], ?_, ?_⟩, fun above acc h goal => ?_⟩
      · exact hids.trans (List.append_nil _).symm
      · cases top <;> simp [Reads, nodeFact]
      · have hF := hV above acc h goal
        simp only [lowerNode, visibleItem, goalsOf, nodeFact, Option.toList_none, List.append_nil]
        cases e : visibleFor goal acc (lowerNodes importable false m nodes).2 with
        | some r => rw [e] at hF; exact hF
        | none =>
          rw [e] at hF
          refine ⟨hF, ?_⟩
          rw [hfs]
          exact Reads.more h
    | some f =>
      refine ⟨⟨⟨fs ++ [f], ?_⟩, fun above => hL.goals above, ?_⟩, fun above acc h goal => ?_⟩
      · simp [lowerNode, LowModule.addFact, hfs]
      · have := addFact_exported importable top (lowerNodes importable false m nodes).1 f
        rw [hids] at this
        exact this
      · have hF := hV above acc h goal
        simp only [lowerNode, visibleItem, goalsOf, nodeFact, Option.toList_some]
        cases e : visibleFor goal acc (lowerNodes importable false m nodes).2 with
        | some r =>
          rw [e] at hF
          refine ⟨fun g h1 h2 => ?_, hF.outside⟩
          obtain ⟨ids, h3, h4⟩ := hF.inside g h1 h2
          exact ⟨ids, h3, Reads.more h4⟩
        | none =>
          rw [e] at hF
          refine ⟨⟨fun g h1 h2 => ?_, hF.outside⟩, ?_⟩
          · obtain ⟨ids, h3, h4⟩ := hF.inside g h1 h2
            exact ⟨ids, h3, Reads.more h4⟩
          · refine Reads.append ?_ Reads.new
            show Reads ((lowerNodes importable false m nodes).1.facts ++ [f]) acc above
            rw [hfs]
            exact Reads.more (Reads.more h)

theorem lowerNodes_spec (importable : EnvFact → Bool) : ∀ (ns : List EnvNode) (top : Bool) (m : LowModule),
    Lowers importable top m (lowerNodes importable top m ns).1 (fun above => goalsAt above ns) (nodeFacts ns) ∧
    ∀ above acc, Reads m.facts acc above → ∀ goal,
      Finds m (lowerNodes importable top m ns).1 (goalsAt above ns) goal
        (visibleFor goal acc (lowerNodes importable top m ns).2)
  | [], top, m => by
    refine ⟨⟨⟨[], (List.append_nil _).symm⟩, fun above => by simp [lowerNodes, goalsAt], [], by simp [lowerNodes], by
      cases top <;> simp [Reads, nodeFacts]⟩, fun above acc _ goal => ⟨fun g _ e => ?_, fun _ => rfl⟩⟩
    simp [goalsAt] at e
  | n :: ns, top, m => by
    obtain ⟨h1, v1⟩ := lowerNode_spec importable n top m
    obtain ⟨h2, v2⟩ := lowerNodes_spec importable ns top (lowerNode importable top m n).1
    obtain ⟨f1, hf1⟩ := h1.facts
    obtain ⟨f2, hf2⟩ := h2.facts
    refine ⟨⟨⟨f1 ++ f2, ?_⟩, fun above => ?_, ?_⟩, fun above acc h goal => ?_⟩
    · show (lowerNodes importable top (lowerNode importable top m n).1 ns).1.facts = _
      rw [hf2, hf1, List.append_assoc]
    · show (lowerNodes importable top (lowerNode importable top m n).1 ns).1.goals = _
      rw [h2.goals (above ++ nodeFact n), h1.goals above, goalsAt, List.map_append, List.append_assoc]
    · obtain ⟨i1, e1, r1⟩ := h1.exported
      obtain ⟨i2, e2, r2⟩ := h2.exported
      refine ⟨i1 ++ i2, ?_, ?_⟩
      · show (lowerNodes importable top (lowerNode importable top m n).1 ns).1.moduleFacts = _
        rw [e2, e1, List.append_assoc]
      · have r1' : Reads (lowerNodes importable top (lowerNode importable top m n).1 ns).1.facts i1
            (if top then (nodeFact n).filter importable else []) := by
          rw [hf2]; exact Reads.more r1
        have := r1'.append r2
        show Reads (lowerNodes importable top (lowerNode importable top m n).1 ns).1.facts _ _
        cases top with
        | false => simpa using this
        | true => simpa [nodeFacts] using this
    · have hv := v1 above acc h goal
      have l1 := h1.length above
      have l2 := h2.length (above ++ nodeFact n)
      show Finds m (lowerNodes importable top (lowerNode importable top m n).1 ns).1 _ goal
        (match visibleItem goal acc (lowerNode importable top m n).2 with
          | .inl r => some r
          | .inr visible => visibleFor goal visible (lowerNodes importable top (lowerNode importable top m n).1 ns).2)
      cases e : visibleItem goal acc (lowerNode importable top m n).2 with
      | inl ids =>
        rw [e] at hv
        refine ⟨fun g hle hg => ?_, fun ho => ?_⟩
        · by_cases hlt : goal - m.goals.length < (goalsOf above n).length
          · rw [goalsAt, List.getElem?_append_left hlt] at hg
            obtain ⟨ids', h3, h4⟩ := hv.inside g hle hg
            refine ⟨ids', h3, ?_⟩
            rw [hf2]; exact Reads.more h4
          · exact absurd (hv.outside (.inr (by omega))) (by simp)
        · refine hv.outside ?_
          rcases ho with ho | ho
          · exact .inl ho
          · exact .inr (by omega)
      | inr acc' =>
        rw [e] at hv
        have v2' := v2 (above ++ nodeFact n) acc' hv.2 goal
        refine ⟨fun g hle hg => ?_, fun ho => ?_⟩
        · by_cases hlt : goal - m.goals.length < (goalsOf above n).length
          · rw [goalsAt, List.getElem?_append_left hlt] at hg
            obtain ⟨ids', h3, _⟩ := hv.1.inside g hle hg
            cases h3
          · rw [goalsAt, List.getElem?_append_right (by omega)] at hg
            refine v2'.inside g (by omega) ?_
            rw [l1, ← Nat.sub_sub]
            exact hg
        · refine v2'.outside ?_
          rcases ho with ho | ho
          · exact .inl (by omega)
          · exact .inr ho

end

end Elab
end Acorn
