import Verif.Lemmas.VerifyModule
import Verif.Lemmas.LoweredModule
import Verif.Lemmas.ModuleFacts
/-
The goals of a lowered module are numbered in order, and facts known before a module are visible to all its
goals.
-/
namespace Acorn.Vrf
open Elab Spec Spec.Modules

mutual

theorem goalsOf_lower (importable : EnvFact → Bool) : ∀ (n : EnvNode) (top : Bool) (m : LowModule),
    Vrf.goalsOf (lowerNode importable top m n).2 = List.range' m.goals.length (Modules.goalsOf [] n).length ∧
    (lowerNode importable top m n).1.goals.length = m.goals.length + (Modules.goalsOf [] n).length
  | .structural f, top, m => ⟨rfl, rfl⟩
  | .claim known g f, top, m => by
    refine ⟨rfl, ?_⟩
    simp [lowerNode, LowModule.addGoal, LowModule.addFact, Modules.goalsOf]
  | .block nodes external, top, m => by
    obtain ⟨h1, h2⟩ := goalIds_lower importable nodes false m
    cases external with
    | none => exact ⟨h1, h2⟩
    | some f => exact ⟨h1, h2⟩

theorem goalIds_lower (importable : EnvFact → Bool) : ∀ (ns : List EnvNode) (top : Bool) (m : LowModule),
    goalIds (lowerNodes importable top m ns).2 = List.range' m.goals.length (goalsAt [] ns).length ∧
    (lowerNodes importable top m ns).1.goals.length = m.goals.length + (goalsAt [] ns).length
  | [], top, m => ⟨rfl, rfl⟩
  | n :: ns, top, m => by
    obtain ⟨h1, h2⟩ := goalsOf_lower importable n top m
    obtain ⟨h3, h4⟩ := goalIds_lower importable ns top (lowerNode importable top m n).1
    have hl : ∀ above, (goalsAt above ns).length = (goalsAt [] ns).length := by
      intro above
      have := (lowerNodes_spec importable ns top (lowerNode importable top m n).1).1
      have h5 := this.length above
      have h6 := this.length []
      omega
    have e : (goalsAt [] (n :: ns)).length = (Modules.goalsOf [] n).length + (goalsAt [] ns).length := by
      rw [goalsAt, List.length_append, hl]
    refine ⟨?_, ?_⟩
    · show Vrf.goalsOf _ ++ goalIds _ = _
      rw [h1, h3, h2, e, List.range'_append_1]
    · show (lowerNodes importable top (lowerNode importable top m n).1 ns).1.goals.length = _
      rw [h4, h2, e]; omega

end

mutual

theorem goalsOf_above (a b : List EnvFact) : ∀ n : EnvNode,
    Modules.goalsOf (a ++ b) n = (Modules.goalsOf b n).map fun g => { g with visible := a ++ g.visible }
  | .structural _ => rfl
  | .claim _ _ _ => rfl
  | .block ns _ => goalsAt_above a b ns

theorem goalsAt_above (a b : List EnvFact) : ∀ ns : List EnvNode,
    goalsAt (a ++ b) ns = (goalsAt b ns).map fun g => { g with visible := a ++ g.visible }
  | [] => rfl
  | n :: ns => by
    rw [goalsAt, goalsAt, List.map_append, goalsOf_above a b n, List.append_assoc, goalsAt_above a _ ns]

end

/-- The facts with these numbers are the visible ones. -/
theorem factsOf_visible {M : Source EnvFact} {facts : List EnvFact} (hfact : ∀ i f, facts[i]? = some f → M.fact i = f)
    {ids : List Nat} {visible : List EnvFact} (h : ids.map (facts[·]?) = visible.map some) : ids.map M.fact = visible := by
  induction ids generalizing visible with
  | nil =>
    cases visible with
    | nil => rfl
    | cons _ _ => cases h
  | cons i ids ih =>
    cases visible with
    | nil => cases h
    | cons f visible =>
      rw [List.map_cons, List.map_cons] at h
      injection h with h1 h2
      rw [List.map_cons, ih h2, hfact i f h1]

theorem grows_nil {Fact : Type} {M : Source Fact} (h0 : M.initial = []) (hd : ∀ g, M.direct g = []) (items : List LowItem) :
    Grows M M.initial items := by
  have key : ∀ items : List LowItem, Grows M [] items := by
    intro items
    refine LowItem.rec_1 (motive_1 := fun i => GrowsItem M [] i) (motive_2 := fun is => Grows M [] is)
      ?_ ?_ ?_ ?_ ?_ items
    · intro n; simp [GrowsItem]
    · intro g f; simp [GrowsItem]
    · intro is o h; simpa [GrowsItem] using h
    · simp [Grows]
    · intro i is h1 h2
      cases i <;> simp only [Grows, hd] <;> exact ⟨h1, h2⟩
  rw [h0]
  exact key items

end Acorn.Vrf
