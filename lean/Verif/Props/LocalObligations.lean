/-
C66: what the proof obligations of local bindings export has been proved.
-/
import Verif.Lemmas.LocalObligations
namespace Acorn
open Elab Spec LocalObl

universe u

section
variable {F : Frame.{u}} {C : String → List F.T → F.D} {θ : String → F.T}

/-- Every fact that a local obligation gives to the outside is true, in every interpretation in which its block and the
blocks in it, to any depth, are proved: the premises of a branch that were assumed inside are conditions outside.  Missing: that the
obligations which the evaluator makes are on the stack of their block, as `SameStack` assumes. -/
theorem C66_exported_facts_hold_partial {o : Obl} (hs : o.SameStack) (hp : o.node.Proved F C θ) {v : Value}
    (hv : o.node.fact = some v) : F.Holds C θ [] v := by
  cases o with
  | claim ts ps c g =>
    simp only [Obl.node, BNode.fact] at hv
    split at hv
    · cases hv
      exact (den_mkAll θ [] ts _).2 fun xs hx => holds_guard.2 fun hps => (hp xs hx hps).1 c rfl
    · cases hv
  | witness ts e ps w =>
    cases hv
    exact (den_mkAll θ [] ts e).2 fun xs hx => (hp xs hx (by simp)).1 e rfl
  | block ts ps os =>
    simp only [Obl.node, BNode.fact, externalBlock, Option.map_eq_some_iff] at hv
    obtain ⟨c, hc, rfl⟩ := hv
    exact (den_mkAll θ [] ts _).2 fun xs hx => holds_guard.2 fun hps =>
      (holds_conjoin hc).2 fun w hw => allExported_hold hs (hp xs hx hps).2 hw xs hx

/-- A claim that is exported says outside exactly what was to be proved inside. -/
theorem C66_claim_exact {ts : List Ty} {ps : List Value} {c v : Value} (hv : (Obl.claim ts ps c true).node.fact = some v) :
    F.Holds C θ [] v ↔ ∀ xs, F.Fits xs (F.tys θ ts) → (∀ p ∈ ps, F.Holds C θ xs p) → F.Holds C θ xs c := by
  cases hv
  exact (den_mkAll θ [] ts _).trans (forall_congr' fun xs => forall_congr' fun _ => holds_guard)

/-- A block says outside exactly what the guarded claims in it say, at any depth, on the stack of the block and under the
premises of all the blocks around them.  If it says nothing, there are none that say anything. -/
theorem C66_block_exact {ts : List Ty} {ps : List Value} {os : Obls} :
    (∀ v, (Obl.block ts ps os).node.fact = some v → F.Holds C θ [] v) ↔
      ∀ xs, F.Fits xs (F.tys θ ts) → (Obl.block ts ps os).Says F C θ xs := by
  simp only [Obl.node, BNode.fact, externalBlock, Option.map_eq_some_iff, Obl.Says]
  constructor
  · intro h xs hx hps
    rw [← say_iff]
    intro v hv
    cases hc : conjoin (os.exported ts.length) with
    | none => rw [conjoin_none hc] at hv; cases hv
    | some c =>
      have := (den_mkAll θ [] ts _).1 (h _ ⟨c, hc, rfl⟩) xs hx
      exact (holds_conjoin hc).1 (holds_guard.1 this hps) v hv
  · rintro h v ⟨c, hc, rfl⟩
    exact (den_mkAll θ [] ts _).2 fun xs hx => holds_guard.2 fun hps => (holds_conjoin hc).2 (say_iff.2 (h xs hx hps))

/-- That a witness exists has to be proved without the premises of the branch: a branch that is never taken does not give
a value of an empty type. -/
theorem C66_witness_unconditional {ts : List Ty} {e w v : Value} {ps : List Value}
    (hv : (Obl.witness ts e ps w).node.fact = some v) :
    ((Obl.witness ts e ps w).node.Proved F C θ ↔ ∀ xs, F.Fits xs (F.tys θ ts) → F.Holds C θ xs e) ∧
    (F.Holds C θ [] v ↔ ∀ xs, F.Fits xs (F.tys θ ts) → F.Holds C θ xs e) := by
  cases hv
  refine ⟨⟨fun hp xs hx => (hp xs hx (by simp)).1 e rfl, fun h xs hx _ => ⟨fun g hg => ?_, trivial⟩⟩, den_mkAll θ [] ts e⟩
  cases hg; exact h xs hx

/-- That the obligations in a block are on its stack is needed: the code compares only the numbers of variables.  On
another stack with as many variables, here one of an empty type, a proved block would export something false. -/
theorem C66_only_lengths_compared (hE : ∀ d, ¬ F.mem d (F.data "Empty" [])) : ∃ (o : Obl) (v : Value),
    o.node.Proved F C θ ∧ o.node.fact = some v ∧ ¬ F.Holds C θ [] v := by
  refine ⟨.block [.bool] [] (.cons (.claim [.data "Empty" []] [] (.bool false) true) .nil), .all [.bool] (.bool false),
    fun xs _ _ => ⟨fun g hg => (by cases hg), ⟨fun ys hy _ => ?_, trivial⟩⟩, rfl, fun h => ?_⟩
  · cases ys with
    | nil => exact hy.elim
    | cons y ys => exact absurd hy.1 (hE y)
  · have := (den_mkAll θ [] [.bool] (.bool false)).1 h [F.tt] ⟨(F.mem_bool _).2 (.inl rfl), trivial⟩
    unfold Frame.Holds at this
    rw [Frame.den, ofProp_tt] at this
    cases this

/-- What is only meant for the inside is not given to the outside. -/
theorem C66_internal_only (ts : List Ty) (ps : List Value) (c : Value) : (Obl.claim ts ps c false).node.fact = none ∧
    ∀ n, (Obl.claim ts ps c false).exported n = none := by
  refine ⟨rfl, fun n => ?_⟩
  simp [Obl.exported]

end

namespace LocalOblDemo

/-- In a block for `x: Bool` with the premise `x`: the claim `x or not x`, guarded by `not x`, and one that stays inside. -/
def o : Obl := .block [.bool] [.var 0 .bool]
  (.cons (.claim [.bool] [.not (.var 0 .bool)] (.bin .or (.var 0 .bool) (.not (.var 0 .bool))) true)
    (.cons (.claim [.bool] [] (.bool true) false) .nil))

example : o.SameStack := by simp [o, Obl.SameStack, Obls.SameStack, Obl.types]

/-- What is exported: `forall(x: Bool) { x implies (not x implies (x or not x)) }`. -/
example : o.node.fact = some (.all [.bool] (.bin .implies (.var 0 .bool)
    (.bin .implies (.not (.var 0 .bool)) (.bin .or (.var 0 .bool) (.not (.var 0 .bool)))))) := rfl

/-- It is proved in every frame. -/
example (F : Frame.{0}) (C : String → List F.T → F.D) (θ : String → F.T) : o.node.Proved F C θ := by
  intro xs _ _
  refine ⟨fun g hg => (by cases hg), ⟨fun ys _ hq => ⟨fun g hg => ?_, trivial⟩, ⟨fun ys _ _ => ⟨fun g hg => ?_, trivial⟩, trivial⟩⟩⟩
  · cases hg
    have := hq _ (List.mem_singleton.2 rfl)
    unfold Frame.Holds
    rw [Frame.den, ofProp_tt]
    exact .inr this
  · cases hg
    unfold Frame.Holds
    rw [Frame.den, ofProp_tt]

end LocalOblDemo

end Acorn
