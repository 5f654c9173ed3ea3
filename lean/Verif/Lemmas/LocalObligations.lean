/-
Helper lemmas for C66.
-/
import Verif.Spec.LocalObligations
import Verif.Lemmas.ValueReplace
namespace Acorn
namespace LocalObl
open Elab Spec

universe u
variable {F : Frame.{u}} {C : String → List F.T → F.D} {θ : String → F.T}

theorem holds_and {e : List F.D} {a b : Value} : F.Holds C θ e (.bin .and a b) ↔ F.Holds C θ e a ∧ F.Holds C θ e b := by
  unfold Frame.Holds
  rw [Frame.den, ofProp_tt]
  rfl

theorem holds_implies {e : List F.D} {a b : Value} :
    F.Holds C θ e (.bin .implies a b) ↔ (F.Holds C θ e a → F.Holds C θ e b) := by
  unfold Frame.Holds
  rw [Frame.den, ofProp_tt]
  rfl

theorem holds_fold {e : List F.D} : ∀ {vs : List Value} {v : Value},
    F.Holds C θ e (vs.foldl (.bin .and) v) ↔ F.Holds C θ e v ∧ ∀ w ∈ vs, F.Holds C θ e w
  | [], v => by simp
  | w :: vs, v => by
    rw [List.foldl_cons, holds_fold, holds_and, and_assoc]
    simp

theorem holds_conjoin {e : List F.D} {vs : List Value} {c : Value} (h : conjoin vs = some c) :
    F.Holds C θ e c ↔ ∀ v ∈ vs, F.Holds C θ e v := by
  cases vs with
  | nil => cases h
  | cons v vs => cases h; rw [holds_fold]; simp

theorem holds_guard {e : List F.D} {ps : List Value} {v : Value} :
    F.Holds C θ e (guard ps v) ↔ ((∀ p ∈ ps, F.Holds C θ e p) → F.Holds C θ e v) := by
  cases ps with
  | nil => simp [guard]
  | cons p ps =>
    have h : conjoin (p :: ps) = some (conjoinPremises (p :: ps)) := rfl
    simp only [guard, List.isEmpty_cons, Bool.false_eq_true, if_false]
    rw [holds_implies, holds_conjoin h]

mutual
  theorem exported_holds : ∀ {o : Obl}, o.SameStack → o.node.Proved F C θ → ∀ {n : Nat} {v : Value},
      o.exported n = some v → n = o.types.length ∧ ∀ xs, F.Fits xs (F.tys θ o.types) → F.Holds C θ xs v
    | .claim ts ps c g, _, hp, n, v, h => by
      simp only [Obl.exported] at h
      split at h
      · cases h
      · rename_i hn
        split at h
        · cases h
          refine ⟨(Classical.not_not.1 hn).symm, fun xs hx => holds_guard.2 fun hps => ?_⟩
          exact (hp xs hx hps).1 c rfl
        · cases h
    | .witness _ _ _ _, _, _, n, v, h => by cases h
    | .block ts ps os, hs, hp, n, v, h => by
      simp only [Obl.exported] at h
      split at h
      · cases h
      · rename_i hn
        have hn : ts.length = n := Classical.not_not.1 hn
        refine ⟨hn.symm, fun xs hx => ?_⟩
        split at h
        · cases h
        · rename_i c hc
          have hg : F.Holds C θ xs (guard ps c) := holds_guard.2 fun hps =>
            (holds_conjoin hc).2 fun w hw => allExported_hold hs (hp xs hx hps).2 hw xs hx
          cases ts with
          | nil =>
            cases hn
            simp only [List.length_nil, if_true, Option.some.injEq] at h
            subst h
            exact hg
          | cons t ts =>
            have : n ≠ 0 := by rw [← hn]; simp
            rw [if_neg this] at h
            simp only [Value.mkAll, List.isEmpty_cons, Bool.false_eq_true, if_false, Option.some.injEq] at h
            subst h
            exact hg
  theorem allExported_hold : ∀ {os : Obls} {ts : List Ty}, os.SameStack ts → os.nodes.Proved F C θ →
      ∀ {v : Value}, v ∈ os.exported ts.length → ∀ xs, F.Fits xs (F.tys θ ts) → F.Holds C θ xs v
    | .nil, ts, _, _, v, h => by cases h
    | .cons o os, ts, hs, hp, v, h => by
      simp only [Obls.exported, List.mem_append, Option.mem_toList, Option.mem_def] at h
      rcases h with h | h
      · obtain ⟨h1, h2⟩ := exported_holds hs.2.1 hp.1 h
        rw [hs.1 h1.symm] at h2
        exact h2
      · exact allExported_hold hs.2.2 hp.2 h
end

theorem conjoin_none {vs : List Value} (h : conjoin vs = none) : vs = [] := by
  cases vs with
  | nil => rfl
  | cons v vs => cases h

mutual
  theorem says_iff {xs : List F.D} {n : Nat} : ∀ {o : Obl}, (∀ v, o.exported n = some v → F.Holds C θ xs v) ↔
      (o.types.length = n → o.Says F C θ xs)
    | .claim ts ps c g => by
      simp only [Obl.exported, Obl.types, Obl.Says]
      by_cases hn : ts.length = n
      · cases g
        · simp [hn]
        · simp [hn, holds_guard]
      · simp [hn]
    | .witness _ _ _ _ => by simp [Obl.exported, Obl.Says]
    | .block ts ps os => by
      simp only [Obl.exported, Obl.types, Obl.Says]
      by_cases hn : ts.length = n
      · subst hn
        rw [← say_iff (xs := xs) (n := ts.length) (os := os)]
        cases hc : conjoin (os.exported ts.length) with
        | none => simp [conjoin_none hc]
        | some c =>
          have key : F.Holds C θ xs (guard ps c) ↔
              ((∀ p ∈ ps, F.Holds C θ xs p) → ∀ v ∈ os.exported ts.length, F.Holds C θ xs v) := by
            rw [holds_guard, holds_conjoin hc]
          cases ts with
          | nil => simpa [Value.mkAll] using key
          | cons t ts => simpa [Value.mkAll] using key
      · simp [hn]
  theorem say_iff {xs : List F.D} {n : Nat} : ∀ {os : Obls}, (∀ v ∈ os.exported n, F.Holds C θ xs v) ↔
      os.Say F C θ xs n
    | .nil => by simp [Obls.exported, Obls.Say]
    | .cons o os => by
      simp only [Obls.exported, Obls.Say, List.mem_append, Option.mem_toList, Option.mem_def, or_imp, forall_and]
      rw [says_iff (o := o), say_iff (os := os)]
end

end LocalObl

end Acorn
