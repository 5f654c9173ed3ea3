/-
C03: sub-term addressing laws.
-/
import Verif.Lemmas.Path
namespace Acorn
open Spec Term

/-- Reading at a path returns exactly the sub-term at that position. -/
theorem C03_get_iff (t s : Term) (p : List PathStep) : t.getAt p = some s ↔ At t p s :=
  getAt_iff t s p

/-- Replacing never panics on a path that exists, and panics on one that does not. -/
theorem C03_replace_total (t r : Term) (p : List PathStep) :
    (∃ t', t.replaceAt p r = some t') ↔ ∃ s, At t p s := by
  rw [← Option.isSome_iff_exists, replaceAt_isSome, Option.isSome_iff_exists]
  simp only [getAt_iff]

/-- Reading back after a replacement gives the replacement. -/
theorem C03_get_replace (t t' r : Term) (p : List PathStep) (h : t.replaceAt p r = some t') :
    At t' p r :=
  (getAt_iff _ _ _).1 (getAt_replaceAt t t' r p h)

/-- Replacing a sub-term by itself changes nothing. -/
theorem C03_replace_self (t s : Term) (p : List PathStep) (h : At t p s) :
    t.replaceAt p s = some t :=
  replaceAt_self t s p ((getAt_iff _ _ _).2 h)

/-- A replacement leaves every disjoint position as it was. -/
theorem C03_replace_frame (t t' r : Term) (p q : List PathStep) (hd : Disjoint p q)
    (h : t.replaceAt p r = some t') (s : Term) : At t' q s ↔ At t q s := by
  rw [← getAt_iff, ← getAt_iff, getAt_replaceAt_disjoint t t' r p q hd h]

/-- Replacements at disjoint positions commute. -/
theorem C03_replace_comm (t r s : Term) (p q : List PathStep) (hd : Disjoint p q) :
    (t.replaceAt p r).bind (fun u => u.replaceAt q s)
      = (t.replaceAt q s).bind (fun u => u.replaceAt p r) :=
  replaceAt_comm t r s p q hd

/-- The rewritable sub-terms are genuine (path, sub-term) pairs, none of them `true`. -/
theorem C03_rewritable_sound (t : Term) (l : List (List PathStep × Term))
    (h : t.rewritableSubterms = some l) (p : List PathStep) (s : Term) (hm : (p, s) ∈ l) :
    At t p s ∧ s ≠ .tt := by
  obtain ⟨q, rfl, hv⟩ := (rewritable_mem t [] l h p s).1 hm
  exact ⟨hv.to_at, hv.ne_tt⟩

/-- Every sub-term other than `true` is listed, provided `true` never occurs as the head of a
larger term (it is not a function, so well-typed terms satisfy this). -/
theorem C03_rewritable_complete (t : Term) (l : List (List PathStep × Term))
    (h : t.rewritableSubterms = some l)
    (ht : ∀ q u, At t q u → u.isTrue = true → u = .tt)
    (p : List PathStep) (s : Term) (hp : At t p s) (hs : s ≠ .tt) : (p, s) ∈ l :=
  (rewritable_mem t [] l h p s).2 ⟨p, rfl, vis_of_at hp ht hs⟩

/-- No path is listed twice. -/
theorem C03_rewritable_nodup (t : Term) (l : List (List PathStep × Term))
    (h : t.rewritableSubterms = some l) : (l.map Prod.fst).Nodup :=
  rewritable_nodup t [] l h

/-- The listing does not panic when no position holds a variable. -/
theorem C03_rewritable_total (t : Term) (h : ∀ p s, At t p s → s.isVariable = false) :
    ∃ l, t.rewritableSubterms = some l :=
  Option.isSome_iff_exists.1 (rewritable_isSome t [] (fun p s hv => h p s hv.to_at))

/-- A concrete case: `f(g(a), true)`. -/
example :
    let f : Term := .sym (.global 0 0)
    let g : Term := .sym (.global 0 1)
    let a : Term := .sym (.global 0 2)
    let t : Term := .app (.app f (.app g a)) .tt
    t.rewritableSubterms = some
      [([.function, .function], f), ([.function, .argument, .function], g),
       ([.function, .argument, .argument], a), ([.function, .argument], .app g a),
       ([.function], .app f (.app g a)), ([], t)]
    ∧ t.replaceAt [.function, .argument] a = some (.app (.app f a) .tt)
    ∧ Disjoint [.function, .argument] [.argument] := by
  refine ⟨rfl, rfl, by decide, by decide⟩

end Acorn
