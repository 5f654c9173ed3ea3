/-
The literal order, sorted and duplicate-free literal lists, tautologies.
-/
import Verif.Lemmas.ClauseTotal
import Verif.Lemmas.Sorting
import Verif.Lemmas.Kbo
namespace Acorn
open Term Spec

universe u

namespace Literal

/-- A literal without binders. -/
def NoBinder (l : Literal) : Prop := l.left.noBinder = true ∧ l.right.noBinder = true

abbrev SmallLit (n : Nat) :=
  { l : Literal // (l.left.noBinder = true ∧ l.left.size < n) ∧ (l.right.noBinder = true ∧ l.right.size < n) }

theorem cmp_trans (n : Nat) : Std.TransCmp (fun (a b : SmallLit n) => Literal.cmp a.1 b.1) := by
  have h0 := extCmp_trans n
  have h1 := transCmp_on (fun (a b : Nat) => compare a b) (fun (a : SmallLit n) => a.1.positive.toNat)
  have h2 := transCmp_on (fun (a b : Small n) => extCmp b.1 a.1)
    (fun (a : SmallLit n) => (⟨a.1.left, a.2.1⟩ : Small n))
  have h3 := transCmp_on (fun (a b : Small n) => extCmp b.1 a.1)
    (fun (a : SmallLit n) => (⟨a.1.right, a.2.2⟩ : Small n))
  exact transCmp_congr (d := compareLex (fun a b => compare a.1.positive.toNat b.1.positive.toNat)
    (compareLex (fun a b => extCmp b.1.left a.1.left) (fun a b => extCmp b.1.right a.1.right)))
    (fun a b => rfl)

theorem le_trans {a b c : Literal} (ha : a.NoBinder) (hb : b.NoBinder) (hc : c.NoBinder)
    (h1 : le a b = true) (h2 : le b c = true) : le a c = true := by
  let n := a.left.size + a.right.size + b.left.size + b.right.size + c.left.size + c.right.size + 1
  have := cmp_trans n
  exact Std.TransCmp.isLE_trans (cmp := fun (a b : SmallLit n) => Literal.cmp a.1 b.1)
    (a := ⟨a, ⟨ha.1, by omega⟩, ⟨ha.2, by omega⟩⟩) (b := ⟨b, ⟨hb.1, by omega⟩, ⟨hb.2, by omega⟩⟩)
    (c := ⟨c, ⟨hc.1, by omega⟩, ⟨hc.2, by omega⟩⟩) h1 h2

theorem cmp_swap (a b : Literal) : cmp a b = (cmp b a).swap := by
  simp only [cmp, then_swap]
  rw [extCmp_swap _ b.left a.left (Nat.le_refl _), extCmp_swap _ b.right a.right (Nat.le_refl _)]
  congr 1
  exact Std.OrientedCmp.eq_swap

theorem le_total {a b : Literal} (h : le a b = false) : le b a = true := by
  simp only [le] at *
  rw [cmp_swap] at h
  cases h' : cmp b a <;> simp_all [Ordering.swap, Ordering.isLE]

theorem le_antisymm {a b : Literal} (ha : a.NoBinder) (hb : b.NoBinder) (h1 : le a b = true)
    (h2 : le b a = true) : a = b := by
  have h : cmp a b = .eq := by
    simp only [le] at *
    rw [cmp_swap] at h1
    rw [cmp_swap]
    cases h' : cmp b a <;> simp_all [Ordering.swap, Ordering.isLE]
  simp only [cmp, then_eq_eq] at h
  obtain ⟨p, l, r⟩ := a
  obtain ⟨q, l', r'⟩ := b
  simp only at h
  have e1 := extCmp_eq_eq _ _ _ (Nat.le_refl _) hb.1 ha.1 h.2.1
  have e2 := extCmp_eq_eq _ _ _ (Nat.le_refl _) hb.2 ha.2 h.2.2
  have e3 := Nat.compare_eq_eq.1 h.1
  simp only at e1 e2
  subst e1 e2
  cases p <;> cases q <;> simp_all

end Literal

/-- No positive literal comes before a negative one. -/
def NegFirst (ls : List Literal) : Prop :=
  ls.Pairwise fun a b => b.positive = false → a.positive = false

theorem sortLits_negFirst (ls : List Literal) : NegFirst (sortLits ls) := by
  refine insertSort_pairwise (P := fun _ => True) ?_ ?_ ?_ ls (fun _ _ => trivial)
  · intro a b _ _ h hb
    cases ha : a.positive with
    | false => rfl
    | true => simp [Literal.le, Literal.cmp, ha, hb, compare, compareOfLessAndEq] at h
  · intro a b _ _ h ha
    cases hb : b.positive with
    | false => rfl
    | true => simp [Literal.le, Literal.cmp, ha, hb, compare, compareOfLessAndEq] at h
  · intro a b c _ _ _ h1 h2 h; exact h1 (h2 h)

theorem dedupSort_negFirst (ls : List Literal) : NegFirst (dedupAdj (sortLits ls)) :=
  List.Pairwise.sublist (dedupAdj_sublist _) (sortLits_negFirst ls)

theorem dedupSort_nodup {ls : List Literal} (h : ∀ l ∈ ls, l.NoBinder) :
    (dedupAdj (sortLits ls)).Nodup := by
  have h1 : (sortLits ls).Pairwise fun a b => Literal.le a b = true :=
    insertSort_pairwise (P := Literal.NoBinder) (R := fun a b => Literal.le a b = true)
      (fun a b _ _ h => h) (fun a b _ _ h => Literal.le_total h)
      (fun a b c ha hb hc h1 h2 => Literal.le_trans ha hb hc h1 h2) ls h
  have h2 : (sortLits ls).Pairwise fun a b => Literal.le a b = true ∧ a.NoBinder ∧ b.NoBinder :=
    List.Pairwise.imp_of_mem (fun ha hb hab => ⟨hab, h _ (mem_sortLits.1 ha), h _ (mem_sortLits.1 hb)⟩) h1
  exact dedupAdj_nodup (fun a b h1 h2 => Literal.le_antisymm h1.2.1 h1.2.2 h1.1 h2.1) _ h2

theorem tautology_holds {M : Interp.{u}} {c : Clause} (hn : NegFirst c.lits)
    (h : c.isTautology = true) (ρ β : Nat → M.D) : LitsHold M ρ β c.lits := by
  simp only [Clause.isTautology, Bool.or_eq_true, List.any_eq_true, Bool.and_eq_true,
    decide_eq_true_eq] at h
  rcases h with ⟨n, hnm, p, hp, e1, e2⟩ | ⟨l, hl, e⟩
  · have hneg : n.positive = false := by
      obtain ⟨k, hk, rfl⟩ := List.mem_take_iff_getElem.1 hnm
      have hk' : k < c.lits.findIdx (·.positive) := by omega
      simpa using List.not_of_lt_findIdx hk'
    have hpos : p.positive = true := by
      cases hpp : p.positive with
      | true => rfl
      | false =>
        exfalso
        obtain ⟨k, hk, rfl⟩ := List.mem_drop_iff_getElem.1 hp
        have hi : c.lits.findIdx (·.positive) < c.lits.length := by omega
        have h0 : (c.lits[c.lits.findIdx (·.positive)]).positive = true :=
          List.findIdx_getElem (w := hi)
        rcases Nat.eq_zero_or_pos k with rfl | hk0
        · simp at hpp; simp [h0] at hpp
        · have := List.pairwise_iff_getElem.1 hn _ _ hi (by omega) (by omega) hpp
          simp [h0] at this
    by_cases hh : eval M ρ β n.left = eval M ρ β n.right
    · refine ⟨p, List.mem_of_mem_drop hp, ?_⟩
      simp only [LitHolds, hpos, ↓reduceIte]; rw [← e1, ← e2]; exact hh
    · refine ⟨n, List.mem_of_mem_take hnm, ?_⟩
      simp only [LitHolds, hneg, Bool.false_eq_true, ↓reduceIte]; exact hh
  · refine ⟨l, hl, ?_⟩
    simp only [Literal.isTautology, Bool.and_eq_true, decide_eq_true_eq] at e
    simp [LitHolds, e.1, e.2]

theorem vmap_noVar {g : Nat → Nat} {t : Term} (h : t.hasAnyVar = false) : t.vmap g = t := by
  induction t with
  | atom a =>
    cases a with
    | fvar i => simp [Term.hasAnyVar, atoms] at h
    | bvar i => rfl
    | sym i => rfl
  | app f a ihf iha =>
    simp only [Term.hasAnyVar, atoms, List.any_append, Bool.or_eq_false_iff] at *
    rw [vmap_app, ihf h.1, iha h.2]
  | bind b f a ihf iha =>
    simp only [Term.hasAnyVar, atoms, List.any_append, Bool.or_eq_false_iff] at *
    rw [vmap_bind, ihf h.1, iha h.2]

theorem hasAnyVar_vmap {g : Nat → Nat} {t : Term} : (t.vmap g).hasAnyVar = t.hasAnyVar := by
  induction t with
  | atom a => cases a <;> rfl
  | app f a ihf iha =>
    simp only [vmap_app, Term.hasAnyVar, atoms, List.any_append] at *; rw [ihf, iha]
  | bind b f a ihf iha =>
    simp only [vmap_bind, Term.hasAnyVar, atoms, List.any_append] at *; rw [ihf, iha]

theorem droppable_new {p : Bool} {l r : Term} :
    (Literal.new p l r).droppable = (⟨p, l, r⟩ : Literal).droppable := by
  simp only [Literal.new, Literal.newWithFlip]
  split
  · simp only [Literal.droppable, Literal.isImpossible, Literal.hasAnyVar]
    rw [Bool.or_comm, decide_eq_decide.2 (eq_comm (a := r) (b := l))]
  · rfl

theorem droppable_byIds {ids : List Nat} {l : Literal}
    (h : (Literal.new l.positive (l.left.byIds ids) (l.right.byIds ids)).droppable = true) :
    l.droppable = true := by
  rw [droppable_new] at h
  simp only [Literal.droppable, Literal.isImpossible, Literal.hasAnyVar, Term.byIds, hasAnyVar_vmap,
    Bool.and_eq_true, Bool.not_eq_true', Bool.or_eq_false_iff, decide_eq_true_eq] at *
  refine ⟨⟨h.1.1, ?_⟩, h.2⟩
  have := h.1.2
  rwa [vmap_noVar h.2.1, vmap_noVar h.2.2] at this

end Acorn
