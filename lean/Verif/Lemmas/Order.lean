/-
The extended order is a linear order on terms without binders.
-/
import Verif.Model.Order
namespace Acorn

theorem transCmp_on {α β : Type} (c : β → β → Ordering) (f : α → β) [Std.TransCmp c] :
    Std.TransCmp (fun a b => c (f a) (f b)) where
  eq_swap := Std.OrientedCmp.eq_swap (cmp := c)
  isLE_trans h1 h2 := Std.TransCmp.isLE_trans (cmp := c) h1 h2

theorem transCmp_congr {α : Type} {c d : α → α → Ordering} (h : ∀ a b, c a b = d a b)
    [Std.TransCmp d] : Std.TransCmp c := by
  have : c = d := funext fun a => funext fun b => h a b
  rw [this]; infer_instance

namespace Symbol

theorem code_inj {s t : Symbol} (h : s.code = t.code) : s = t := by
  cases s <;> cases t <;> simp [code] at h <;> simp [h]

end Symbol

namespace Atom

theorem code_inj {s t : Atom} (h : s.code = t.code) : s = t := by
  cases s <;> cases t <;> simp [code] at h
  · simp [h]
  · simp [h]
  · rw [Symbol.code_inj h]

instance : Std.TransCmp Atom.cmp := transCmp_on (compare : List Nat → List Nat → Ordering) code

theorem cmp_eq {a b : Atom} : Atom.cmp a b = .eq ↔ a = b := by
  unfold Atom.cmp
  rw [Std.LawfulEqOrd.compare_eq_iff_eq]
  exact ⟨code_inj, fun h => h ▸ rfl⟩

/-- What the stable order compares. -/
def stableKey : Atom → List Nat
  | .fvar _ => [1, 0]
  | .bvar i => [1, 1, i]
  | .sym .true_ => [0, 0]
  | .sym .false_ => [0, 1]
  | .sym s => 1 :: 2 :: s.code

theorem stableCmp_eq (a b : Atom) : a.stableCmp b = compare a.stableKey b.stableKey := by
  rcases a with i | i | s <;> rcases b with j | j | t
  · simp [stableCmp, stableKey]
  · simp [stableCmp, stableKey, isBoolConst, cmp, code] <;> rfl
  · cases t <;> simp [stableCmp, stableKey, isBoolConst, cmp, code, Symbol.code] <;> rfl
  · simp [stableCmp, stableKey, isBoolConst, cmp, code] <;> rfl
  · simp [stableCmp, stableKey]
  · cases t <;> simp [stableCmp, stableKey, isBoolConst, cmp, code, Symbol.code] <;> rfl
  · cases s <;> simp [stableCmp, stableKey, isBoolConst, cmp, code, Symbol.code] <;> rfl
  · cases s <;> simp [stableCmp, stableKey, isBoolConst, cmp, code, Symbol.code] <;> rfl
  · cases s <;> cases t <;>
      simp [stableCmp, stableKey, isBoolConst, cmp, code, Symbol.code] <;> rfl

instance : Std.TransCmp Atom.stableCmp :=
  have := transCmp_on (compare : List Nat → List Nat → Ordering) stableKey
  transCmp_congr stableCmp_eq

end Atom

namespace Term

/-- No lambda, quantifier or function type anywhere. -/
def noBinder : Term → Bool
  | atom _ => true
  | app f a => f.noBinder && a.noBinder
  | bind _ _ _ => false

theorem noBinder_args {t : Term} (h : t.noBinder = true) : ∀ a ∈ t.args, a.noBinder = true := by
  induction t with
  | atom a => simp [args]
  | app f a ihf _ =>
    simp only [noBinder, Bool.and_eq_true] at h
    intro x hx
    simp only [args, List.mem_append, List.mem_singleton] at hx
    rcases hx with hx | rfl
    · exact ihf h.1 x hx
    · exact h.2
  | bind b f a => simp [noBinder] at h

theorem numArgs_eq {t : Term} (h : t.noBinder = true) : t.numArgs = t.args.length := by
  induction t with
  | atom a => rfl
  | app f a ihf _ =>
    simp only [noBinder, Bool.and_eq_true] at h
    simp [numArgs, args, ihf h.1]
  | bind b f a => simp [noBinder] at h

theorem apply_args {t : Term} (h : t.noBinder = true) : apply (atom t.headAtom) t.args = t := by
  induction t with
  | atom a => rfl
  | app f a ihf _ =>
    simp only [noBinder, Bool.and_eq_true] at h
    have := ihf h.1
    simp only [apply] at this
    simp [apply, args, headAtom, List.foldl_append, this]
  | bind b f a => simp [noBinder] at h

theorem kboHelper_eq (s t : Term) : kboHelper s t false =
    (compare s.weight1 t.weight1).then (compare s.weight2 t.weight2) := by
  simp only [kboHelper, Bool.not_false, Bool.true_or, if_true]
  rcases Nat.lt_trichotomy s.weight1 t.weight1 with h | h | h
  · have h1 : compare s.weight1 t.weight1 = .lt := Nat.compare_eq_lt.2 h
    rw [h1, if_neg (by omega), if_pos (by omega)]; rfl
  · have h1 : compare s.weight1 t.weight1 = .eq := Nat.compare_eq_eq.2 h
    rw [h1]
    rcases Nat.lt_trichotomy s.weight2 t.weight2 with h' | h' | h'
    · rw [Nat.compare_eq_lt.2 h', if_neg (by omega), if_pos (by omega)]; rfl
    · rw [Nat.compare_eq_eq.2 h', if_neg (by omega), if_neg (by omega)]; rfl
    · rw [Nat.compare_eq_gt.2 h', if_pos (by omega)]; rfl
  · have h1 : compare s.weight1 t.weight1 = .gt := Nat.compare_eq_gt.2 h
    rw [h1, if_pos (by omega)]; rfl

theorem lexZip_swap {α β : Type} (c : α → β → Ordering) (d : β → α → Ordering) :
    ∀ (l : List α) (m : List β), (∀ a ∈ l, ∀ b, c a b = (d b a).swap) →
      lexZip c l m = (lexZip d m l).swap
  | [], m, _ => by cases m <;> rfl
  | a :: l, [], _ => rfl
  | a :: l, b :: m, h => by
    simp only [lexZip]
    rw [h a (by simp), lexZip_swap c d l m fun a ha => h a (by simp [ha])]
    cases d b a <;> rfl

theorem then_eq_eq {a b : Ordering} : a.then b = .eq ↔ a = .eq ∧ b = .eq := by
  cases a <;> cases b <;> simp [Ordering.then]

theorem then_swap (a b : Ordering) : (a.then b).swap = a.swap.then b.swap := by
  cases a <;> rfl

theorem stableCmp_swap (a b : Atom) : a.stableCmp b = (b.stableCmp a).swap :=
  Std.OrientedCmp.eq_swap (cmp := Atom.stableCmp)

theorem partialTiebreak_swap : ∀ (n : Nat) (s t : Term), s.size ≤ n →
    partialTiebreak s t = (partialTiebreak t s).swap := by
  intro n
  induction n with
  | zero => intro s t h; cases s <;> simp [size] at h
  | succ n ih =>
    intro s t h
    rw [partialTiebreak_eq s t, partialTiebreak_eq t s, then_swap, then_swap,
      ← stableCmp_swap s.headAtom t.headAtom, Nat.compare_swap]
    rw [lexZip_swap partialTiebreak partialTiebreak s.args t.args]
    intro a ha b
    have := size_args s a ha
    exact ih a b (by omega)

theorem extCmp_swap : ∀ (n : Nat) (s t : Term), s.size ≤ n → extCmp s t = (extCmp t s).swap := by
  intro n
  induction n with
  | zero => intro s t h; cases s <;> simp [size] at h
  | succ n ih =>
    intro s t h
    rw [extCmp_eq s t, extCmp_eq t s, then_swap, then_swap, then_swap,
      partialTiebreak_swap _ s t (Nat.le_refl _), kboHelper_eq, kboHelper_eq, then_swap,
      Nat.compare_swap, Nat.compare_swap,
      ← (Std.OrientedCmp.eq_swap (cmp := Atom.cmp) (a := t.headAtom) (b := s.headAtom))]
    rw [lexZip_swap extCmp extCmp s.args t.args]
    intro a ha b
    have := size_args s a ha
    exact ih a b (by omega)

theorem lexZip_length {α : Type} (c : α → α → Ordering) :
    ∀ (l m : List α), (compare m.length l.length).then (lexZip c l m) =
      (compare m.length l.length).then (List.compareLex c l m) := by
  intro l m
  by_cases h : m.length = l.length
  · have : ∀ (l m : List α), m.length = l.length → lexZip c l m = List.compareLex c l m := by
      intro l
      induction l with
      | nil => intro m hm; cases m <;> simp at hm; rfl
      | cons a l ih =>
        intro m hm
        cases m with
        | nil => simp at hm
        | cons b m =>
          rw [lexZip, List.compareLex_cons_cons, ih m (by simpa using hm)]
    rw [this l m h]
  · have h1 : compare m.length l.length ≠ .eq := fun e => h (Nat.compare_eq_eq.1 e)
    cases h2 : compare m.length l.length <;> simp_all

/-- Terms without binders of size below a bound. -/
abbrev Small (n : Nat) := { t : Term // t.noBinder = true ∧ t.size < n }

/-- The arguments of a bounded term. -/
def sargs {n : Nat} (t : Small (n + 1)) : List (Small n) :=
  t.1.args.pmap (fun a h => ⟨a, h⟩) (by
    intro a ha
    have := size_args t.1 a ha
    exact ⟨noBinder_args t.2.1 a ha, by have := t.2.2; omega⟩)

theorem compareLex_pmap {α : Type} {p : α → Prop} (c : α → α → Ordering) (l m : List α)
    (hl : ∀ a ∈ l, p a) (hm : ∀ a ∈ m, p a) :
    List.compareLex (fun (a b : { a // p a }) => c a.1 b.1) (l.pmap (fun a h => ⟨a, h⟩) hl)
      (m.pmap (fun a h => ⟨a, h⟩) hm) = List.compareLex c l m := by
  induction l generalizing m with
  | nil => cases m <;> rfl
  | cons a l ih =>
    cases m with
    | nil => rfl
    | cons b m => simp only [List.pmap, List.compareLex_cons_cons, ih]

theorem partialTiebreak_small {n : Nat} (s t : Small (n + 1)) : partialTiebreak s.1 t.1 =
    compareLex (fun a b => a.1.headAtom.stableCmp b.1.headAtom)
      (compareLex (fun a b => compare (sargs b).length (sargs a).length)
        (fun a b => List.compareLex (fun (a b : Small n) => partialTiebreak a.1 b.1) (sargs a) (sargs b)))
      s t := by
  rw [partialTiebreak_eq, compareLex, compareLex, numArgs_eq s.2.1, numArgs_eq t.2.1, lexZip_length]
  simp only [sargs, List.length_pmap]
  rw [compareLex_pmap]

theorem partialTiebreak_trans : ∀ n, Std.TransCmp (fun (a b : Small n) => partialTiebreak a.1 b.1) := by
  intro n
  induction n with
  | zero =>
    exact { eq_swap := fun {a} => absurd a.2.2 (by omega), isLE_trans := fun {a} => absurd a.2.2 (by omega) }
  | succ n ih =>
    have h1 := transCmp_on Atom.stableCmp (fun (a : Small (n + 1)) => a.1.headAtom)
    have h2 := transCmp_on (fun (a b : Nat) => compare b a) (fun (a : Small (n + 1)) => (sargs a).length)
    have h3 := transCmp_on (List.compareLex (fun (a b : Small n) => partialTiebreak a.1 b.1))
      (fun (a : Small (n + 1)) => sargs a)
    exact transCmp_congr partialTiebreak_small

theorem extCmp_small {n : Nat} (s t : Small (n + 1)) : extCmp s.1 t.1 =
    compareLex (fun a b => compare a.1.weight1 b.1.weight1)
     (compareLex (fun a b => compare a.1.weight2 b.1.weight2)
      (compareLex (fun a b => partialTiebreak a.1 b.1)
       (compareLex (fun a b => b.1.headAtom.cmp a.1.headAtom)
        (fun a b => List.compareLex (fun (a b : Small n) => extCmp a.1 b.1) (sargs a) (sargs b)))))
      s t := by
  rw [extCmp_eq, kboHelper_eq]
  simp only [compareLex, Ordering.then_assoc]
  congr 2
  by_cases h : partialTiebreak s.1 t.1 = .eq
  · have h0 := h
    rw [partialTiebreak_eq] at h
    have h1 : compare t.1.numArgs s.1.numArgs = .eq :=
      (then_eq_eq.1 (then_eq_eq.1 h).2).1
    rw [numArgs_eq s.2.1, numArgs_eq t.2.1] at h1
    have := lexZip_length extCmp s.1.args t.1.args
    rw [h1] at this
    simp only [Ordering.then] at this
    rw [h0, this]
    simp only [sargs]
    rw [compareLex_pmap]
  · cases h2 : partialTiebreak s.1 t.1 <;> simp_all

theorem extCmp_trans : ∀ n, Std.TransCmp (fun (a b : Small n) => extCmp a.1 b.1) := by
  intro n
  induction n with
  | zero =>
    exact { eq_swap := fun {a} => absurd a.2.2 (by omega), isLE_trans := fun {a} => absurd a.2.2 (by omega) }
  | succ n ih =>
    have h1 := transCmp_on (fun (a b : Nat) => compare a b) (fun (a : Small (n + 1)) => a.1.weight1)
    have h2 := transCmp_on (fun (a b : Nat) => compare a b) (fun (a : Small (n + 1)) => a.1.weight2)
    have h3 := partialTiebreak_trans (n + 1)
    have h4 := transCmp_on (fun (a b : Atom) => b.cmp a) (fun (a : Small (n + 1)) => a.1.headAtom)
    have h5 := transCmp_on (List.compareLex (fun (a b : Small n) => extCmp a.1 b.1))
      (fun (a : Small (n + 1)) => sargs a)
    exact transCmp_congr extCmp_small

theorem lexZip_eq_eq {α : Type} (c : α → α → Ordering) : ∀ (l m : List α), l.length = m.length →
    lexZip c l m = .eq → (∀ a ∈ l, ∀ b ∈ m, c a b = .eq → a = b) → l = m
  | [], [], _, _, _ => rfl
  | a :: l, b :: m, hl, h, hc => by
    simp only [lexZip] at h
    have h1 : c a b = .eq := by cases e : c a b <;> simp_all
    rw [h1] at h
    rw [hc a (by simp) b (by simp) h1, lexZip_eq_eq c l m (by simpa using hl) h
      (fun a ha b hb => hc a (by simp [ha]) b (by simp [hb]))]

/-- Equal in the extended order means identical, without binders. -/
theorem extCmp_eq_eq : ∀ (n : Nat) (s t : Term), s.size ≤ n → s.noBinder = true → t.noBinder = true →
    extCmp s t = .eq → s = t := by
  intro n
  induction n with
  | zero => intro s t h; cases s <;> simp [size] at h
  | succ n ih =>
    intro s t h hs ht he
    rw [extCmp_eq, then_eq_eq, then_eq_eq, then_eq_eq, partialTiebreak_eq, then_eq_eq, then_eq_eq] at he
    obtain ⟨_, ⟨_, hn, _⟩, hh, ha⟩ := he
    rw [Nat.compare_eq_eq, numArgs_eq hs, numArgs_eq ht] at hn
    rw [Atom.cmp_eq] at hh
    have e := lexZip_eq_eq extCmp s.args t.args hn.symm ha (by
      intro a ha b hb hab
      have := size_args s a ha
      exact ih a b (by omega) (noBinder_args hs a ha) (noBinder_args ht b hb) hab)
    rw [← apply_args hs, ← apply_args ht, e, hh]

theorem lexZip_refl {α : Type} (c : α → α → Ordering) : ∀ (l : List α),
    (∀ a ∈ l, c a a = .eq) → lexZip c l l = .eq
  | [], _ => rfl
  | a :: l, h => by
    rw [lexZip, h a (by simp), lexZip_refl c l fun a ha => h a (by simp [ha])]; rfl

theorem extCmp_refl (t : Term) : extCmp t t = .eq := by
  have := extCmp_swap _ t t (Nat.le_refl _)
  cases h : extCmp t t <;> simp [h] at this; rfl

end Term
end Acorn
