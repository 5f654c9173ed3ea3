/-
Ground clauses: canonical form and the indexes of the clause set.
-/
import Verif.Model.ClauseSet
namespace Acorn

/-! ### Order and sorting -/

theorem GLit.le_refl (a : GLit) : a.le a = true := by
  cases h : a.positive <;> simp [GLit.le, h]

theorem GLit.le_total (a b : GLit) : a.le b = true ∨ b.le a = true := by
  obtain ⟨a1, a2, a3⟩ := a
  obtain ⟨b1, b2, b3⟩ := b
  simp only [GLit.le, Bool.or_eq_true, decide_eq_true_eq, Bool.and_eq_true]
  cases a3 <;> cases b3 <;> simp <;> omega

theorem GLit.le_trans {a b c : GLit} (h1 : a.le b = true) (h2 : b.le c = true) : a.le c = true := by
  obtain ⟨a1, a2, a3⟩ := a
  obtain ⟨b1, b2, b3⟩ := b
  obtain ⟨c1, c2, c3⟩ := c
  simp only [GLit.le, Bool.or_eq_true, decide_eq_true_eq, Bool.and_eq_true] at *
  cases a3 <;> cases b3 <;> cases c3 <;> simp_all <;> omega

theorem GLit.le_antisymm {a b : GLit} (h1 : a.le b = true) (h2 : b.le a = true) : a = b := by
  obtain ⟨a1, a2, a3⟩ := a
  obtain ⟨b1, b2, b3⟩ := b
  simp only [GLit.le, Bool.or_eq_true, decide_eq_true_eq, Bool.and_eq_true] at *
  cases a3 <;> cases b3 <;> simp_all <;> omega

theorem mem_insertLit {l a : GLit} {ls : List GLit} : a ∈ insertLit l ls ↔ a = l ∨ a ∈ ls := by
  induction ls with
  | nil => simp [insertLit]
  | cons b ls ih =>
    simp only [insertLit]
    split
    · simp
    · simp only [List.mem_cons, ih]
      constructor
      · rintro (h | h | h) <;> simp [h]
      · rintro (h | h | h) <;> simp [h]

theorem mem_sortGLits {a : GLit} {ls : List GLit} : a ∈ sortGLits ls ↔ a ∈ ls := by
  induction ls with
  | nil => simp [sortGLits]
  | cons b ls ih => simp [sortGLits, mem_insertLit, ih]

/-- Sorted lists. -/
def SortedG (ls : List GLit) : Prop := ls.Pairwise fun a b => a.le b = true

theorem insertLit_sorted {l : GLit} {ls : List GLit} (h : SortedG ls) : SortedG (insertLit l ls) := by
  induction ls with
  | nil => simp [insertLit, SortedG]
  | cons b ls ih =>
    have hb := List.pairwise_cons.1 h
    simp only [insertLit]
    split
    · rename_i hl
      refine List.pairwise_cons.2 ⟨?_, h⟩
      intro c hc
      rcases List.mem_cons.1 hc with rfl | hc
      · exact hl
      · exact GLit.le_trans hl (hb.1 c hc)
    · rename_i hl
      refine List.pairwise_cons.2 ⟨?_, ih hb.2⟩
      intro c hc
      rcases mem_insertLit.1 hc with rfl | hc
      · rcases GLit.le_total c b with h | h
        · exact absurd h hl
        · exact h
      · exact hb.1 c hc

theorem sortGLits_sorted (ls : List GLit) : SortedG (sortGLits ls) := by
  induction ls with
  | nil => exact List.Pairwise.nil
  | cons l ls ih => exact insertLit_sorted ih

theorem mem_dedupGLits {a : GLit} : ∀ {ls : List GLit}, a ∈ dedupGLits ls ↔ a ∈ ls
  | [] => by simp [dedupGLits]
  | [b] => by simp [dedupGLits]
  | b :: c :: rest => by
    rw [dedupGLits]
    split
    · rename_i h; subst h
      rw [mem_dedupGLits (ls := b :: rest)]; simp
    · rw [List.mem_cons, mem_dedupGLits (ls := c :: rest), ← List.mem_cons]

/-- Strictly sorted lists. -/
def SSortedG (ls : List GLit) : Prop := ls.Pairwise fun a b => a.le b = true ∧ a ≠ b

theorem dedupGLits_ssorted : ∀ {ls : List GLit}, SortedG ls → SSortedG (dedupGLits ls)
  | [], _ => List.Pairwise.nil
  | [b], _ => by simp [dedupGLits, SSortedG]
  | b :: c :: rest, h => by
    have hb := List.pairwise_cons.1 h
    rw [dedupGLits]
    split
    · exact dedupGLits_ssorted hb.2
    · rename_i hne
      refine List.pairwise_cons.2 ⟨?_, dedupGLits_ssorted hb.2⟩
      intro d hd
      have hd := mem_dedupGLits.1 hd
      refine ⟨hb.1 d hd, ?_⟩
      rintro rfl
      have hc := List.pairwise_cons.1 hb.2
      have h1 := hb.1 c (by simp)
      rcases List.mem_cons.1 hd with rfl | hd
      · exact hne rfl
      · exact hne (GLit.le_antisymm h1 (hc.1 _ hd))

/-- A strictly sorted list is determined by its elements. -/
theorem SSortedG.ext : ∀ {as bs : List GLit}, SSortedG as → SSortedG bs → (∀ l, l ∈ as ↔ l ∈ bs) →
    as = bs
  | [], [], _, _, _ => rfl
  | [], b :: bs, _, _, h => by have := (h b).2 (by simp); simp at this
  | a :: as, [], _, _, h => by have := (h a).1 (by simp); simp at this
  | a :: as, b :: bs, h1, h2, h => by
    have ha := List.pairwise_cons.1 h1
    have hb := List.pairwise_cons.1 h2
    have hab : a = b := by
      rcases List.mem_cons.1 ((h a).1 (by simp)) with e | e
      · exact e
      · rcases List.mem_cons.1 ((h b).2 (by simp)) with e' | e'
        · exact e'.symm
        · exact GLit.le_antisymm (ha.1 b e').1 (hb.1 a e).1
    subst hab
    congr 1
    refine SSortedG.ext ha.2 hb.2 fun l => ?_
    constructor
    · intro hl
      rcases List.mem_cons.1 ((h l).1 (by simp [hl])) with e | e
      · subst e; exact absurd rfl (ha.1 l hl).2
      · exact e
    · intro hl
      rcases List.mem_cons.1 ((h l).2 (by simp [hl])) with e | e
      · subst e; exact absurd rfl (hb.1 l hl).2
      · exact e

theorem opposite_iff {a b : GLit} : a.opposite b = true ↔
    a.left = b.left ∧ a.right = b.right ∧ a.positive ≠ b.positive := by
  simp [GLit.opposite, and_assoc]

theorem hasOpposite_iff {ls : List GLit} : hasOpposite ls = true ↔
    ∃ a ∈ ls, ∃ b ∈ ls, a.opposite b = true := by
  induction ls with
  | nil => simp [hasOpposite]
  | cons a as ih =>
    simp only [hasOpposite, Bool.or_eq_true, List.any_eq_true, ih]
    constructor
    · rintro (⟨b, hb, h⟩ | ⟨x, hx, y, hy, h⟩)
      · exact ⟨a, by simp, b, by simp [hb], h⟩
      · exact ⟨x, by simp [hx], y, by simp [hy], h⟩
    · rintro ⟨x, hx, y, hy, h⟩
      rcases List.mem_cons.1 hx with rfl | hx'
      · rcases List.mem_cons.1 hy with rfl | hy
        · simp [opposite_iff] at h
        · exact Or.inl ⟨y, hy, h⟩
      · rcases List.mem_cons.1 hy with rfl | hy
        · refine Or.inl ⟨x, hx', ?_⟩
          rw [opposite_iff] at h ⊢
          exact ⟨h.1.symm, h.2.1.symm, Ne.symm h.2.2⟩
        · exact Or.inr ⟨x, hx', y, hy, h⟩

/-- What `ClauseId::new` computes. -/
theorem GClause.new_spec (ls : List GLit) :
    (GClause.new ls = .tt ∧ ((∃ l ∈ ls, l.left = l.right ∧ l.positive = true) ∨
      ∃ a ∈ ls, ∃ b ∈ ls, a.opposite b = true)) ∨
    (GClause.new ls = .ff ∧ ∀ l ∈ ls, l.left = l.right ∧ l.positive = false) ∨
    (∃ c, GClause.new ls = .clause c ∧ c ≠ [] ∧ SSortedG c ∧
      (∀ l, l ∈ c ↔ l ∈ ls ∧ l.left ≠ l.right) ∧ hasOpposite c = false ∧
      ∀ l ∈ ls, l.left = l.right → l.positive = false) := by
  have hm : ∀ l, l ∈ dedupGLits (sortGLits ls) ↔ l ∈ ls := fun l => by
    rw [mem_dedupGLits, mem_sortGLits]
  have hs := dedupGLits_ssorted (sortGLits_sorted ls)
  simp only [GClause.new]
  generalize hD : dedupGLits (sortGLits ls) = D at *
  split
  · rename_i h
    simp only [List.any_eq_true, Bool.and_eq_true, decide_eq_true_eq] at h
    obtain ⟨l, hl, h1, h2⟩ := h
    exact Or.inl ⟨rfl, Or.inl ⟨l, (hm l).1 hl, h1, h2⟩⟩
  · rename_i h
    have hno : ∀ l ∈ ls, l.left = l.right → l.positive = false := by
      intro l hl e
      cases hp : l.positive with
      | false => rfl
      | true =>
        exact absurd (List.any_eq_true.2 ⟨l, (hm l).2 hl, by simp [e, hp]⟩) h
    have hf : ∀ l, l ∈ D.filter (fun l => decide (l.left ≠ l.right)) ↔ l ∈ ls ∧ l.left ≠ l.right := by
      intro l; simp [hm]
    split
    · rename_i he
      refine Or.inr (Or.inl ⟨rfl, fun l hl => ?_⟩)
      have he : D.filter (fun l => decide (l.left ≠ l.right)) = [] := by simpa using he
      have : l.left = l.right := by
        apply Classical.byContradiction
        intro hne
        have := (hf l).2 ⟨hl, hne⟩
        rw [he] at this; cases this
      exact ⟨this, hno l hl this⟩
    · rename_i he
      split
      · rename_i ho
        obtain ⟨a, ha, b, hb, h⟩ := hasOpposite_iff.1 ho
        exact Or.inl ⟨rfl, Or.inr ⟨a, ((hf a).1 ha).1, b, ((hf b).1 hb).1, h⟩⟩
      · rename_i ho
        refine Or.inr (Or.inr ⟨_, rfl, ?_, List.Pairwise.filter _ hs, hf, by simpa using ho, hno⟩)
        intro e; rw [e] at he; exact he rfl

/-- The result is determined by the literals that are not trivially false. -/
theorem GClause.new_congr {ls ms : List GLit}
    (h : ∀ l, (l.left = l.right → l.positive = true) → (l ∈ ls ↔ l ∈ ms)) :
    GClause.new ls = GClause.new ms := by
  have key : ∀ {ls ms : List GLit},
      (∀ l, (l.left = l.right → l.positive = true) → (l ∈ ls ↔ l ∈ ms)) →
      ((∃ l ∈ ls, l.left = l.right ∧ l.positive = true) ∨
        ∃ a ∈ ls, ∃ b ∈ ls, a.opposite b = true) →
      ((∃ l ∈ ms, l.left = l.right ∧ l.positive = true) ∨
        ∃ a ∈ ms, ∃ b ∈ ms, a.opposite b = true) := by
    intro ls ms h
    rintro (⟨l, hl, h1, h2⟩ | ⟨a, ha, b, hb, hab⟩)
    · exact Or.inl ⟨l, (h l (fun _ => h2)).1 hl, h1, h2⟩
    · rw [opposite_iff] at hab
      by_cases e : a.left = a.right
      · cases hp : a.positive with
        | true => exact Or.inl ⟨a, (h a (fun _ => hp)).1 ha, e, hp⟩
        | false =>
          have hbp : b.positive = true := by
            cases hb : b.positive with
            | true => rfl
            | false => rw [hp, hb] at hab; exact absurd rfl hab.2.2
          have e' : b.left = b.right := by rw [← hab.1, ← hab.2.1, e]
          exact Or.inl ⟨b, (h b (fun _ => hbp)).1 hb, e', hbp⟩
      · have e' : b.left ≠ b.right := by rw [← hab.1, ← hab.2.1]; exact e
        exact Or.inr ⟨a, (h a (fun x => absurd x e)).1 ha, b, (h b (fun x => absurd x e')).1 hb,
          opposite_iff.2 hab⟩
  have contra : ∀ {ls : List GLit}, ((∃ l ∈ ls, l.left = l.right ∧ l.positive = true) ∨
        ∃ a ∈ ls, ∃ b ∈ ls, a.opposite b = true) → GClause.new ls = .tt := by
    intro ls hh
    rcases GClause.new_spec ls with ⟨e, _⟩ | ⟨e, h'⟩ | ⟨c, e, _, _, hc, ho, hn⟩
    · exact e
    · exfalso
      rcases hh with ⟨l, hl, _, h2⟩ | ⟨a, ha, b, hb, hab⟩
      · rw [(h' l hl).2] at h2; cases h2
      · rw [opposite_iff, (h' a ha).2, (h' b hb).2] at hab; exact hab.2.2 rfl
    · exfalso
      rcases hh with ⟨l, hl, h1, h2⟩ | ⟨a, ha, b, hb, hab⟩
      · rw [hn l hl h1] at h2; cases h2
      · have hab' := opposite_iff.1 hab
        by_cases e : a.left = a.right
        · have e' : b.left = b.right := by rw [← hab'.1, ← hab'.2.1, e]
          rw [hn a ha e, hn b hb e'] at hab'; exact hab'.2.2 rfl
        · have e' : b.left ≠ b.right := by rw [← hab'.1, ← hab'.2.1]; exact e
          have := hasOpposite_iff.2 ⟨a, (hc a).2 ⟨ha, e⟩, b, (hc b).2 ⟨hb, e'⟩, hab⟩
          rw [ho] at this; cases this
  rcases GClause.new_spec ls with ⟨e, h1⟩ | ⟨e, h1⟩ | ⟨c, e, hne, hs, hc, ho, hn⟩
  · rw [e, contra (key h h1)]
  · rcases GClause.new_spec ms with ⟨e', h2⟩ | ⟨e', h2⟩ | ⟨d, e', hne', hs', hd, ho', hn'⟩
    · have := contra (key (fun l hl => (h l hl).symm) h2)
      rw [e] at this; cases this
    · rw [e, e']
    · exfalso
      obtain ⟨l, hl⟩ := List.exists_mem_of_ne_nil _ hne'
      obtain ⟨hl1, hl2⟩ := (hd l).1 hl
      exact hl2 (h1 l ((h l (fun x => absurd x hl2)).2 hl1)).1
  · rcases GClause.new_spec ms with ⟨e', h2⟩ | ⟨e', h2⟩ | ⟨d, e', hne', hs', hd, ho', hn'⟩
    · have := contra (key (fun l hl => (h l hl).symm) h2)
      rw [e] at this; cases this
    · exfalso
      obtain ⟨l, hl⟩ := List.exists_mem_of_ne_nil _ hne
      obtain ⟨hl1, hl2⟩ := (hc l).1 hl
      exact hl2 (h2 l ((h l (fun x => absurd x hl2)).1 hl1)).1
    · rw [e, e']
      congr 1
      refine SSortedG.ext hs hs' fun l => ?_
      rw [hc, hd]
      constructor
      · rintro ⟨a, b⟩; exact ⟨(h l (fun x => absurd x b)).1 a, b⟩
      · rintro ⟨a, b⟩; exact ⟨(h l (fun x => absurd x b)).2 a, b⟩

theorem GLit.new_comm (a b : Nat) (p : Bool) : GLit.new a b p = GLit.new b a p := by
  simp only [GLit.new]
  split <;> split
  · have : a = b := by omega
    subst this; rfl
  · rfl
  · rfl
  · omega

/-! ### The indexes -/

theorem mem_setInsert {s : List GClause} {c d : GClause} : d ∈ setInsert s c ↔ d = c ∨ d ∈ s := by
  simp only [setInsert]
  split
  · rename_i h
    have h : c ∈ s := by simpa using h
    exact ⟨Or.inr, fun h' => h'.elim (fun e => e ▸ h) id⟩
  · simp

theorem mem_setRemove {s : List GClause} {c d : GClause} : d ∈ setRemove s c ↔ d ∈ s ∧ d ≠ c := by
  simp [setRemove]

namespace ClauseSet

/-- The clauses listed under a key. -/
def listed {κ : Type} [DecidableEq κ] (m : AMap κ (List GClause)) (k : κ) : List GClause :=
  (m.get? k).getD []

variable {κ : Type} [DecidableEq κ]

theorem mem_addTo {m : AMap κ (List GClause)} {k k' : κ} {c d : GClause} :
    d ∈ listed (addTo m k c) k' ↔ (k' = k ∧ d = c) ∨ d ∈ listed m k' := by
  simp only [listed, addTo, AMap.get?_insert]
  split
  · rename_i h; subst h
    simp [mem_setInsert]
  · rename_i h; simp [h]

theorem mem_dropFrom {m : AMap κ (List GClause)} {k k' : κ} {c d : GClause} :
    d ∈ listed (dropFrom m k c) k' ↔ d ∈ listed m k' ∧ ¬ (k' = k ∧ d = c) := by
  simp only [listed, dropFrom]
  split
  · rename_i h
    constructor
    · intro hd
      refine ⟨hd, ?_⟩
      rintro ⟨rfl, _⟩
      rw [h] at hd; cases hd
    · exact fun h => h.1
  · rename_i s h
    split
    · rename_i he
      rw [AMap.get?_erase]
      split
      · rename_i hk; subst hk
        simp only [Option.getD_none, List.not_mem_nil, true_and, false_iff, not_and, Decidable.not_not]
        rw [h]
        intro hd
        have hd : d ∈ s := hd
        have he : setRemove s c = [] := by simpa using he
        apply Classical.byContradiction
        intro hne
        have := mem_setRemove.2 ⟨hd, hne⟩
        rw [he] at this; cases this
      · rename_i hk; simp [hk]
    · rw [AMap.get?_insert]
      split
      · rename_i hk; subst hk
        simp [h, mem_setRemove]
      · rename_i hk; simp [hk]

theorem insert_clauses {s : ClauseSet} {c d : GClause} : d ∈ (s.insert c).clauses ↔ d = c ∨ d ∈ s.clauses := by
  have h : ∀ (ls : List GLit) (s : ClauseSet) (f : ClauseSet → GLit → ClauseSet),
      (∀ s l, (f s l).clauses = s.clauses) → (ls.foldl f s).clauses = s.clauses := by
    intro ls
    induction ls with
    | nil => intro s f _; rfl
    | cons l ls ih => intro s f hf; rw [List.foldl_cons, ih _ f hf, hf]
  rw [insert]
  split
  · rename_i hc
    have hc : c ∈ s.clauses := by simpa using hc
    exact ⟨Or.inr, fun h' => h'.elim (fun e => e ▸ hc) id⟩
  · rw [h]
    · simp
    · intros; rfl

theorem remove_clauses {s : ClauseSet} {c d : GClause} : d ∈ (s.remove c).clauses ↔ d ∈ s.clauses ∧ d ≠ c := by
  have h : ∀ (ls : List GLit) (s : ClauseSet) (f : ClauseSet → GLit → ClauseSet),
      (∀ s l, (f s l).clauses = s.clauses) → (ls.foldl f s).clauses = s.clauses := by
    intro ls
    induction ls with
    | nil => intro s f _; rfl
    | cons l ls ih => intro s f hf; rw [List.foldl_cons, ih _ f hf, hf]
  rw [remove]
  split
  · rw [h]
    · simp [mem_setRemove]
    · intros; rfl
  · rename_i hc
    have hc : c ∉ s.clauses := by simpa using hc
    exact ⟨fun hd => ⟨hd, fun e => hc (e ▸ hd)⟩, fun h => h.1⟩

/-- The indexes list exactly the stored clauses. -/
structure Coherent (s : ClauseSet) : Prop where
  group : ∀ k c, c ∈ listed s.forGroup k ↔ c ∈ s.clauses ∧ ∃ l ∈ c, l.left = k ∨ l.right = k
  literal : ∀ l c, c ∈ listed s.forLiteral l ↔ c ∈ s.clauses ∧ l ∈ c

theorem coherent_empty : Coherent empty := by
  refine ⟨fun k c => ?_, fun l c => ?_⟩ <;> simp [empty, listed]

theorem insert_fold_group (c : GClause) : ∀ (ls : List GLit) (s : ClauseSet) (k : Nat) (d : GClause),
    d ∈ listed (ls.foldl (fun s l =>
      { s with
        forGroup := addTo (addTo s.forGroup l.left c) l.right c
        forLiteral := addTo s.forLiteral l c }) s).forGroup k ↔
      (d = c ∧ ∃ l ∈ ls, l.left = k ∨ l.right = k) ∨ d ∈ listed s.forGroup k := by
  intro ls
  induction ls with
  | nil => intro s k d; simp
  | cons l ls ih =>
    intro s k d
    rw [List.foldl_cons, ih]
    simp only [mem_addTo, List.mem_cons, exists_eq_or_imp]
    constructor
    · rintro (⟨h1, h2⟩ | ⟨h1, h2⟩ | ⟨h1, h2⟩ | h)
      · exact Or.inl ⟨h1, Or.inr h2⟩
      · exact Or.inl ⟨h2, Or.inl (Or.inr h1.symm)⟩
      · exact Or.inl ⟨h2, Or.inl (Or.inl h1.symm)⟩
      · exact Or.inr h
    · rintro (⟨h1, (h2 | h2) | h2⟩ | h)
      · exact Or.inr (Or.inr (Or.inl ⟨h2.symm, h1⟩))
      · exact Or.inr (Or.inl ⟨h2.symm, h1⟩)
      · exact Or.inl ⟨h1, h2⟩
      · exact Or.inr (Or.inr (Or.inr h))

theorem insert_fold_literal (c : GClause) : ∀ (ls : List GLit) (s : ClauseSet) (k : GLit) (d : GClause),
    d ∈ listed (ls.foldl (fun s l =>
      { s with
        forGroup := addTo (addTo s.forGroup l.left c) l.right c
        forLiteral := addTo s.forLiteral l c }) s).forLiteral k ↔
      (d = c ∧ k ∈ ls) ∨ d ∈ listed s.forLiteral k := by
  intro ls
  induction ls with
  | nil => intro s k d; simp
  | cons l ls ih =>
    intro s k d
    rw [List.foldl_cons, ih]
    simp only [mem_addTo, List.mem_cons]
    constructor
    · rintro (⟨h1, h2⟩ | ⟨h1, h2⟩ | h)
      · exact Or.inl ⟨h1, Or.inr h2⟩
      · exact Or.inl ⟨h2, Or.inl h1⟩
      · exact Or.inr h
    · rintro (⟨h1, h2 | h2⟩ | h)
      · exact Or.inr (Or.inl ⟨h2, h1⟩)
      · exact Or.inl ⟨h1, h2⟩
      · exact Or.inr (Or.inr h)

theorem remove_fold_group (c : GClause) : ∀ (ls : List GLit) (s : ClauseSet) (k : Nat) (d : GClause),
    d ∈ listed (ls.foldl (fun s l =>
      { s with
        forGroup := dropFrom (dropFrom s.forGroup l.left c) l.right c
        forLiteral := dropFrom s.forLiteral l c }) s).forGroup k ↔
      d ∈ listed s.forGroup k ∧ ¬ (d = c ∧ ∃ l ∈ ls, l.left = k ∨ l.right = k) := by
  intro ls
  induction ls with
  | nil => intro s k d; simp
  | cons l ls ih =>
    intro s k d
    rw [List.foldl_cons, ih]
    simp only [mem_dropFrom, List.mem_cons, exists_eq_or_imp]
    constructor
    · rintro ⟨⟨⟨h1, h2⟩, h3⟩, h4⟩
      refine ⟨h1, ?_⟩
      rintro ⟨h5, (h6 | h6) | h6⟩
      · exact h2 ⟨h6.symm, h5⟩
      · exact h3 ⟨h6.symm, h5⟩
      · exact h4 ⟨h5, h6⟩
    · rintro ⟨h1, h2⟩
      exact ⟨⟨⟨h1, fun h => h2 ⟨h.2, Or.inl (Or.inl h.1.symm)⟩⟩,
        fun h => h2 ⟨h.2, Or.inl (Or.inr h.1.symm)⟩⟩, fun h => h2 ⟨h.1, Or.inr h.2⟩⟩

theorem remove_fold_literal (c : GClause) : ∀ (ls : List GLit) (s : ClauseSet) (k : GLit) (d : GClause),
    d ∈ listed (ls.foldl (fun s l =>
      { s with
        forGroup := dropFrom (dropFrom s.forGroup l.left c) l.right c
        forLiteral := dropFrom s.forLiteral l c }) s).forLiteral k ↔
      d ∈ listed s.forLiteral k ∧ ¬ (d = c ∧ k ∈ ls) := by
  intro ls
  induction ls with
  | nil => intro s k d; simp
  | cons l ls ih =>
    intro s k d
    rw [List.foldl_cons, ih]
    simp only [mem_dropFrom, List.mem_cons]
    constructor
    · rintro ⟨⟨h1, h2⟩, h4⟩
      refine ⟨h1, ?_⟩
      rintro ⟨h5, h6 | h6⟩
      · exact h2 ⟨h6, h5⟩
      · exact h4 ⟨h5, h6⟩
    · rintro ⟨h1, h2⟩
      exact ⟨⟨h1, fun h => h2 ⟨h.2, Or.inl h.1⟩⟩, fun h => h2 ⟨h.1, Or.inr h.2⟩⟩

theorem Coherent.insert {s : ClauseSet} (h : s.Coherent) (c : GClause) : (s.insert c).Coherent := by
  refine ⟨fun k d => ?_, fun l d => ?_⟩
  · rw [insert_clauses, ClauseSet.insert]
    split
    · rename_i hc
      have hc : c ∈ s.clauses := by simpa using hc
      rw [h.group]
      exact ⟨fun ⟨a, b⟩ => ⟨Or.inr a, b⟩, fun ⟨a, b⟩ => ⟨a.elim (fun e => e ▸ hc) id, b⟩⟩
    · rw [insert_fold_group, h.group]
      constructor
      · rintro (⟨rfl, h2⟩ | ⟨h1, h2⟩)
        · exact ⟨Or.inl rfl, h2⟩
        · exact ⟨Or.inr h1, h2⟩
      · rintro ⟨rfl | h1, h2⟩
        · exact Or.inl ⟨rfl, h2⟩
        · exact Or.inr ⟨h1, h2⟩
  · rw [insert_clauses, ClauseSet.insert]
    split
    · rename_i hc
      have hc : c ∈ s.clauses := by simpa using hc
      rw [h.literal]
      exact ⟨fun ⟨a, b⟩ => ⟨Or.inr a, b⟩, fun ⟨a, b⟩ => ⟨a.elim (fun e => e ▸ hc) id, b⟩⟩
    · rw [insert_fold_literal, h.literal]
      constructor
      · rintro (⟨rfl, h2⟩ | ⟨h1, h2⟩)
        · exact ⟨Or.inl rfl, h2⟩
        · exact ⟨Or.inr h1, h2⟩
      · rintro ⟨rfl | h1, h2⟩
        · exact Or.inl ⟨rfl, h2⟩
        · exact Or.inr ⟨h1, h2⟩

theorem Coherent.remove {s : ClauseSet} (h : s.Coherent) (c : GClause) : (s.remove c).Coherent := by
  refine ⟨fun k d => ?_, fun l d => ?_⟩
  · rw [remove_clauses, ClauseSet.remove]
    split
    · rw [remove_fold_group, h.group]
      constructor
      · rintro ⟨⟨h1, h2⟩, h3⟩
        exact ⟨⟨h1, fun e => h3 ⟨e, e ▸ h2⟩⟩, h2⟩
      · rintro ⟨⟨h1, h2⟩, h3⟩
        exact ⟨⟨h1, h3⟩, fun e => h2 e.1⟩
    · rename_i hc
      have hc : c ∉ s.clauses := by simpa using hc
      rw [h.group]
      exact ⟨fun ⟨a, b⟩ => ⟨⟨a, fun e => hc (e ▸ a)⟩, b⟩, fun ⟨a, b⟩ => ⟨a.1, b⟩⟩
  · rw [remove_clauses, ClauseSet.remove]
    split
    · rw [remove_fold_literal, h.literal]
      constructor
      · rintro ⟨⟨h1, h2⟩, h3⟩
        exact ⟨⟨h1, fun e => h3 ⟨e, e ▸ h2⟩⟩, h2⟩
      · rintro ⟨⟨h1, h2⟩, h3⟩
        exact ⟨⟨h1, h3⟩, fun e => h2 e.1⟩
    · rename_i hc
      have hc : c ∉ s.clauses := by simpa using hc
      rw [h.literal]
      exact ⟨fun ⟨a, b⟩ => ⟨⟨a, fun e => hc (e ▸ a)⟩, b⟩, fun ⟨a, b⟩ => ⟨a.1, b⟩⟩

theorem removeAll {s : ClauseSet} (h : s.Coherent) (cs : List GClause) :
    (cs.foldl ClauseSet.remove s).Coherent ∧
    ∀ c, c ∈ (cs.foldl ClauseSet.remove s).clauses ↔ c ∈ s.clauses ∧ c ∉ cs := by
  induction cs generalizing s with
  | nil => exact ⟨h, fun c => by simp⟩
  | cons d cs ih =>
    obtain ⟨h1, h2⟩ := ih (h.remove d)
    refine ⟨h1, fun c => ?_⟩
    rw [List.foldl_cons, h2, remove_clauses]
    simp only [List.mem_cons, not_or]
    exact ⟨fun ⟨⟨a, b⟩, e⟩ => ⟨a, b, e⟩, fun ⟨a, b, e⟩ => ⟨⟨a, b⟩, e⟩⟩

/-- `remove_literal` returns and removes exactly the clauses with the literal. -/
theorem Coherent.removeLiteral {s : ClauseSet} (h : s.Coherent) (l : GLit) :
    (s.removeLiteral l).2.Coherent ∧
    (∀ c, c ∈ (s.removeLiteral l).1 ↔ c ∈ s.clauses ∧ l ∈ c) ∧
    ∀ c, c ∈ (s.removeLiteral l).2.clauses ↔ c ∈ s.clauses ∧ l ∉ c := by
  obtain ⟨h1, h2⟩ := removeAll h (listed s.forLiteral l)
  refine ⟨h1, h.literal l, fun c => ?_⟩
  show c ∈ ((listed s.forLiteral l).foldl ClauseSet.remove s).clauses ↔ _
  rw [h2, h.literal]
  exact ⟨fun ⟨a, b⟩ => ⟨a, fun e => b ⟨a, e⟩⟩, fun ⟨a, b⟩ => ⟨a, fun e => b e.2⟩⟩

/-- `remove_group` returns and removes exactly the clauses that mention the group. -/
theorem Coherent.removeGroup {s : ClauseSet} (h : s.Coherent) (k : Nat) :
    (s.removeGroup k).2.Coherent ∧
    (∀ c, c ∈ (s.removeGroup k).1 ↔ c ∈ s.clauses ∧ ∃ l ∈ c, l.left = k ∨ l.right = k) ∧
    ∀ c, c ∈ (s.removeGroup k).2.clauses ↔ c ∈ s.clauses ∧ ¬ ∃ l ∈ c, l.left = k ∨ l.right = k := by
  obtain ⟨h1, h2⟩ := removeAll h (listed s.forGroup k)
  refine ⟨h1, h.group k, fun c => ?_⟩
  show c ∈ ((listed s.forGroup k).foldl ClauseSet.remove s).clauses ↔ _
  rw [h2, h.group]
  exact ⟨fun ⟨a, b⟩ => ⟨a, fun e => b ⟨a, e⟩⟩, fun ⟨a, b⟩ => ⟨a, fun e => b e.2⟩⟩

end ClauseSet
end Acorn
