import Verif.Spec.Simplify
import Verif.Lemmas.VerifyModule
/-
Lemmas about `acorn simplify`: lines, candidates, and what a round does.
-/
namespace Acorn.Simp
open Elab (LowItem)

variable {Fact : Type}

/-! ### Lines -/

theorem splitLines_flatten (t : Text) : (splitLines t).flatten = t := by
  induction t with
  | nil => rfl
  | cons c cs ih =>
    rw [splitLines]
    split
    · rw [List.flatten_cons, ih]; rfl
    · split
      · rename_i h
        rw [h] at ih
        rw [← ih]; rfl
      · rename_i l ls h
        rw [h] at ih
        rw [← ih]; rfl

/-- A line with its end: no other newline. -/
def Ended (l : Text) : Prop := ∃ s : Text, '\n' ∉ s ∧ l = s ++ ['\n']

/-- The last line, without an end. -/
def Open (l : Text) : Prop := l ≠ [] ∧ '\n' ∉ l

theorem splitLines_ended {s : Text} (hs : '\n' ∉ s) (t : Text) : splitLines (s ++ '\n' :: t) = (s ++ ['\n']) :: splitLines t := by
  induction s with
  | nil => rw [List.nil_append, splitLines, if_pos rfl]; rfl
  | cons c s ih =>
    have hc : c ≠ '\n' := fun e => hs (by simp [e])
    rw [List.cons_append, splitLines, if_neg hc, ih fun h => hs (List.mem_cons_of_mem _ h)]
    rfl

theorem splitLines_open {l : Text} (h : Open l) : splitLines l = [l] := by
  obtain ⟨h1, h2⟩ := h
  induction l with
  | nil => exact absurd rfl h1
  | cons c l ih =>
    have hc : c ≠ '\n' := fun e => h2 (by simp [e])
    rw [splitLines, if_neg hc]
    cases l with
    | nil => rfl
    | cons d l =>
      rw [ih (by simp) fun h => h2 (List.mem_cons_of_mem _ h)]

/-- Lines as they come: all with an end, except perhaps the last. -/
def Lines (ls : List Text) : Prop :=
  ∃ as b, ls = as ++ b ∧ (∀ l ∈ as, Ended l) ∧ (b = [] ∨ ∃ l, b = [l] ∧ Open l)

theorem splitLines_lines (t : Text) : Lines (splitLines t) := by
  induction t with
  | nil => exact ⟨[], [], rfl, by simp, .inl rfl⟩
  | cons c cs ih =>
    obtain ⟨as, b, e, h1, h2⟩ := ih
    rw [splitLines]
    split
    · rename_i hc
      refine ⟨[c] :: as, b, by rw [e]; rfl, ?_, h2⟩
      intro l hl
      rcases List.mem_cons.mp hl with rfl | hl
      · exact ⟨[], by simp, by rw [hc]; rfl⟩
      · exact h1 l hl
    · rename_i hc
      rw [e]
      cases as with
      | nil =>
        rcases h2 with rfl | ⟨l, rfl, hl⟩
        · exact ⟨[], [[c]], rfl, by simp, .inr ⟨[c], rfl, by simp, by simpa using Ne.symm hc⟩⟩
        · refine ⟨[], [c :: l], rfl, by simp, .inr ⟨c :: l, rfl, by simp, ?_⟩⟩
          rw [List.mem_cons]
          rintro (h | h)
          · exact hc h.symm
          · exact hl.2 h
      | cons a as =>
        refine ⟨(c :: a) :: as, b, rfl, ?_, h2⟩
        intro l hl
        rcases List.mem_cons.mp hl with rfl | hl
        · obtain ⟨s, hs, rfl⟩ := h1 a (by simp)
          refine ⟨c :: s, ?_, rfl⟩
          rw [List.mem_cons]
          rintro (h | h)
          · exact hc h.symm
          · exact hs h
        · exact h1 l (List.mem_cons_of_mem _ hl)

theorem splitLines_of_lines {ls : List Text} (h : Lines ls) : splitLines ls.flatten = ls := by
  obtain ⟨as, b, rfl, h1, h2⟩ := h
  induction as with
  | nil =>
    rcases h2 with rfl | ⟨l, rfl, hl⟩
    · rfl
    · rw [List.nil_append, List.flatten_singleton, splitLines_open hl]
  | cons a as ih =>
    obtain ⟨s, hs, rfl⟩ := h1 a (by simp)
    have := ih fun l hl => h1 l (List.mem_cons_of_mem _ hl)
    rw [List.cons_append, List.flatten_cons, List.append_assoc]
    show splitLines (s ++ '\n' :: (as ++ b).flatten) = _
    rw [splitLines_ended hs, this]

theorem lines_sublist {ls ks : List Text} (h : Lines ls) (hs : ks.Sublist ls) : Lines ks := by
  obtain ⟨as, b, rfl, h1, h2⟩ := h
  obtain ⟨k1, k2, rfl, s1, s2⟩ := List.sublist_append_iff.mp hs
  refine ⟨k1, k2, rfl, fun l hl => h1 l (s1.subset hl), ?_⟩
  rcases h2 with rfl | ⟨l, rfl, hl⟩
  · exact .inl (List.sublist_nil.mp s2)
  · cases s2 with
    | cons _ h => exact .inl (List.sublist_nil.mp h)
    | cons_cons _ h =>
      rw [List.sublist_nil.mp h]
      exact .inr ⟨l, rfl, hl⟩

theorem dropped_sublist {α : Type} (ls : List α) {a b : Nat} (h : a ≤ b) : (ls.take a ++ ls.drop (b + 1)).Sublist ls := by
  have e : ls = ls.take a ++ ls.drop a := (List.take_append_drop a ls).symm
  have hd : (ls.drop (b + 1)).Sublist (ls.drop a) := by
    have : ls.drop (b + 1) = (ls.drop a).drop (b + 1 - a) := by rw [List.drop_drop]; congr 1; omega
    rw [this]
    exact List.drop_sublist _ _
  exact (List.Sublist.append_left hd (ls.take a)).trans (by rw [List.take_append_drop]; exact .refl _)

/-- What removing lines does. -/
theorem removeLines_some {t t' : Text} {a b : Nat} (h : removeLines t a b = some t') :
    a ≤ b ∧ b < (splitLines t).length ∧ splitLines t' = (splitLines t).take a ++ (splitLines t).drop (b + 1) := by
  unfold removeLines at h
  simp only at h
  split at h
  · cases h
  · rename_i hab
    split at h
    · cases h
    · rename_i hl
      simp only [Bool.or_eq_true, decide_eq_true_eq, not_or] at hl
      cases h
      refine ⟨by omega, by omega, ?_⟩
      exact splitLines_of_lines (lines_sublist (splitLines_lines t) (dropped_sublist _ (by omega)))

/-! ### Claims -/

theorem goalsIn_eq : ∀ items : List LowItem, goalsIn items = Vrf.goalIds items := by
  refine LowItem.rec_1 (motive_1 := fun i => goalsItem i = Vrf.goalsOf i) (motive_2 := fun is => goalsIn is = Vrf.goalIds is)
    ?_ ?_ ?_ ?_ ?_
  · intro n; rfl
  · intro g f; rfl
  · intro is o h; exact h
  · rfl
  · intro i is h1 h2
    rw [goalsIn, Vrf.goalIds, h1, h2]

theorem lastClaim_eq : ∀ items : List LowItem, lastClaim items = (claimsOf items).getLast?.map Prod.snd := by
  refine LowItem.rec_1 (motive_1 := fun i => lastClaimItem i = (claimsItem i).getLast?.map Prod.snd)
    (motive_2 := fun is => lastClaim is = (claimsOf is).getLast?.map Prod.snd) ?_ ?_ ?_ ?_ ?_
  · intro n; rfl
  · intro g f; rfl
  · intro is o h; exact h
  · rfl
  · intro i is h1 h2
    rw [lastClaim, claimsOf, h1, h2, List.getLast?_append]
    cases (claimsOf is).getLast? <;> rfl

theorem blockIn_cons {is : List LowItem} {item : LowItem} {items : List LowItem} :
    BlockIn is (item :: items) ↔ BlockIn is [item] ∨ BlockIn is items := by
  constructor
  · intro h
    cases h with
    | here h =>
      rcases List.mem_cons.mp h with rfl | h
      · exact .inl (.here (List.mem_singleton_self _))
      · exact .inr (.here h)
    | inside h hb =>
      rcases List.mem_cons.mp h with rfl | h
      · exact .inl (.inside (List.mem_singleton_self _) hb)
      · exact .inr (.inside h hb)
  · rintro (h | h)
    · cases h with
      | here h => exact .here (List.mem_append_left items h)
      | inside h hb => exact .inside (List.mem_append_left items h) hb
    · cases h with
      | here h => exact .here (List.mem_cons_of_mem _ h)
      | inside h hb => exact .inside (List.mem_cons_of_mem _ h) hb

theorem blockIn_block {is js : List LowItem} {ext : Option Nat} : BlockIn is [.block js ext] ↔ is = js ∨ BlockIn is js := by
  constructor
  · intro h
    cases h with
    | here h =>
      have := List.mem_singleton.mp h
      cases this
      exact .inl rfl
    | inside h hb =>
      have := List.mem_singleton.mp h
      cases this
      exact .inr hb
  · rintro (rfl | h)
    · exact .here (List.mem_singleton_self _)
    · exact .inside (List.mem_singleton_self _) h

theorem not_blockIn_nil {is : List LowItem} : ¬ BlockIn is [] := by
  intro h
  cases h with
  | here h => cases h
  | inside h _ => cases h

theorem exportedClaims_mem (f : Nat) : ∀ items : List LowItem, f ∈ exportedClaims items ↔ EndsBlock items f := by
  refine LowItem.rec_1 (motive_1 := fun i => f ∈ exportedItem i ↔ EndsBlock [i] f)
    (motive_2 := fun is => f ∈ exportedClaims is ↔ EndsBlock is f) ?_ ?_ ?_ ?_ ?_
  · intro n
    refine ⟨fun h => by simp [exportedItem] at h, ?_⟩
    rintro ⟨is, h, _⟩
    cases h with
    | here h => cases List.mem_singleton.mp h
    | inside h _ => cases List.mem_singleton.mp h
  · intro g f'
    refine ⟨fun h => by simp [exportedItem] at h, ?_⟩
    rintro ⟨is, h, _⟩
    cases h with
    | here h => cases List.mem_singleton.mp h
    | inside h _ => cases List.mem_singleton.mp h
  · intro js o h
    rw [exportedItem, List.mem_append, h, Option.mem_toList, lastClaim_eq]
    constructor
    · rintro (h | ⟨is, hb, hl⟩)
      · obtain ⟨⟨g, f'⟩, e, rfl⟩ := Option.map_eq_some_iff.mp h
        exact ⟨js, blockIn_block.mpr (.inl rfl), g, e⟩
      · exact ⟨is, blockIn_block.mpr (.inr hb), hl⟩
    · rintro ⟨is, hb, g, e⟩
      rcases blockIn_block.mp hb with rfl | hb
      · exact .inl (by rw [e]; rfl)
      · exact .inr ⟨is, hb, g, e⟩
  · exact ⟨fun h => (by cases h), fun ⟨is, h, _⟩ => absurd h not_blockIn_nil⟩
  · intro i is h1 h2
    rw [exportedClaims, List.mem_append, h1, h2]
    constructor
    · rintro (⟨js, hb, hl⟩ | ⟨js, hb, hl⟩)
      · exact ⟨js, blockIn_cons.mpr (.inl hb), hl⟩
      · exact ⟨js, blockIn_cons.mpr (.inr hb), hl⟩
    · rintro ⟨js, hb, hl⟩
      rcases blockIn_cons.mp hb with hb | hb
      · exact .inl ⟨js, hb, hl⟩
      · exact .inr ⟨js, hb, hl⟩

/-- The tests that a claim has to pass, besides its place. -/
def passes (m : Module Fact) (exported : List Nat) (cursor : Nat) (c : Candidate) : Prop :=
  m.lines c.goal = (c.first, c.last) ∧ cursor ≤ c.first ∧ c.fact ∉ exported ∧ m.anonGoal c.goal = true ∧ m.anonFact c.fact = true

/-- The candidates are the claims that pass, in a block unless all are. -/
theorem candidatesIn_mem (m : Module Fact) (exported : List Nat) (cursor : Nat) (c : Candidate) : ∀ (items : List LowItem) (depth : Nat),
    c ∈ candidatesIn m exported depth cursor items ↔ passes m exported cursor c ∧
      ((0 < depth ∧ (c.goal, c.fact) ∈ claimsOf items) ∨ ∃ is, BlockIn is items ∧ (c.goal, c.fact) ∈ claimsOf is) := by
  refine LowItem.rec_1 (motive_1 := fun i => ∀ depth, c ∈ candidatesItem m exported depth cursor i ↔ passes m exported cursor c ∧
      ((0 < depth ∧ (c.goal, c.fact) ∈ claimsItem i) ∨ ∃ is, BlockIn is [i] ∧ (c.goal, c.fact) ∈ claimsOf is))
    (motive_2 := fun items => ∀ depth, c ∈ candidatesIn m exported depth cursor items ↔ passes m exported cursor c ∧
      ((0 < depth ∧ (c.goal, c.fact) ∈ claimsOf items) ∨ ∃ is, BlockIn is items ∧ (c.goal, c.fact) ∈ claimsOf is)) ?_ ?_ ?_ ?_ ?_
  · intro n depth
    refine ⟨fun h => by simp [candidatesItem] at h, ?_⟩
    rintro ⟨_, ⟨_, h⟩ | ⟨is, h, _⟩⟩
    · simp [claimsItem] at h
    · cases h with
      | here h => cases List.mem_singleton.mp h
      | inside h _ => cases List.mem_singleton.mp h
  · intro g f depth
    rw [candidatesItem]
    constructor
    · intro h
      split at h
      · rename_i hc
        cases List.mem_singleton.mp h
        simp only [Bool.and_eq_true, decide_eq_true_eq, Bool.not_eq_true', ge_iff_le] at hc
        obtain ⟨⟨⟨⟨h1, h2⟩, h3⟩, h4⟩, h5⟩ := hc
        exact ⟨⟨rfl, h2, by simpa using h3, h4, h5⟩, .inl ⟨h1, by simp [claimsItem]⟩⟩
      · cases h
    · rintro ⟨⟨p1, p2, p3, p4, p5⟩, ⟨hd, h⟩ | ⟨is, h, _⟩⟩
      · obtain ⟨cg, cf, c1, c2⟩ := c
        simp only [claimsItem, List.mem_singleton, Prod.mk.injEq] at h
        obtain ⟨rfl, rfl⟩ := h
        simp only at p1 p2 p3 p4 p5
        rw [if_pos]
        · rw [p1]; simp
        · simp only [Bool.and_eq_true, decide_eq_true_eq, Bool.not_eq_true', ge_iff_le, p1]
          exact ⟨⟨⟨⟨hd, p2⟩, by simpa using p3⟩, p4⟩, p5⟩
      · cases h with
        | here h => cases List.mem_singleton.mp h
        | inside h _ => cases List.mem_singleton.mp h
  · intro js o ih depth
    rw [candidatesItem, ih]
    refine and_congr_right fun _ => ⟨?_, ?_⟩
    · rintro (⟨_, h⟩ | ⟨is, hb, h⟩)
      · exact .inr ⟨js, blockIn_block.mpr (.inl rfl), h⟩
      · exact .inr ⟨is, blockIn_block.mpr (.inr hb), h⟩
    · rintro (⟨_, h⟩ | ⟨is, hb, h⟩)
      · exact .inl ⟨Nat.succ_pos _, h⟩
      · rcases blockIn_block.mp hb with rfl | hb
        · exact .inl ⟨Nat.succ_pos _, h⟩
        · exact .inr ⟨is, hb, h⟩
  · intro depth
    refine ⟨fun h => (by cases h), ?_⟩
    rintro ⟨_, ⟨_, h⟩ | ⟨is, h, _⟩⟩
    · cases h
    · exact absurd h not_blockIn_nil
  · intro i is h1 h2 depth
    rw [candidatesIn, List.mem_append, h1, h2, claimsOf, List.mem_append, ← and_or_left]
    refine and_congr_right fun _ => ⟨?_, ?_⟩
    · rintro ((⟨hd, h⟩ | ⟨js, hb, h⟩) | (⟨hd, h⟩ | ⟨js, hb, h⟩))
      · exact .inl ⟨hd, .inl h⟩
      · exact .inr ⟨js, blockIn_cons.mpr (.inl hb), h⟩
      · exact .inl ⟨hd, .inr h⟩
      · exact .inr ⟨js, blockIn_cons.mpr (.inr hb), h⟩
    · rintro (⟨hd, h | h⟩ | ⟨js, hb, h⟩)
      · exact .inl (.inl ⟨hd, h⟩)
      · exact .inr (.inl ⟨hd, h⟩)
      · rcases blockIn_cons.mp hb with hb | hb
        · exact .inl (.inr ⟨js, hb, h⟩)
        · exact .inr (.inr ⟨js, hb, h⟩)

theorem candidates_mem (m : Module Fact) (cursor : Nat) (c : Candidate) :
    c ∈ candidatesIn m (exportedClaims m.items) 0 cursor m.items ↔
      Removable m c.goal c.fact ∧ m.lines c.goal = (c.first, c.last) ∧ cursor ≤ c.first := by
  rw [candidatesIn_mem]
  constructor
  · rintro ⟨⟨p1, p2, p3, p4, p5⟩, ⟨h, _⟩ | h⟩
    · cases h
    · exact ⟨⟨h, ⟨p4, p5⟩, fun he => p3 ((exportedClaims_mem _ _).mpr he)⟩, p1, p2⟩
  · rintro ⟨⟨h, ⟨p4, p5⟩, h3⟩, p1, p2⟩
    exact ⟨⟨p1, p2, fun he => h3 ((exportedClaims_mem _ _).mp he), p4, p5⟩, .inr h⟩

theorem before_first {a b : Candidate} (h : a.before b = true) : a.first ≤ b.first := by
  simp only [Candidate.before, Bool.or_eq_true, Bool.and_eq_true, decide_eq_true_eq, beq_iff_eq] at h
  omega

theorem before_total (a b : Candidate) : a.before b = true ∨ b.before a = true := by
  simp only [Candidate.before, Bool.or_eq_true, Bool.and_eq_true, decide_eq_true_eq, beq_iff_eq]
  omega

theorem least_some {cs : List Candidate} {c : Candidate} (h : least cs = some c) : c ∈ cs ∧ ∀ d ∈ cs, c.first ≤ d.first := by
  induction cs generalizing c with
  | nil => cases h
  | cons a cs ih =>
    rw [least] at h
    cases hl : least cs with
    | none =>
      rw [hl] at h
      cases h
      refine ⟨by simp, fun d hd => ?_⟩
      rcases List.mem_cons.mp hd with rfl | hd
      · exact Nat.le_refl _
      · cases cs with
        | nil => cases hd
        | cons b bs =>
          rw [least] at hl
          split at hl
          · cases hl
          · split at hl <;> cases hl
    | some b =>
      rw [hl] at h
      obtain ⟨h1, h2⟩ := ih hl
      simp only at h
      split at h
      · rename_i hb
        cases h
        refine ⟨by simp, fun d hd => ?_⟩
        rcases List.mem_cons.mp hd with rfl | hd
        · exact Nat.le_refl _
        · exact Nat.le_trans (before_first hb) (h2 d hd)
      · rename_i hb
        cases h
        refine ⟨List.mem_cons_of_mem _ h1, fun d hd => ?_⟩
        rcases List.mem_cons.mp hd with rfl | hd
        · exact before_first ((before_total _ _).resolve_left hb)
        · exact h2 d hd

theorem least_none {cs : List Candidate} (h : least cs = none) : cs = [] := by
  cases cs with
  | nil => rfl
  | cons a cs =>
    rw [least] at h
    split at h
    · cases h
    · split at h <;> cases h

theorem firstCandidate_some {m : Module Fact} {cursor : Nat} {c : Candidate} (h : firstCandidate m cursor = some c) :
    Removable m c.goal c.fact ∧ m.lines c.goal = (c.first, c.last) ∧ cursor ≤ c.first ∧
      ∀ goal fact, Removable m goal fact → cursor ≤ (m.lines goal).1 → c.first ≤ (m.lines goal).1 := by
  obtain ⟨h1, h2⟩ := least_some h
  obtain ⟨h3, h4, h5⟩ := (candidates_mem m cursor c).mp h1
  refine ⟨h3, h4, h5, fun goal fact hr hc => ?_⟩
  exact h2 ⟨goal, fact, (m.lines goal).1, (m.lines goal).2⟩ ((candidates_mem _ _ _).mpr ⟨hr, rfl, hc⟩)

theorem firstCandidate_none {m : Module Fact} {cursor : Nat} (h : firstCandidate m cursor = none) (goal fact : Nat)
    (hr : Removable m goal fact) : (m.lines goal).1 < cursor := by
  have := least_none h
  refine Nat.lt_of_not_le fun hc => ?_
  have hm := (candidates_mem m cursor ⟨goal, fact, (m.lines goal).1, (m.lines goal).2⟩).mpr ⟨hr, rfl, hc⟩
  rw [this] at hm
  cases hm

/-! ### Proving without a fact -/

theorem affected_mem {m : Module Fact} {fact g : Nat} {gs : List Nat} :
    g ∈ affected m fact gs ↔ g ∈ gs ∧ ∃ ids, Elab.visibleFor g [] m.items = some ids ∧ fact ∈ ids := by
  rw [affected, List.mem_filter]
  refine and_congr_right fun _ => ?_
  cases h : Elab.visibleFor g [] m.items with
  | none => simp
  | some ids => simp

theorem maskedFacts_spec {m : Module Fact} (h : Vrf.LoadedModule m.src m.items) {g fact : Nat} (hg : g ∈ Vrf.goalIds m.items)
    {ids : List Nat} (hv : Elab.visibleFor g [] m.items = some ids) :
    ∃ facts, maskedFacts m g fact = some facts ∧ MayUseWithout m.src m.items g fact facts := by
  obtain ⟨P, e, hk, _⟩ := Vrf.addImports_spec (direct := m.src.direct g) (Vrf.knows_empty (M := m.src)) h.closed
    (fun d hd => by cases hd) fun x hx => h.loaded x (.inr ⟨g, hg, hx⟩)
  have hk2 := hk.addAll (ids.filter (· != fact)) []
  have hi : ∀ (l : List Fact) (P : Vrf.Known Fact), (l.foldl Vrf.Known.add P).imported = P.imported := by
    intro l
    induction l with
    | nil => intro P; rfl
    | cons f l ih => intro P; rw [List.foldl_cons, ih]; rfl
  refine ⟨_, by rw [maskedFacts, hv, e], P.imported, ids, hk.nodup, hk.mem, hv, ?_⟩
  have := hk2.perm
  rw [hi, List.nil_append] at this
  have e : ids.filter (fun x => decide (x ≠ fact)) = ids.filter (· != fact) := List.filter_congr fun x _ => by
    by_cases hx : x = fact <;> simp [hx]
  rw [e]
  exact this

theorem canRemove_true {W : World Fact} {m : Module Fact} (h : Vrf.LoadedModule m.src m.items) {fact : Nat} :
    ∀ {gs : List Nat}, (∀ g ∈ gs, g ∈ Vrf.goalIds m.items ∧ ∃ ids, Elab.visibleFor g [] m.items = some ids) →
      canRemove W m fact gs = .ok true → ∀ g ∈ gs, ∃ facts, MayUseWithout m.src m.items g fact facts ∧ W.prove m facts g = true := by
  intro gs
  induction gs with
  | nil => intro _ _ g hg; cases hg
  | cons a gs ih =>
    intro hgs hc
    obtain ⟨ha, ids, hv⟩ := hgs a (by simp)
    obtain ⟨facts, e, hm⟩ := maskedFacts_spec h (fact := fact) ha hv
    rw [canRemove, e] at hc
    simp only at hc
    split at hc
    · rename_i hp
      intro g hg
      rcases List.mem_cons.mp hg with rfl | hg
      · exact ⟨facts, hm, hp⟩
      · exact ih (fun g hg => hgs g (List.mem_cons_of_mem _ hg)) hc g hg
    · cases hc

theorem canRemove_false {W : World Fact} {m : Module Fact} (h : Vrf.LoadedModule m.src m.items) {fact : Nat} :
    ∀ {gs : List Nat}, (∀ g ∈ gs, g ∈ Vrf.goalIds m.items ∧ ∃ ids, Elab.visibleFor g [] m.items = some ids) →
      canRemove W m fact gs = .ok false → ∃ g ∈ gs, ∃ facts, MayUseWithout m.src m.items g fact facts ∧ W.prove m facts g = false := by
  intro gs
  induction gs with
  | nil => intro _ h; cases h
  | cons a gs ih =>
    intro hgs hc
    obtain ⟨ha, ids, hv⟩ := hgs a (by simp)
    obtain ⟨facts, e, hm⟩ := maskedFacts_spec h (fact := fact) ha hv
    rw [canRemove, e] at hc
    simp only at hc
    split at hc
    · obtain ⟨g, hg, r⟩ := ih (fun g hg => hgs g (List.mem_cons_of_mem _ hg)) hc
      exact ⟨g, List.mem_cons_of_mem _ hg, r⟩
    · rename_i hp
      exact ⟨a, by simp, facts, hm, by simpa using hp⟩

theorem canRemove_ok {W : World Fact} {m : Module Fact} (h : Vrf.LoadedModule m.src m.items) {fact : Nat} :
    ∀ {gs : List Nat}, (∀ g ∈ gs, g ∈ Vrf.goalIds m.items ∧ ∃ ids, Elab.visibleFor g [] m.items = some ids) →
      ∃ b, canRemove W m fact gs = .ok b := by
  intro gs
  induction gs with
  | nil => intro _; exact ⟨true, rfl⟩
  | cons a gs ih =>
    intro hgs
    obtain ⟨ha, ids, hv⟩ := hgs a (by simp)
    obtain ⟨facts, e, hm⟩ := maskedFacts_spec h (fact := fact) ha hv
    rw [canRemove, e]
    simp only
    split
    · exact ih fun g hg => hgs g (List.mem_cons_of_mem _ hg)
    · exact ⟨false, rfl⟩

theorem affected_goals (m : Module Fact) (fact : Nat) : ∀ g ∈ affected m fact (goalsIn m.items),
    g ∈ Vrf.goalIds m.items ∧ ∃ ids, Elab.visibleFor g [] m.items = some ids := by
  intro g hg
  obtain ⟨h1, ids, h2, _⟩ := affected_mem.mp hg
  exact ⟨by rwa [goalsIn_eq] at h1, ids, h2⟩

/-! ### A round -/

/-- What a round does. -/
inductive Round (W : World Fact) (dry : Bool) (st : State) : Except Failure (Option State) → Prop
  | load : W.load st.text = none → Round W dry st (.error .load)
  | done {m} : W.load st.text = some m → firstCandidate m st.cursor = none → Round W dry st (.ok none)
  | setup {m c e} : W.load st.text = some m → firstCandidate m st.cursor = some c →
      canRemove W m c.fact (affected m c.fact (goalsIn m.items)) = .error e → Round W dry st (.error e)
  | keep {m c} : W.load st.text = some m → firstCandidate m st.cursor = some c →
      canRemove W m c.fact (affected m c.fact (goalsIn m.items)) = .ok false →
      Round W dry st (.ok (some { st with cursor := c.last + 1, considered := st.considered + 1 }))
  | outside {m c} : W.load st.text = some m → firstCandidate m st.cursor = some c →
      canRemove W m c.fact (affected m c.fact (goalsIn m.items)) = .ok true →
      removeLines st.text c.first c.last = none → Round W dry st (.error .outside)
  | bugLoad {m c t} : W.load st.text = some m → firstCandidate m st.cursor = some c →
      canRemove W m c.fact (affected m c.fact (goalsIn m.items)) = .ok true →
      removeLines st.text c.first c.last = some t → W.load t = none → Round W dry st (.error .bugLoad)
  | bugVerify {m c t m'} : W.load st.text = some m → firstCandidate m st.cursor = some c →
      canRemove W m c.fact (affected m c.fact (goalsIn m.items)) = .ok true →
      removeLines st.text c.first c.last = some t → W.load t = some m' → verifyEdited W m' st.disk.certs = none →
      Round W dry st (.error .bugVerify)
  | remove {m c t m' certs} : W.load st.text = some m → firstCandidate m st.cursor = some c →
      canRemove W m c.fact (affected m c.fact (goalsIn m.items)) = .ok true →
      removeLines st.text c.first c.last = some t → W.load t = some m' → verifyEdited W m' st.disk.certs = some certs →
      Round W dry st (.ok (some {
        disk := if dry then st.disk else ⟨t, certs⟩
        working := if dry then some t else none
        cursor := c.first
        considered := st.considered + 1
        removed := st.removed ++ [⟨c.first, c.last, (affected m c.fact (goalsIn m.items)).length⟩]
        writes := if dry then st.writes else st.writes ++ [.certs certs, .source t] }))

theorem round (W : World Fact) (dry : Bool) (st : State) : Round W dry st (step W dry st) := by
  unfold step
  cases h1 : W.load st.text with
  | none => exact .load h1
  | some m =>
    simp only
    cases h2 : firstCandidate m st.cursor with
    | none => exact .done h1 h2
    | some c =>
      simp only
      cases h3 : canRemove W m c.fact (affected m c.fact (goalsIn m.items)) with
      | error e => exact .setup h1 h2 h3
      | ok b =>
        cases b with
        | false => exact .keep h1 h2 h3
        | true =>
          simp only
          cases h4 : removeLines st.text c.first c.last with
          | none => exact .outside h1 h2 h3 h4
          | some t =>
            simp only
            cases h5 : W.load t with
            | none => exact .bugLoad h1 h2 h3 h4 h5
            | some m' =>
              simp only
              cases h6 : verifyEdited W m' st.disk.certs with
              | none => exact .bugVerify h1 h2 h3 h4 h5 h6
              | some certs =>
                have := Round.remove (dry := dry) h1 h2 h3 h4 h5 h6
                cases dry <;> exact this

/-- What holds at the start and is kept by every round holds at the end. -/
theorem run_keeps {W : World Fact} {dry : Bool} {P : State → Prop}
    (hP : ∀ st st', P st → step W dry st = .ok (some st') → P st') :
    ∀ (n : Nat) {st st' : State} {e : Option Failure}, P st → run W dry n st = some (st', e) → P st' := by
  intro n
  induction n with
  | zero => intro st st' e _ h; cases h
  | succ n ih =>
    intro st st' e hp h
    rw [run] at h
    cases hs : step W dry st with
    | error x => rw [hs] at h; cases h; exact hp
    | ok o =>
      rw [hs] at h
      cases o with
      | none => cases h; exact hp
      | some s => exact ih (hP _ _ hp hs) h

theorem run_more {W : World Fact} {dry : Bool} : ∀ {n : Nat} {st : State} {r}, run W dry n st = some r → ∀ k, n ≤ k → run W dry k st = some r := by
  intro n
  induction n with
  | zero => intro st r h; cases h
  | succ n ih =>
    intro st r h k hk
    obtain ⟨k, rfl⟩ : ∃ j, k = j + 1 := ⟨k - 1, by omega⟩
    rw [run] at h ⊢
    cases hs : step W dry st with
    | error x => rw [hs] at h; exact h
    | ok o =>
      rw [hs] at h
      cases o with
      | none => exact h
      | some s => exact ih h k (by omega)

end Acorn.Simp
