import Verif.Lemmas.Simplify
import Verif.Props.VerifyModule
/-
Lemmas about whole runs of `acorn simplify`: they end, and what holds in every state.
-/
namespace Acorn.Simp
open Elab (LowItem)

variable {Fact : Type}

/-! ### The end -/

/-- A later cursor leaves the candidates at or after it. -/
theorem candidatesIn_cursor (m : Module Fact) (exported : List Nat) {a b : Nat} (hab : a ≤ b) : ∀ (items : List LowItem) (depth : Nat),
    candidatesIn m exported depth b items = (candidatesIn m exported depth a items).filter fun c => b ≤ c.first := by
  refine LowItem.rec_1 (motive_1 := fun i => ∀ depth,
      candidatesItem m exported depth b i = (candidatesItem m exported depth a i).filter fun c => b ≤ c.first)
    (motive_2 := fun items => ∀ depth,
      candidatesIn m exported depth b items = (candidatesIn m exported depth a items).filter fun c => b ≤ c.first) ?_ ?_ ?_ ?_ ?_
  · intro n depth; rfl
  · intro g f depth
    rw [candidatesItem, candidatesItem]
    by_cases hb : b ≤ (m.lines g).1
    · have ha : a ≤ (m.lines g).1 := Nat.le_trans hab hb
      simp only [ge_iff_le, ha, hb, decide_true]
      split
      · simp [hb]
      · rfl
    · simp only [ge_iff_le, hb, decide_false, Bool.and_false, Bool.false_and]
      split
      · rename_i h; cases h
      · split
        · simp [hb]
        · rfl
  · intro is o h depth
    exact h (depth + 1)
  · intro depth; rfl
  · intro i is h1 h2 depth
    rw [candidatesIn, candidatesIn, List.filter_append, h1, h2]

theorem filter_length_lt {α : Type} {p : α → Bool} {l : List α} {a : α} (ha : a ∈ l) (hp : p a = false) :
    (l.filter p).length < l.length := by
  induction l with
  | nil => cases ha
  | cons b l ih =>
    rw [List.filter_cons]
    rcases List.mem_cons.mp ha with rfl | ha
    · rw [hp]
      exact Nat.lt_succ_of_le (List.length_filter_le _ _)
    · split
      · exact Nat.succ_lt_succ (ih ha)
      · exact Nat.lt_succ_of_lt (ih ha)

/-- The candidates that are left in a state. -/
def left (W : World Fact) (st : State) : List Candidate :=
  match W.load st.text with
  | none => []
  | some m => candidatesIn m (exportedClaims m.items) 0 st.cursor m.items

theorem run_ends {W : World Fact} (hl : ∀ t m, W.load t = some m → ∀ g, (m.lines g).1 ≤ (m.lines g).2) (dry : Bool) :
    ∀ (L K : Nat) (st : State), (splitLines st.text).length ≤ L → (left W st).length ≤ K → ∃ n, (run W dry n st).isSome := by
  intro L
  induction L with
  | zero =>
    intro K
    induction K with
    | zero =>
      intro st _ hk
      have hr := round W dry st
      refine ⟨1, ?_⟩
      rw [run]
      generalize step W dry st = o at hr
      have none_left : ∀ {m c}, W.load st.text = some m → firstCandidate m st.cursor = some c → False := by
        intro m c h1 h2
        have := (least_some h2).1
        simp only [left, h1] at hk
        rw [List.length_eq_zero_iff.mp (Nat.le_zero.mp hk)] at this
        cases this
      cases hr with
      | load => rfl
      | done => rfl
      | setup h1 h2 => exact (none_left h1 h2).elim
      | keep h1 h2 => exact (none_left h1 h2).elim
      | outside h1 h2 => exact (none_left h1 h2).elim
      | bugLoad h1 h2 => exact (none_left h1 h2).elim
      | bugVerify h1 h2 => exact (none_left h1 h2).elim
      | remove h1 h2 => exact (none_left h1 h2).elim
    | succ K ih =>
      intro st hL hk
      have hr := round W dry st
      generalize ho : step W dry st = o at hr
      cases hr with
      | load => exact ⟨1, by rw [run, ho]; rfl⟩
      | done => exact ⟨1, by rw [run, ho]; rfl⟩
      | setup => exact ⟨1, by rw [run, ho]; rfl⟩
      | outside => exact ⟨1, by rw [run, ho]; rfl⟩
      | bugLoad => exact ⟨1, by rw [run, ho]; rfl⟩
      | bugVerify => exact ⟨1, by rw [run, ho]; rfl⟩
      | @keep m c h1 h2 h3 =>
        obtain ⟨n, hn⟩ := ih { st with cursor := c.last + 1, considered := st.considered + 1 } hL (by
          obtain ⟨hm, _⟩ := least_some h2
          obtain ⟨_, q2, q3⟩ := (candidates_mem _ _ _).mp hm
          have := hl _ _ h1 c.goal
          rw [q2] at this
          have e : left W { st with cursor := c.last + 1, considered := st.considered + 1 } =
              (left W st).filter fun d => c.last + 1 ≤ d.first := by
            show (match W.load st.text with | none => _ | some m => _) = _
            simp only [left, h1]
            exact candidatesIn_cursor m _ (by simp only at this; omega) m.items 0
          have hlt : ((left W st).filter fun d => c.last + 1 ≤ d.first).length < (left W st).length := by
            refine filter_length_lt (a := c) ?_ ?_
            · simp only [left, h1]; exact hm
            · simp only at this
              exact decide_eq_false (by omega)
          rw [e]
          omega)
        exact ⟨n + 1, by rw [run, ho]; exact hn⟩
      | @remove m c t m' certs h1 h2 h3 h4 h5 h6 =>
        exfalso
        obtain ⟨_, h, _⟩ := removeLines_some h4
        omega
  | succ L ihL =>
    intro K
    induction K with
    | zero =>
      intro st _ hk
      have hr := round W dry st
      refine ⟨1, ?_⟩
      rw [run]
      generalize step W dry st = o at hr
      have none_left : ∀ {m c}, W.load st.text = some m → firstCandidate m st.cursor = some c → False := by
        intro m c h1 h2
        have := (least_some h2).1
        simp only [left, h1] at hk
        rw [List.length_eq_zero_iff.mp (Nat.le_zero.mp hk)] at this
        cases this
      cases hr with
      | load => rfl
      | done => rfl
      | setup h1 h2 => exact (none_left h1 h2).elim
      | keep h1 h2 => exact (none_left h1 h2).elim
      | outside h1 h2 => exact (none_left h1 h2).elim
      | bugLoad h1 h2 => exact (none_left h1 h2).elim
      | bugVerify h1 h2 => exact (none_left h1 h2).elim
      | remove h1 h2 => exact (none_left h1 h2).elim
    | succ K ih =>
      intro st hL hk
      have hr := round W dry st
      generalize ho : step W dry st = o at hr
      cases hr with
      | load => exact ⟨1, by rw [run, ho]; rfl⟩
      | done => exact ⟨1, by rw [run, ho]; rfl⟩
      | setup => exact ⟨1, by rw [run, ho]; rfl⟩
      | outside => exact ⟨1, by rw [run, ho]; rfl⟩
      | bugLoad => exact ⟨1, by rw [run, ho]; rfl⟩
      | bugVerify => exact ⟨1, by rw [run, ho]; rfl⟩
      | @keep m c h1 h2 h3 =>
        obtain ⟨n, hn⟩ := ih { st with cursor := c.last + 1, considered := st.considered + 1 } hL (by
          obtain ⟨hm, _⟩ := least_some h2
          obtain ⟨_, q2, q3⟩ := (candidates_mem _ _ _).mp hm
          have := hl _ _ h1 c.goal
          rw [q2] at this
          have e : left W { st with cursor := c.last + 1, considered := st.considered + 1 } =
              (left W st).filter fun d => c.last + 1 ≤ d.first := by
            show (match W.load st.text with | none => _ | some m => _) = _
            simp only [left, h1]
            exact candidatesIn_cursor m _ (by simp only at this; omega) m.items 0
          have hlt : ((left W st).filter fun d => c.last + 1 ≤ d.first).length < (left W st).length := by
            refine filter_length_lt (a := c) ?_ ?_
            · simp only [left, h1]; exact hm
            · simp only at this
              exact decide_eq_false (by omega)
          rw [e]
          omega)
        exact ⟨n + 1, by rw [run, ho]; exact hn⟩
      | @remove m c t m' certs h1 h2 h3 h4 h5 h6 =>
        obtain ⟨g1, g2, g3⟩ := removeLines_some h4
        generalize hst : State.mk (if dry then st.disk else ⟨t, certs⟩) _ _ _ _ _ = st' at ho
        have ht : st'.text = t := by
          rw [← hst]
          cases dry <;> rfl
        obtain ⟨n, hn⟩ := ihL (left W st').length st' (by
          rw [ht, g3, List.length_append, List.length_take, List.length_drop]; omega) (Nat.le_refl _)
        exact ⟨n + 1, by rw [run, ho]; exact hn⟩

/-! ### What is verified -/

theorem verifyEdited_some {W : World Fact} {m : Module Fact} (h : Vrf.LoadedModule m.src m.items)
    (hord : ∀ w, (W.order w).Perm w.indexes.keys) {stored certs : List Cert} (e : verifyEdited W m stored = some certs) :
    Verifies W m ∧ ∃ v k, Vrf.verifyModule (W.verifying m) .good stored W.order m.items = .ok v ∧ v.good = true ∧
      v.store = some (certs, k) := by
  unfold verifyEdited at e
  split at e
  · cases e
  · rename_i v hv
    split at e
    · rename_i hs
      obtain ⟨c1, c2⟩ := C55_good (S := W.verifying m) h rfl rfl hord hv
      have hg := c1.mp hs
      obtain ⟨rs, r1, r2, _, _, _, _, rest, r3, _⟩ := c2 hg
      refine ⟨⟨stored, rs, r1, r2⟩, v, rs.length, hv, hg, ?_⟩
      rw [r3] at e
      cases e
      exact r3
    · cases e

/-- What holds in every state of a run. -/
structure Holds (W : World Fact) (dry : Bool) (d : Disk) (st : State) : Prop where
  chain : Chain W d.source st.removed st.text
  dryRun : dry = true → st.writes = [] ∧ st.disk = d
  real : dry = false → st.working = none ∧ st.disk = st.writes.foldl Disk.after d
  crash : ∀ k, ((st.writes.take k).foldl Disk.after d).source = d.source ∨
    GoodText W ((st.writes.take k).foldl Disk.after d).source
  certs : dry = false → st.removed ≠ [] → ∃ m stored v k, W.load st.disk.source = some m ∧
    Vrf.verifyModule (W.verifying m) .good stored W.order m.items = .ok v ∧ v.good = true ∧ v.store = some (st.disk.certs, k)

theorem holds_start (W : World Fact) (dry : Bool) (d : Disk) : Holds W dry d { disk := d } where
  chain := .nil
  dryRun := fun _ => ⟨rfl, rfl⟩
  real := fun _ => ⟨rfl, rfl⟩
  crash := fun k => .inl (by rw [show ({ disk := d } : State).writes = [] from rfl, List.take_nil]; rfl)
  certs := fun _ h => absurd rfl h

theorem holds_step {W : World Fact} (hW : ∀ t m, W.load t = some m → Vrf.LoadedModule m.src m.items)
    (hord : ∀ w, (W.order w).Perm w.indexes.keys) {dry : Bool} {d : Disk} (st st' : State) (h : Holds W dry d st)
    (e : step W dry st = .ok (some st')) : Holds W dry d st' := by
  have hr := round W dry st
  rw [e] at hr
  cases hr with
  | keep h1 h2 h3 => exact ⟨h.chain, h.dryRun, h.real, h.crash, h.certs⟩
  | @remove m c t m' certs h1 h2 h3 h4 h5 h6 =>
    obtain ⟨f1, f2, f3, _⟩ := firstCandidate_some h2
    obtain ⟨g1, g2, g3⟩ := removeLines_some h4
    obtain ⟨v1, v, k, v2, v3, v4⟩ := verifyEdited_some (hW _ _ h5) hord h6
    have hgood : GoodText W t := ⟨m', h5, v1⟩
    have hred : Redundant W st.text ⟨c.first, c.last, (affected m c.fact (goalsIn m.items)).length⟩ t m c.goal c.fact :=
      { loaded := h1, inner := f1.inner, lines := f2, anonymous := f1.anonymous, notLast := f1.notLast
        unneeded := fun g hg ids hv hf => canRemove_true (hW _ _ h1) (affected_goals m c.fact) h3 g
          (affected_mem.mpr ⟨by rw [goalsIn_eq]; exact hg, ids, hv, hf⟩)
        inside := ⟨g1, g2⟩, edited := g3, good := hgood }
    cases dry with
    | true =>
      exact ⟨h.chain.snoc hred, h.dryRun, (fun x => by cases x), h.crash, (fun x => by cases x)⟩
    | false =>
      obtain ⟨hw, hd⟩ := h.real rfl
      refine ⟨h.chain.snoc hred, (fun x => by cases x), fun _ => ⟨rfl, ?_⟩, fun j => ?_, fun _ _ => ?_⟩
      · show _ = (st.writes ++ [Write.certs certs, Write.source t]).foldl Disk.after d
        rw [List.foldl_append, ← hd]
        rfl
      · show ((List.take j (st.writes ++ [Write.certs certs, Write.source t])).foldl Disk.after d).source = _ ∨
          GoodText W ((List.take j (st.writes ++ [Write.certs certs, Write.source t])).foldl Disk.after d).source
        rw [List.take_append, List.foldl_append]
        by_cases hj : j ≤ st.writes.length
        · rw [Nat.sub_eq_zero_of_le hj]
          exact h.crash j
        · obtain ⟨i, hi⟩ : ∃ i, j - st.writes.length = i + 1 := ⟨j - st.writes.length - 1, by omega⟩
          have hfull := h.crash j
          rw [hi]
          cases i with
          | zero => exact hfull
          | succ i =>
            refine .inr ?_
            rw [show List.take (i + 1 + 1) [Write.certs certs, .source t] = [.certs certs, .source t] from by
              rw [List.take_succ_cons, List.take_succ_cons, List.take_nil]]
            exact hgood
      · exact ⟨m', st.disk.certs, v, k, h5, v2, v3, v4⟩

theorem run_holds {W : World Fact} (hW : ∀ t m, W.load t = some m → Vrf.LoadedModule m.src m.items)
    (hord : ∀ w, (W.order w).Perm w.indexes.keys) {dry : Bool} {d : Disk} {n : Nat} {st : State} {e : Option Failure}
    (h : run W dry n { disk := d } = some (st, e)) : Holds W dry d st :=
  run_keeps (holds_step hW hord) n (holds_start W dry d) h

theorem chain_sublist {W : World Fact} {t t' : Text} {rs : List Removal} (h : Chain W t rs t') :
    (splitLines t').Sublist (splitLines t) ∧
      (splitLines t).length = (splitLines t').length + (rs.map fun r => r.last + 1 - r.first).sum := by
  induction h with
  | nil => exact ⟨.refl _, rfl⟩
  | @snoc rs r t' t'' m goal fact hc hr ih =>
    obtain ⟨h1, h2⟩ := ih
    obtain ⟨h3, h4⟩ := hr.inside
    refine ⟨.trans (by rw [hr.edited]; exact dropped_sublist _ h3) h1, ?_⟩
    have := congrArg List.length hr.edited
    rw [List.length_append, List.length_take, List.length_drop] at this
    rw [h2, List.map_append, List.sum_append, List.map_cons, List.map_nil, List.sum_cons, List.sum_nil]
    omega

/-! ### Dry runs -/

/-- Two states that differ in the disk only. -/
structure Alike (a b : State) : Prop where
  text : a.text = b.text
  cursor : a.cursor = b.cursor
  considered : a.considered = b.considered
  removed : a.removed = b.removed

theorem alike_step {W : World Fact} (hs : ∀ m c c', (verifyEdited W m c).isSome = (verifyEdited W m c').isSome) {a b : State}
    (h : Alike a b) (da db : Bool) :
    (∃ e, step W da a = .error e ∧ step W db b = .error e) ∨ (step W da a = .ok none ∧ step W db b = .ok none) ∨
    ∃ a' b', step W da a = .ok (some a') ∧ step W db b = .ok (some b') ∧ Alike a' b' := by
  have hr := round W da a
  generalize hq : step W da a = o at hr
  unfold step
  rw [← h.text, ← h.cursor]
  cases hr with
  | load h1 => exact .inl ⟨_, rfl, by rw [h1]⟩
  | done h1 h2 => exact .inr (.inl ⟨rfl, by rw [h1]; simp only [h2]⟩)
  | setup h1 h2 h3 => exact .inl ⟨_, rfl, by rw [h1]; simp only [h2, h3]⟩
  | @keep m c h1 h2 h3 =>
    refine .inr (.inr ⟨_, { b with cursor := c.last + 1, considered := b.considered + 1 }, rfl, by rw [h1]; simp only [h2, h3], ?_⟩)
    exact ⟨h.text, rfl, by rw [h.considered], h.removed⟩
  | outside h1 h2 h3 h4 => exact .inl ⟨_, rfl, by rw [h1]; simp only [h2, h3, h4]⟩
  | bugLoad h1 h2 h3 h4 h5 => exact .inl ⟨_, rfl, by rw [h1]; simp only [h2, h3, h4, h5]⟩
  | @bugVerify m c t m' h1 h2 h3 h4 h5 h6 =>
    have := hs m' a.disk.certs b.disk.certs
    rw [h6] at this
    have h7 : verifyEdited W m' b.disk.certs = none := by simpa using this.symm
    exact .inl ⟨_, rfl, by rw [h1]; simp only [h2, h3, h4, h5, h7]⟩
  | @remove m c t m' certs h1 h2 h3 h4 h5 h6 =>
    have := hs m' a.disk.certs b.disk.certs
    rw [h6] at this
    obtain ⟨certs', h7⟩ := Option.isSome_iff_exists.mp this.symm
    refine .inr (.inr ⟨_, ?_, rfl, ?_, ?_⟩)
    · exact {
        disk := if db then b.disk else ⟨t, certs'⟩
        working := if db then some t else none
        cursor := c.first
        considered := b.considered + 1
        removed := b.removed ++ [⟨c.first, c.last, (affected m c.fact (goalsIn m.items)).length⟩]
        writes := if db then b.writes else b.writes ++ [.certs certs', .source t] }
    · rw [h1]
      simp only [h2, h3, h4, h5, h7]
      cases db <;> rfl
    · refine ⟨?_, rfl, by rw [h.considered], by rw [h.removed]⟩
      cases da <;> cases db <;> rfl

theorem alike_run {W : World Fact} (hs : ∀ m c c', (verifyEdited W m c).isSome = (verifyEdited W m c').isSome) (da db : Bool) :
    ∀ (n : Nat) {a b : State}, Alike a b →
      (run W da n a = none ∧ run W db n b = none) ∨
      ∃ a' b' e, run W da n a = some (a', e) ∧ run W db n b = some (b', e) ∧ Alike a' b' := by
  intro n
  induction n with
  | zero => intro a b _; exact .inl ⟨rfl, rfl⟩
  | succ n ih =>
    intro a b h
    rw [run, run]
    rcases alike_step hs h da db with ⟨e, h1, h2⟩ | ⟨h1, h2⟩ | ⟨a', b', h1, h2, h3⟩
    · rw [h1, h2]
      exact .inr ⟨a, b, _, rfl, rfl, h⟩
    · rw [h1, h2]
      exact .inr ⟨a, b, _, rfl, rfl, h⟩
    · rw [h1, h2]
      exact ih h3

/-! ### Claims that are kept -/

/-- The line of the last removal. -/
def lastLine (st : State) : Nat := (st.removed.getLast?.map Removal.first).getD 0

/-- All claims from the last removal to the cursor are needed. -/
def Tried (W : World Fact) (st : State) : Prop :=
  ∀ m, W.load st.text = some m → ∀ goal fact, Removable m goal fact → lastLine st ≤ (m.lines goal).1 →
    (m.lines goal).1 < st.cursor → NeededBy W m fact

/-- The claims that may be removed are on different lines. -/
def OwnLines (m : Module Fact) : Prop :=
  (∀ g, (m.lines g).1 ≤ (m.lines g).2) ∧
  ∀ goal fact goal' fact', Removable m goal fact → Removable m goal' fact' → goal ≠ goal' →
    (m.lines goal).2 < (m.lines goal').1 ∨ (m.lines goal').2 < (m.lines goal).1

theorem tried_step {W : World Fact} (hW : ∀ t m, W.load t = some m → Vrf.LoadedModule m.src m.items)
    (hfact : ∀ t m, W.load t = some m → ∀ goal fact fact', Removable m goal fact → Removable m goal fact' → fact = fact')
    (hown : ∀ t m, W.load t = some m → OwnLines m) {dry : Bool} (st st' : State) (h : Tried W st)
    (e : step W dry st = .ok (some st')) : Tried W st' := by
  have hr := round W dry st
  rw [e] at hr
  cases hr with
  | @keep m1 c h1 h2 h3 =>
    intro m hm goal fact hg hp hc
    have hm : W.load st.text = some m := hm
    obtain rfl : m1 = m := by
      rw [hm] at h1
      exact (Option.some.inj h1).symm
    obtain ⟨hl, hapart⟩ := hown _ _ hm
    obtain ⟨f1, f2, f3, f4⟩ := firstCandidate_some h2
    by_cases hb : (m1.lines goal).1 < st.cursor
    · exact h m1 hm goal fact hg hp hb
    · have h5 := f4 goal fact hg (by omega)
      have hc : (m1.lines goal).1 < c.last + 1 := hc
      have hgoal : goal = c.goal := by
        refine Classical.byContradiction fun hne => ?_
        rcases hapart _ _ _ _ hg f1 hne with h6 | h6
        · have := hl goal
          rw [f2] at h6
          simp only at h6
          omega
        · rw [f2] at h6
          simp only at h6
          omega
      subst hgoal
      obtain rfl := hfact _ _ hm _ _ _ hg f1
      obtain ⟨g, g1, facts, g2, g3⟩ := canRemove_false (hW _ _ hm) (affected_goals m1 c.fact) h3
      obtain ⟨g4, ids, g5, g6⟩ := affected_mem.mp g1
      exact ⟨g, by rwa [goalsIn_eq] at g4, ids, g5, g6, facts, g2, g3⟩
  | remove h1 h2 h3 h4 h5 h6 =>
    intro m hm goal fact hg hp hc
    exfalso
    simp only [lastLine, List.getLast?_append, List.getLast?_singleton, Option.some_or, Option.map_some, Option.getD_some] at hp
    simp only at hc
    omega

theorem run_done {W : World Fact} {dry : Bool} : ∀ (n : Nat) {st st' : State}, run W dry n st = some (st', none) →
    step W dry st' = .ok none := by
  intro n
  induction n with
  | zero => intro st st' h; cases h
  | succ n ih =>
    intro st st' h
    rw [run] at h
    split at h
    · cases h
    · cases h
      assumption
    · exact ih h

theorem claims_goals : ∀ items : List LowItem, (claimsOf items).map Prod.fst = Vrf.goalIds items := by
  refine LowItem.rec_1 (motive_1 := fun i => (claimsItem i).map Prod.fst = Vrf.goalsOf i)
    (motive_2 := fun is => (claimsOf is).map Prod.fst = Vrf.goalIds is) ?_ ?_ ?_ ?_ ?_
  · intro n; rfl
  · intro g f; rfl
  · intro is o h; exact h
  · rfl
  · intro i is h1 h2
    rw [claimsOf, Vrf.goalIds, List.map_append, h1, h2]

theorem claims_of_mem {item : LowItem} : ∀ {items : List LowItem}, item ∈ items → ∀ x ∈ claimsItem item, x ∈ claimsOf items := by
  intro items
  induction items with
  | nil => intro h; cases h
  | cons i is ih =>
    intro h x hx
    rw [claimsOf]
    rcases List.mem_cons.mp h with rfl | h
    · exact List.mem_append_left _ hx
    · exact List.mem_append_right _ (ih h x hx)

theorem claims_of_block {is items : List LowItem} (h : BlockIn is items) : ∀ x ∈ claimsOf is, x ∈ claimsOf items := by
  induction h with
  | here h => exact fun x hx => claims_of_mem h x hx
  | inside h _ ih => exact fun x hx => claims_of_mem h x (ih x hx)

/-- A goal has one fact. -/
theorem removable_unique {m : Module Fact} (h : Vrf.LoadedModule m.src m.items) {goal fact fact' : Nat}
    (h1 : Removable m goal fact) (h2 : Removable m goal fact') : fact = fact' := by
  obtain ⟨is, i1, i2⟩ := h1.inner
  obtain ⟨js, j1, j2⟩ := h2.inner
  have hd := h.distinct
  rw [← claims_goals, List.nodup_iff_pairwise_ne, List.pairwise_map] at hd
  have m1 := claims_of_block i1 _ i2
  have m2 := claims_of_block j1 _ j2
  refine Classical.byContradiction fun hne => ?_
  obtain ⟨a, ha, ea⟩ := List.getElem_of_mem m1
  obtain ⟨b, hb, eb⟩ := List.getElem_of_mem m2
  rcases Nat.lt_trichotomy a b with hab | hab | hab
  · exact List.pairwise_iff_getElem.mp hd a b ha hb hab (by rw [ea, eb])
  · subst hab
    rw [ea] at eb
    exact hne (by cases eb; rfl)
  · exact List.pairwise_iff_getElem.mp hd b a hb ha hab (by rw [ea, eb])

end Acorn.Simp
