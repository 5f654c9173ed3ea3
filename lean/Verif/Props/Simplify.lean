import Verif.Lemmas.SimplifyRuns
/-
C56: `acorn simplify` removes only the lines of claims that are not needed, and leaves a file that verifies.

Models `src/simplifier.rs`.  Specification: `Verif/Spec/Simplify.lean`.
-/
namespace Acorn
open Simp
open Elab (LowItem)

/-! ### Files to try -/

namespace SimplifyDemo

/-- A line is a claim, and all are in one block; a claim is named by the first letter of its line. -/
def claims (n : Nat) : Nat → List LowItem
  | 0 => []
  | k + 1 => .claim (n - (k + 1)) (n - (k + 1)) :: claims n k

def items (n : Nat) : List LowItem := [.block (claims n n) (some n)]

def letter (t : Text) (i : Nat) : Char := (((splitLines t)[i]?).getD []).headD ' '

def source (t : Text) : Vrf.Source Char where
  deps := fun _ => []
  exports := fun _ => none
  initial := []
  direct := fun _ => []
  fact := letter t

/-- `b` needs `a`, and `y` needs `x`. -/
def proves (facts : List Char) (c : Char) : Bool :=
  if c = 'b' then facts.contains 'a' else if c = 'y' then facts.contains 'x' else true

def tools (m : Simp.Module Char) : Vrf.Setting Char where
  src := m.src
  checkMode := false
  skipStore := false
  exitOnWarning := false
  filter := none
  override := none
  name := fun g => (m.src.fact g).toString
  firstLine := fun g => (m.lines g).1
  check := fun facts g c => if proves facts (m.src.fact g) && c.goal == (m.src.fact g).toString then some 0 else none
  search := fun facts g => if proves facts (m.src.fact g) then .proof else .nothing
  write := fun _ g => some ⟨(m.src.fact g).toString, []⟩
  cancelled := fun _ => false

def order (w : Worklist) : List String := w.indexes.keys

def load (t : Text) : Simp.Module Char :=
  ⟨source t, items (splitLines t).length, fun g => (g, g), fun _ => true, fun _ => true⟩

def world : World Char where
  load := fun t => some (load t)
  prove := fun m facts g => proves facts (m.src.fact g)
  tools := tools
  order := order

/-- All claims stand on the only line of the file. -/
def oneLine : World Char where
  load := fun t => some ⟨source t, items (if (splitLines t).length = 0 then 0 else 2), fun _ => (0, 0), fun g => g == 0, fun f => f == 0⟩
  prove := fun m facts g => proves facts (m.src.fact g)
  tools := tools
  order := order

def text (s : String) : Text := s.toList.flatMap fun c => [c, '\n']

theorem claims_ids (n : Nat) : ∀ k, k ≤ n → Vrf.goalIds (claims n k) = (List.range k).map (n - k + ·)
  | 0, _ => rfl
  | k + 1, h => by
    rw [claims, Vrf.goalIds, claims_ids n k (by omega), List.range_succ_eq_map, List.map_cons, List.map_map]
    refine congrArg₂ List.cons (by omega) (List.map_congr_left fun i _ => ?_)
    show n - k + i = n - (k + 1) + (i + 1)
    omega

theorem loaded (t : Text) (n : Nat) : Vrf.LoadedModule (source t) (items n) where
  loaded := by
    rintro m (⟨d, hd, _⟩ | ⟨g, _, d, hd, _⟩) <;> cases hd
  closed := by
    intro d m h
    cases h
  grows := by
    have key : ∀ k, Vrf.Grows (source t) [] (claims n k) := by
      intro k
      induction k with
      | zero => trivial
      | succ k ih => exact ⟨(fun d h => by cases h), ih⟩
    exact ⟨key n, trivial⟩
  distinct := by
    show (Vrf.goalIds (claims n n) ++ []).Nodup
    rw [claims_ids n n (Nat.le_refl _), List.append_nil, Nat.sub_self]
    simp only [Nat.zero_add, List.map_id']
    exact List.nodup_range

theorem world_loaded (t : Text) (m : Simp.Module Char) (h : world.load t = some m) : Vrf.LoadedModule m.src m.items := by
  cases h
  exact loaded _ _

theorem oneLine_loaded (t : Text) (m : Simp.Module Char) (h : oneLine.load t = some m) : Vrf.LoadedModule m.src m.items := by
  cases h
  exact loaded _ _

theorem order_perm (w : Worklist) : (order w).Perm w.indexes.keys := .refl _

theorem any_some {α : Type} {o : Option α} {p : α → Bool} (h : o.any p = true) : ∃ a, o = some a ∧ p a = true := by
  cases o with
  | none => cases h
  | some a => exact ⟨a, rfl, h⟩

end SimplifyDemo

variable {Fact : Type} {W : World Fact}

/-! ### What is removed -/

/-- However the command ends, the text it works on is the original one without the lines of claims that are not
needed: the removals are made one after the other, and each one takes away the lines of an anonymous claim inside
a block that is not the last one of its block, such that every goal that sees its fact is proved without it, and
such that what is left loads and is verified. -/
theorem C56_only_redundant_lines (hW : ∀ t m, W.load t = some m → Vrf.LoadedModule m.src m.items)
    (hord : ∀ w, (W.order w).Perm w.indexes.keys) {dry : Bool} {d : Disk} {n : Nat} {st : State} {e : Option Failure}
    (h : run W dry n { disk := d } = some (st, e)) :
    Chain W d.source st.removed st.text ∧ (st.removed = [] → st.text = d.source) ∧
      (st.removed ≠ [] → GoodText W st.text) := by
  have hc := (run_holds hW hord h).chain
  refine ⟨hc, fun h0 => ?_, fun h0 => ?_⟩
  · rw [h0] at hc
    generalize st.text = t at hc
    generalize d.source = t0 at hc
    generalize hr : ([] : List Removal) = rs at hc
    cases hc with
    | nil => rfl
    | snoc _ _ => simp at hr
  · generalize st.removed = rs at hc h0
    generalize st.text = t at hc
    generalize d.source = t0 at hc
    cases hc with
    | nil => exact absurd rfl h0
    | snoc _ hr => exact hr.good

example : (run SimplifyDemo.world false 10 { disk := ⟨SimplifyDemo.text "cabdz", []⟩ }).map (fun r =>
      (r.1.text, r.1.removed, r.2)) =
    some (SimplifyDemo.text "az", [⟨0, 0, 4⟩, ⟨1, 1, 2⟩, ⟨1, 1, 1⟩], none) := by decide +kernel

/-- The lines of the result are lines of the original, in their order, and the lines that are missing are those of
the removed claims. -/
theorem C56_lines_kept (hW : ∀ t m, W.load t = some m → Vrf.LoadedModule m.src m.items)
    (hord : ∀ w, (W.order w).Perm w.indexes.keys) {dry : Bool} {d : Disk} {n : Nat} {st : State} {e : Option Failure}
    (h : run W dry n { disk := d } = some (st, e)) :
    (splitLines st.text).Sublist (splitLines d.source) ∧
      (splitLines d.source).length = (splitLines st.text).length + (st.removed.map fun r => r.last + 1 - r.first).sum ∧
      (splitLines st.text).flatten = st.text ∧ (splitLines d.source).flatten = d.source :=
  have hc := chain_sublist (run_holds hW hord h).chain
  ⟨hc.1, hc.2, splitLines_flatten _, splitLines_flatten _⟩

example : splitLines (SimplifyDemo.text "ab" ++ ['c']) = [['a', '\n'], ['b', '\n'], ['c']] := by decide +kernel

/-! ### It ends -/

/-- The command ends on every file, if a claim does not end on a line before its first one. -/
theorem C56_terminates (hl : ∀ t m, W.load t = some m → ∀ g, (m.lines g).1 ≤ (m.lines g).2) (dry : Bool) (d : Disk) :
    ∃ n r, ∀ k, n ≤ k → run W dry k { disk := d } = some r := by
  obtain ⟨n, hn⟩ := run_ends hl dry _ _ { disk := d } (Nat.le_refl _) (Nat.le_refl _)
  obtain ⟨r, hr⟩ := Option.isSome_iff_exists.mp hn
  exact ⟨n, r, fun k hk => run_more hr k hk⟩

example : ∀ t m, SimplifyDemo.world.load t = some m → ∀ g, (m.lines g).1 ≤ (m.lines g).2 := by
  intro t m h g
  cases h
  exact Nat.le_refl _

/-! ### The disk -/

/-- At every point of a run, that is, after any number of its writes, the file has its original text or one that
loads and is verified.  At the end it has the text that was worked on. -/
theorem C56_crash (hW : ∀ t m, W.load t = some m → Vrf.LoadedModule m.src m.items)
    (hord : ∀ w, (W.order w).Perm w.indexes.keys) {d : Disk} {n : Nat} {st : State} {e : Option Failure}
    (h : run W false n { disk := d } = some (st, e)) :
    (∀ k, ((st.writes.take k).foldl Disk.after d).source = d.source ∨
      GoodText W ((st.writes.take k).foldl Disk.after d).source) ∧
    st.writes.foldl Disk.after d = st.disk ∧ st.disk.source = st.text := by
  have hh := run_holds hW hord h
  obtain ⟨h1, h2⟩ := hh.real rfl
  refine ⟨hh.crash, h2.symm, ?_⟩
  unfold State.text
  rw [h1]
  rfl

example : (run SimplifyDemo.world false 10 { disk := ⟨SimplifyDemo.text "cabz", []⟩ }).map (fun r =>
      (List.range 5).map fun k => ((r.1.writes.take k).foldl Disk.after ⟨SimplifyDemo.text "cabz", []⟩).source) =
    some [SimplifyDemo.text "cabz", SimplifyDemo.text "cabz", SimplifyDemo.text "abz", SimplifyDemo.text "abz",
      SimplifyDemo.text "az"] := by decide +kernel

/-- A dry run writes nothing. -/
theorem C56_dry_run_writes_nothing (hW : ∀ t m, W.load t = some m → Vrf.LoadedModule m.src m.items)
    (hord : ∀ w, (W.order w).Perm w.indexes.keys) {d : Disk} {n : Nat} {st : State} {e : Option Failure}
    (h : run W true n { disk := d } = some (st, e)) : st.writes = [] ∧ st.disk = d :=
  (run_holds hW hord h).dryRun rfl

/-- A dry run reports what a run that writes would remove, if the success of verifying an edited text does not
depend on the certificates that are stored. -/
theorem C56_dry_run_same (hs : ∀ m c c', (verifyEdited W m c).isSome = (verifyEdited W m c').isSome) {d : Disk} {n : Nat}
    {st : State} {e : Option Failure} (h : run W true n { disk := d } = some (st, e)) :
    ∃ st', run W false n { disk := d } = some (st', e) ∧ st'.removed = st.removed ∧ st'.considered = st.considered ∧
      st'.disk.source = st.text := by
  have hw : ∀ {st'}, run W false n { disk := d } = some (st', e) → st'.working = none := by
    intro st' h'
    refine run_keeps (P := fun s => s.working = none) ?_ n rfl h'
    intro a b ha hb
    have hr := round W false a
    rw [hb] at hr
    cases hr with
    | keep => exact ha
    | remove => rfl
  rcases alike_run hs true false n (a := { disk := d }) (b := { disk := d }) ⟨rfl, rfl, rfl, rfl⟩ with
    ⟨h1, _⟩ | ⟨a, b, e', h1, h2, h3⟩
  · rw [h] at h1; cases h1
  · rw [h] at h1
    cases h1
    refine ⟨b, h2, h3.removed.symm, h3.considered.symm, ?_⟩
    rw [h3.text, State.text, hw h2]
    rfl

example : (run SimplifyDemo.world true 10 { disk := ⟨SimplifyDemo.text "cabz", []⟩ }).map (fun r =>
      (r.1.text, r.1.removed, r.1.considered)) =
    some (SimplifyDemo.text "az", [⟨0, 0, 3⟩, ⟨1, 1, 1⟩], 3) ∧
    (run SimplifyDemo.world true 10 { disk := ⟨SimplifyDemo.text "cabz", []⟩ }).map (fun r =>
      (r.1.disk.source, r.1.writes.length)) = some (SimplifyDemo.text "cabz", 0) := by decide +kernel

/-- When something was removed, the file that is left passes a check with the certificates that are left, if the
checker accepts the certificates it has trimmed and those of the proofs that were found. -/
theorem C56_check_passes (hW : ∀ t m, W.load t = some m → Vrf.LoadedModule m.src m.items)
    (hord : ∀ w, (W.order w).Perm w.indexes.keys)
    (htrim : ∀ m facts g c n, (W.tools m).check facts g c = some n →
      (W.tools m).check facts g { c with proof := c.proof.take n } = some n)
    (hwrite : ∀ m facts g c, (W.tools m).search facts g = .proof → (W.tools m).write facts g = some c →
      c.goal = (W.tools m).name g ∧ ((W.tools m).check facts g c).isSome)
    {d : Disk} {n : Nat} {st : State} {e : Option Failure}
    (h : run W false n { disk := d } = some (st, e)) (hne : st.removed ≠ []) (order : Worklist → List String) :
    ∃ m v, W.load st.disk.source = some m ∧
      Vrf.verifyModule (W.verifying m).checking .good st.disk.certs order m.items = .ok v ∧ v.status = .good ∧
      v.done = (Vrf.goalIds m.items).length := by
  obtain ⟨m, stored, v, k, h1, h2, h3, h4⟩ := (run_holds hW hord h).certs rfl hne
  obtain ⟨v', g1, g2, g3, g4, _⟩ := C55_check_after_verify (S := W.verifying m) (hW _ _ h1) rfl rfl (htrim m) (hwrite m)
    h2 h3 h4 _ (.inl rfl) order
  refine ⟨m, v', h1, g1, g3, ?_⟩
  obtain ⟨_, c2⟩ := C55_good (S := W.verifying m) (hW _ _ h1) rfl rfl hord h2
  obtain ⟨rs, r1, _, _, r3, _⟩ := c2 h3
  rw [g4, r3, ← r1, List.length_map]

example : (∀ m facts g c n, (SimplifyDemo.world.tools m).check facts g c = some n →
      (SimplifyDemo.world.tools m).check facts g { c with proof := c.proof.take n } = some n) ∧
    (∀ m facts g c, (SimplifyDemo.world.tools m).search facts g = .proof → (SimplifyDemo.world.tools m).write facts g = some c →
      c.goal = (SimplifyDemo.world.tools m).name g ∧ ((SimplifyDemo.world.tools m).check facts g c).isSome) := by
  refine ⟨fun m facts g c n h => h, fun m facts g c h1 h2 => ?_⟩
  cases h2
  refine ⟨rfl, ?_⟩
  simp only [SimplifyDemo.world, SimplifyDemo.tools] at h1 ⊢
  split at h1
  · rename_i hp
    simp [hp]
  · cases h1

/-! ### What is kept -/

/-- When a run ends without a failure, every claim after the last removal that could be removed by its place is
needed: some goal that sees its fact is not proved without it.  When nothing was removed, these are all claims.
The claims must be on different lines. -/
theorem C56_rest_needed (hW : ∀ t m, W.load t = some m → Vrf.LoadedModule m.src m.items)
    (hown : ∀ t m, W.load t = some m → (∀ g, (m.lines g).1 ≤ (m.lines g).2) ∧
      ∀ goal fact goal' fact', Removable m goal fact → Removable m goal' fact' → goal ≠ goal' →
        (m.lines goal).2 < (m.lines goal').1 ∨ (m.lines goal').2 < (m.lines goal).1)
    {dry : Bool} {d : Disk} {n : Nat} {st : State} (h : run W dry n { disk := d } = some (st, none)) :
    ∃ m, W.load st.text = some m ∧ ∀ goal fact, Removable m goal fact →
      (∀ r, st.removed.getLast? = some r → r.first ≤ (m.lines goal).1) → NeededBy W m fact := by
  have ht : Tried W st := run_keeps (P := Tried W)
    (tried_step hW (fun t m hm _ _ _ h1 h2 => removable_unique (hW t m hm) h1 h2) hown) n
    (fun _ _ _ _ _ _ hc => absurd hc (Nat.not_lt_zero _)) h
  have hd := run_done n h
  have hq := round W dry st
  rw [hd] at hq
  cases hq with
  | @done m h1 h2 =>
    refine ⟨m, h1, fun goal fact hr hp => ht m h1 goal fact hr ?_ (firstCandidate_none h2 goal fact hr)⟩
    unfold lastLine
    cases hg : st.removed.getLast? with
    | none => exact Nat.zero_le _
    | some r => exact hp r hg

example : (run SimplifyDemo.world false 10 { disk := ⟨SimplifyDemo.text "axby", []⟩ }).map (fun r =>
      (r.1.text, r.1.considered, r.2)) = some (SimplifyDemo.text "axy", 3, none) ∧
    (run SimplifyDemo.world false 10 { disk := ⟨SimplifyDemo.text "ab", []⟩ }).map (fun r =>
      (r.1.text, r.1.considered, r.2)) = some (SimplifyDemo.text "ab", 1, none) := by decide +kernel

example : Removable (SimplifyDemo.load (SimplifyDemo.text "ab")) 0 0 ∧
    (∀ t m, SimplifyDemo.world.load t = some m → (∀ g, (m.lines g).1 ≤ (m.lines g).2) ∧
      ∀ goal fact goal' fact', Removable m goal fact → Removable m goal' fact' → goal ≠ goal' →
        (m.lines goal).2 < (m.lines goal').1 ∨ (m.lines goal').2 < (m.lines goal).1) := by
  refine ⟨⟨⟨_, .here (List.mem_singleton_self _), by decide +kernel⟩, ⟨rfl, rfl⟩, ?_⟩, fun t m h => ?_⟩
  rotate_left
  · cases h
    refine ⟨fun g => Nat.le_refl _, fun goal _ goal' _ _ _ hne => ?_⟩
    show goal < goal' ∨ goal' < goal
    omega
  rintro ⟨is, hb, g, hg⟩
  have key : is = SimplifyDemo.claims 2 2 := by
    cases hb with
    | here h =>
      have := List.mem_singleton.mp h
      cases this
      rfl
    | inside h h' =>
      have := List.mem_singleton.mp h
      cases this
      exfalso
      generalize he : SimplifyDemo.claims _ _ = js at h'
      have he : SimplifyDemo.claims 2 2 = js := he
      cases h' with
      | here h => rw [← he] at h; simp [SimplifyDemo.claims] at h
      | inside h _ => rw [← he] at h; simp [SimplifyDemo.claims] at h
  rw [key] at hg
  have hg : some (1, 1) = some (g, 0) := hg
  cases hg

/-- One run may not be enough: a claim that is needed only for a later claim is kept, and it is not looked at again
when the later claim is removed.  A second run removes it. -/
theorem C56_disagreement_not_settled : ∃ (W : World Char) (d : Disk) (st st' : State) (n : Nat),
    (∀ t m, W.load t = some m → Vrf.LoadedModule m.src m.items) ∧ (∀ w, (W.order w).Perm w.indexes.keys) ∧
    (∀ t m, W.load t = some m → ∀ g, m.lines g = (g, g)) ∧
    run W false n { disk := d } = some (st, none) ∧ run W false n { disk := st.disk } = some (st', none) ∧
    st.removed.length = 1 ∧ st'.removed.length = 1 := by
  have h : (run SimplifyDemo.world false 10 { disk := ⟨SimplifyDemo.text "abz", []⟩ }).any (fun r =>
      r.1.removed.length == 1 && r.2 == none && (run SimplifyDemo.world false 10 { disk := r.1.disk }).any fun r' =>
        r'.1.removed.length == 1 && r'.2 == none) = true := by decide +kernel
  obtain ⟨⟨st, e⟩, h1, h2⟩ := SimplifyDemo.any_some h
  simp only [Bool.and_eq_true, beq_iff_eq] at h2
  obtain ⟨⟨h2, h3⟩, h4⟩ := h2
  obtain ⟨⟨st', e'⟩, h5, h6⟩ := SimplifyDemo.any_some h4
  simp only [Bool.and_eq_true, beq_iff_eq] at h6
  refine ⟨SimplifyDemo.world, ⟨SimplifyDemo.text "abz", []⟩, st, st', 10, SimplifyDemo.world_loaded, SimplifyDemo.order_perm, ?_, ?_, ?_, h2, h6.1⟩
  · intro t m hm g
    cases hm
    rfl
  · rw [h1, ← h3]
  · rw [h5, ← h6.2]

/-- What stands on the lines of a removed claim is removed with it: if a theorem and a claim of its proof are on one
line, the theorem is gone, with all its goals, and the command reports success. -/
theorem C56_disagreement_shared_line : ∃ (W : World Char) (d : Disk) (st : State) (n : Nat) (m m' : Simp.Module Char),
    (∀ t m, W.load t = some m → Vrf.LoadedModule m.src m.items) ∧ (∀ w, (W.order w).Perm w.indexes.keys) ∧
    run W false n { disk := d } = some (st, none) ∧ st.removed = [⟨0, 0, 1⟩] ∧
    W.load d.source = some m ∧ W.load st.disk.source = some m' ∧
    Vrf.goalIds m.items = [0, 1] ∧ Vrf.goalIds m'.items = [] := by
  have h : (run SimplifyDemo.oneLine false 10 { disk := ⟨SimplifyDemo.text "z", []⟩ }).any (fun r =>
      r.1.removed == [⟨0, 0, 1⟩] && r.2 == none && r.1.disk.source == []) = true := by decide +kernel
  obtain ⟨⟨st, e⟩, h1, h2⟩ := SimplifyDemo.any_some h
  simp only [Bool.and_eq_true, beq_iff_eq] at h2
  obtain ⟨⟨h2, h3⟩, h4⟩ := h2
  refine ⟨SimplifyDemo.oneLine, ⟨SimplifyDemo.text "z", []⟩, st, 10, _, _, SimplifyDemo.oneLine_loaded, SimplifyDemo.order_perm, ?_, h2, rfl, rfl, ?_, ?_⟩
  · rw [h1, ← h3]
  · decide +kernel
  · rw [h4]
    decide +kernel

end Acorn
