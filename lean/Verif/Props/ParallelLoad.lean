import Verif.Lemmas.ParallelEnd
import Verif.Props.ProjectLoad
/-
C52: loading modules in parallel gives what loading them one by one gives.

The parallel loader hands jobs to worker threads, whose results arrive in any order.  Whatever that
order, the number of workers and the preference among jobs that are ready, every module ends up as the
files define it; nothing is lost, nothing is done twice, and the loader gives up only because of a
circular import.
-/
namespace Acorn

open Proj

section
variable {E I σ : Type}

/-- Starting the parallel loader never panics.  It fails only because a module to be loaded has no
file, or because the imports of one of them go round in a circle, and then says which of the two it
is. -/
theorem C52_start_partial (El : Elaborator E I σ) (P₀ : Project E I) (h₀ : P₀.table = .empty)
    (history : List (Request I)) (P : Project E I)
    (hP : P = history.foldl (Project.handle El) P₀) (hl : Local El P.files)
    (hpre : ¬ Circular P.files preludeMod) (prefer : Mod → Mod → Bool) (targets order : List Mod)
    (workers : Nat) (hn : (order.filter (· ∈ targets)).Nodup)
    (hc : Covered P.files (P.table.register (P.disk.map (·.1))) (order.filter (· ∈ targets))) :
    (∃ L₀, P.startParallel prefer targets order workers = .started L₀) ∨
    (P.startParallel prefer targets order workers = .failed .notFound ∧
      ∃ m ∈ order, m ∈ targets ∧ P.files.lookup m = none) ∨
    (P.startParallel prefer targets order workers = .failed .circular ∧
      ∃ m ∈ order, m ∈ targets ∧ Circular P.files m) := by
  have hs : Settled El P := hP ▸ settled_run history (settled_empty El P₀ h₀)
  obtain ⟨V, hV⟩ := result_exists El P.files hl
  obtain ⟨hi, hidle⟩ := hs V hV hl hpre
  have ready : Ready P.files V (P.table.register (P.disk.map (·.1))) :=
    ⟨hi.register _, fun x h => hidle x (((register_grows _ _).loading x).1 h)⟩
  rcases new_spec hV hl hpre prefer ready targets order hn hc workers with
    ⟨m, h, k, e⟩ | ⟨m, h, k, e⟩ | ⟨L', e, _⟩
  · obtain ⟨h1, h2⟩ := List.mem_filter.1 h
    exact .inr (.inl ⟨e, m, h1, by simpa using h2, k⟩)
  · obtain ⟨h1, h2⟩ := List.mem_filter.1 h
    exact .inr (.inr ⟨e, m, h1, by simpa using h2, k⟩)
  · exact .inl ⟨L', e⟩

/-- At every moment of every run, a module that is loaded has the export that the files give it, and
one with an error has none.  A circular import is reported only where there is one. -/
theorem C52_every_schedule_partial (El : Elaborator E I σ) (P₀ : Project E I)
    (h₀ : P₀.table = .empty) (history : List (Request I)) (P : Project E I)
    (hP : P = history.foldl (Project.handle El) P₀) (hl : Local El P.files)
    (hpre : ¬ Circular P.files preludeMod) (V : Mod → Option E) (hV : Result El P.files V)
    (prefer : Mod → Mod → Bool) (targets order : List Mod) (workers : Nat)
    (hn : (order.filter (· ∈ targets)).Nodup)
    (hc : Covered P.files (P.table.register (P.disk.map (·.1))) (order.filter (· ∈ targets)))
    (L₀ L : Loader E I) (hnew : P.startParallel prefer targets order workers = .started L₀)
    (hr : Reaches El prefer L₀ L) (m : Mod) :
    (∀ e, L.table.states m = some (.ok e) → V m = some e) ∧
    (∀ c, L.table.states m = some (.error c) → V m = none) ∧
    (L.table.states m = some (.error true) → Circular P.files m) := by
  have hs : Settled El P := hP ▸ settled_run history (settled_empty El P₀ h₀)
  obtain ⟨_, g⟩ := (reached_start hs hl hpre hV hn hc hnew hr).good
  exact ⟨fun e h => g.inv.ok m e h, fun c h => g.inv.err m c h, fun h => g.inv.cyc m h⟩

/-- As long as the loader waits, some job is being worked on, and never more jobs than there are
workers; whichever of them ends next, its result is taken without a panic, exactly one more job is
counted as done, and what was loaded before stays as it was.  The count never exceeds the number of
jobs, so the loader comes to an end.  A worker is idle only when no job is ready. -/
theorem C52_progress_partial (El : Elaborator E I σ) (P₀ : Project E I)
    (h₀ : P₀.table = .empty) (history : List (Request I)) (P : Project E I)
    (hP : P = history.foldl (Project.handle El) P₀) (hl : Local El P.files)
    (hpre : ¬ Circular P.files preludeMod) (prefer : Mod → Mod → Bool) (targets order : List Mod)
    (workers : Nat) (hn : (order.filter (· ∈ targets)).Nodup)
    (hc : Covered P.files (P.table.register (P.disk.map (·.1))) (order.filter (· ∈ targets)))
    (L₀ L : Loader E I) (hnew : P.startParallel prefer targets order workers = .started L₀)
    (hr : Reaches El prefer L₀ L) :
    (L.next = .waits → L.active ≠ []) ∧ L.active.length ≤ L.workers ∧
    (L.active.length < L.workers → L.ready = []) ∧ L.completed ≤ L.jobs.length ∧
    ∀ k, k < L.active.length → ∃ L', L.receive El prefer k = some L' ∧ L'.jobs = L.jobs ∧
      L'.completed = L.completed + 1 ∧
      ∀ x, Finished L.table x → L'.table.states x = L.table.states x := by
  have hs : Settled El P := hP ▸ settled_run history (settled_empty El P₀ h₀)
  obtain ⟨V, hV⟩ := result_exists El P.files hl
  have r := reached_start hs hl hpre hV hn hc hnew hr
  obtain ⟨_, g⟩ := r.good
  refine ⟨g.waiting r.busy, g.cap, fun h => ?_, g.count_le, fun k hk => ?_⟩
  · rcases r.busy with b | b
    · omega
    · exact b
  · obtain ⟨L', a, _, b, c, d⟩ := r.step hV hl hpre prefer hk
    exact ⟨L', a, b, c, d⟩

/-- When the loader is through, every module that it was to load is loaded, well or badly, and none is
left half loaded. -/
theorem C52_finished_partial (El : Elaborator E I σ) (P₀ : Project E I)
    (h₀ : P₀.table = .empty) (history : List (Request I)) (P : Project E I)
    (hP : P = history.foldl (Project.handle El) P₀) (hl : Local El P.files)
    (hpre : ¬ Circular P.files preludeMod) (prefer : Mod → Mod → Bool) (targets order : List Mod)
    (workers : Nat) (hn : (order.filter (· ∈ targets)).Nodup)
    (hc : Covered P.files (P.table.register (P.disk.map (·.1))) (order.filter (· ∈ targets)))
    (L₀ L : Loader E I) (hnew : P.startParallel prefer targets order workers = .started L₀)
    (hr : Reaches El prefer L₀ L) (hf : L.next = .finished) :
    (∀ m ∈ order, m ∈ targets → Finished L.table m) ∧ ∀ x, L.table.states x ≠ some .loading := by
  have hs : Settled El P := hP ▸ settled_run history (settled_empty El P₀ h₀)
  obtain ⟨V, hV⟩ := result_exists El P.files hl
  have r := reached_start hs hl hpre hV hn hc hnew hr
  obtain ⟨_, g⟩ := r.good
  constructor
  · intro m h1 h2
    rcases r.known m (List.mem_filter.2 ⟨h1, by simpa using h2⟩) with h | ⟨j, hj, rfl⟩
    · exact h
    · exact g.all_done hf j hj
  · intro x hx
    obtain ⟨j, hj, rfl⟩ := g.loading x hx
    rcases g.all_done hf j hj with ⟨_, h⟩ | ⟨_, h⟩ <;> rw [hx] at h <;> cases h

/-- The loader gives up only if the imports of a module that it was to load go round in a circle; and
all modules that it leaves unloaded are such modules. -/
theorem C52_gives_up_partial (El : Elaborator E I σ) (P₀ : Project E I)
    (h₀ : P₀.table = .empty) (history : List (Request I)) (P : Project E I)
    (hP : P = history.foldl (Project.handle El) P₀) (hl : Local El P.files)
    (hpre : ¬ Circular P.files preludeMod) (prefer : Mod → Mod → Bool) (targets order : List Mod)
    (workers : Nat) (hn : (order.filter (· ∈ targets)).Nodup)
    (hc : Covered P.files (P.table.register (P.disk.map (·.1))) (order.filter (· ∈ targets)))
    (L₀ L : Loader E I) (hnew : P.startParallel prefer targets order workers = .started L₀)
    (hr : Reaches El prefer L₀ L) (hf : L.next = .circular) :
    (∃ m ∈ order, m ∈ targets ∧ Circular P.files m ∧ L.table.states m = some .loading) ∧
    ∀ m ∈ order, m ∈ targets → ¬ Finished L.table m → Circular P.files m := by
  have hs : Settled El P := hP ▸ settled_run history (settled_empty El P₀ h₀)
  obtain ⟨V, hV⟩ := result_exists El P.files hl
  have r := reached_start hs hl hpre hV hn hc hnew hr
  obtain ⟨done, g⟩ := r.good
  have hst : L.completed < L.jobs.length ∧ L.active = [] ∧ L.ready = [] := by
    unfold Loader.next at hf
    split at hf
    · cases hf
    · rename_i h1
      split at hf
      · rename_i h2
        exact ⟨Nat.lt_of_not_le h1, List.isEmpty_iff.1 h2.1, List.isEmpty_iff.1 h2.2⟩
      · cases hf
  obtain ⟨hlt, ha, hre⟩ := hst
  constructor
  · have : ∃ i, i < L.jobs.length ∧ i ∉ done := by
      apply Classical.byContradiction
      intro hno
      have hle := nodup_range_lt (l := List.range L.jobs.length) (n := done.length)
      have : (List.range L.jobs.length).length ≤ done.length :=
        List.Nodup.length_le_of_subset List.nodup_range (fun i hi => by
          apply Classical.byContradiction
          intro h
          exact hno ⟨i, List.mem_range.1 hi, h⟩)
      rw [List.length_range] at this
      rw [g.count] at hlt
      omega
    obtain ⟨i, hi, hd⟩ := this
    have hj := List.getElem?_eq_getElem hi
    have hm := List.mem_filter.1 (r.sub _ (List.mem_of_getElem? hj))
    exact ⟨_, hm.1, by simpa using hm.2, g.stuck_circular hre ha hj hd, g.under i hd _ hj⟩
  · intro m h1 h2 hnf
    rcases r.known m (List.mem_filter.2 ⟨h1, by simpa using h2⟩) with h | ⟨j, hj, rfl⟩
    · exact absurd h hnf
    · obtain ⟨i, hi⟩ := List.getElem?_of_mem hj
      exact g.stuck_circular hre ha hi (fun hd => hnf (g.over i hd j hi))

/-- A module that the parallel loader has loaded has the export that loading it alone gives. -/
theorem C52_same_as_serial_partial (El : Elaborator E I σ) (P₀ : Project E I)
    (h₀ : P₀.table = .empty) (history : List (Request I)) (P : Project E I)
    (hP : P = history.foldl (Project.handle El) P₀) (hl : Local El P.files)
    (hpre : ¬ Circular P.files preludeMod) (prefer : Mod → Mod → Bool) (targets order : List Mod)
    (workers : Nat) (hn : (order.filter (· ∈ targets)).Nodup)
    (hc : Covered P.files (P.table.register (P.disk.map (·.1))) (order.filter (· ∈ targets)))
    (L₀ L : Loader E I) (hnew : P.startParallel prefer targets order workers = .started L₀)
    (hr : Reaches El prefer L₀ L) (m : Mod) (hm : Finished L.table m) :
    L.table.bindings m = (P.load El m).1.table.bindings m := by
  have hs : Settled El P := hP ▸ settled_run history (settled_empty El P₀ h₀)
  obtain ⟨V, hV⟩ := result_exists El P.files hl
  obtain ⟨_, g⟩ := (reached_start hs hl hpre hV hn hc hnew hr).good
  obtain ⟨_, o⟩ := project_load hs hV hl hpre m
  have hfin : Finished (P.load El m).1.table m := by
    rcases o.known with h | h | h
    · exact h
    · exact absurd ((o.grows.loading m).1 h) ((hs V hV hl hpre).2 m)
    · exact absurd h (g.inv.file m hm)
  rw [bindings_eq g.inv hm, bindings_eq o.inv hfin]

/-- After the loader is through, the project may go on as before: whatever the requests that follow,
every module in its table is as the current files say. -/
theorem C52_then_history_partial (El : Elaborator E I σ) (P₀ : Project E I)
    (h₀ : P₀.table = .empty) (history : List (Request I)) (P : Project E I)
    (hP : P = history.foldl (Project.handle El) P₀) (hl : Local El P.files)
    (hpre : ¬ Circular P.files preludeMod) (prefer : Mod → Mod → Bool) (targets order : List Mod)
    (workers : Nat) (hn : (order.filter (· ∈ targets)).Nodup)
    (hc : Covered P.files (P.table.register (P.disk.map (·.1))) (order.filter (· ∈ targets)))
    (L₀ L : Loader E I) (hnew : P.startParallel prefer targets order workers = .started L₀)
    (hr : Reaches El prefer L₀ L) (hf : L.next = .finished) (more : List (Request I))
    (Q : Project E I) (hQ : Q = more.foldl (Project.handle El) { P with table := L.table })
    (W : Mod → Option E) (hl' : Local El Q.files) (hpre' : ¬ Circular Q.files preludeMod)
    (hW : Result El Q.files W) (m : Mod) :
    (∀ e, Q.table.states m = some (.ok e) → W m = some e) ∧
    (∀ c, Q.table.states m = some (.error c) → W m = none) ∧
    Q.table.states m ≠ some .loading := by
  have hs : Settled El P := hP ▸ settled_run history (settled_empty El P₀ h₀)
  have idle := (C52_finished_partial El P₀ h₀ history P hP hl hpre prefer targets order workers hn hc
    L₀ L hnew hr hf).2
  have hset : Settled El { P with table := L.table } := by
    intro V hV _ _
    obtain ⟨_, g⟩ := (reached_start hs hl hpre hV hn hc hnew hr).good
    exact ⟨g.inv, idle⟩
  obtain ⟨hi, hidle⟩ := (hQ ▸ settled_run more hset : Settled El Q) W hW hl' hpre'
  exact ⟨fun e h => hi.ok m e h, fun c h => hi.err m c h, hidle m⟩

end

namespace LoadDemo

/-- The result of the `k`-th active job arrives, for each `k` in the list. -/
def arrivals (prefer : Mod → Mod → Bool) : List Nat → Started Nat Nat → Started Nat Nat
  | [], s => s
  | k :: ks, .started L =>
    match L.receive El prefer k with
    | some L' => arrivals prefer ks (.started L')
    | none => .panicked
  | _, s => s

def bindingsOf (s : Started Nat Nat) (m : Mod) : Option Nat :=
  match s with
  | .started L => L.table.bindings m
  | _ => none

def nextOf : Started Nat Nat → Option Next
  | .started L => some L.next
  | _ => none

def all : List Mod := ["c", "b", "a", "prelude"]

/-- The modules of the demo contain all they need. -/
theorem covered : Covered start.files (start.table.register (start.disk.map (·.1)))
    (all.filter (· ∈ all)) := by
  have e : all.filter (· ∈ all) = all := by decide +kernel
  rw [e]
  intro m hm d ⟨s, h, h'⟩
  right; right
  simp only [all, List.mem_cons, List.not_mem_nil, or_false] at hm
  have key : ∀ imports libs i, start.files.lookup m = some (file imports libs i) →
      (d ∈ imports ∨ d ∈ libs) ∨ d = preludeMod := by
    intro imports libs i e
    rw [h] at e
    simp only [file, Option.some.injEq, File.parsed.injEq] at e
    subst e
    simp only [List.mem_singleton, exists_eq_left] at h'
    exact h'.imp id And.left
  have hd : d = "a" ∨ d = "b" ∨ d = "prelude" := by
    rcases hm with rfl | rfl | rfl | rfl
    · have := key ["b"] ["a"] 100 rfl
      simp only [List.mem_singleton] at this
      rcases this with (h | h) | h
      · exact .inr (.inl h)
      · exact .inl h
      · exact .inr (.inr h)
    · have := key ["a"] [] 10 rfl
      simp only [List.mem_singleton, List.not_mem_nil, or_false] at this
      rcases this with h | h
      · exact .inl h
      · exact .inr (.inr h)
    · have := key [] [] 1 rfl
      simp only [List.not_mem_nil, or_false, false_or] at this
      exact .inr (.inr this)
    · have := key [] [] 5 rfl
      simp only [List.not_mem_nil, or_false, false_or] at this
      exact .inr (.inr this)
  rcases hd with rfl | rfl | rfl
  · exact ⟨by decide +kernel, fun h => by cases h⟩
  · exact ⟨by decide +kernel, fun h => by cases h⟩
  · exact ⟨by decide +kernel, fun h => by cases h⟩

end LoadDemo

/-- The hypotheses hold of the demo, with two workers, and the loader starts. -/
example : (LoadDemo.all.filter (· ∈ LoadDemo.all)).Nodup ∧
    Covered LoadDemo.start.files (LoadDemo.start.table.register (LoadDemo.start.disk.map (·.1)))
      (LoadDemo.all.filter (· ∈ LoadDemo.all)) ∧
    ∃ L₀, LoadDemo.start.startParallel (fun _ _ => true) LoadDemo.all LoadDemo.all 2 = .started L₀ :=
  ⟨by decide +kernel, LoadDemo.covered, _, rfl⟩

example : LoadDemo.bindingsOf (LoadDemo.arrivals (fun _ _ => true) [0, 0, 0, 0]
    (LoadDemo.start.startParallel (fun _ _ => true) LoadDemo.all LoadDemo.all 2)) "c" = some 133 := by
  decide +kernel

example : LoadDemo.nextOf (LoadDemo.arrivals (fun _ _ => true) [0, 0, 0, 0]
    (LoadDemo.start.startParallel (fun _ _ => true) LoadDemo.all LoadDemo.all 2)) = some .finished := by
  decide +kernel

/-- A circle among the modules to be loaded: the loader loads what it can and gives up. -/
example : LoadDemo.nextOf (LoadDemo.arrivals (fun _ _ => true) [0, 0]
    (LoadDemo.start.startParallel (fun _ _ => true) ["prelude", "a", "x", "y", "z"]
      ["prelude", "a", "x", "y", "z"] 2)) = some .circular := by
  decide +kernel

namespace LoadDemo

/-- A new file `new` that has not been saved yet, and a file that imports it. -/
def unsaved : Project Nat Nat :=
  (Project.handle El ⟨[("prelude", file [] [] 5), ("user", file ["new"] [] 10)], [], [], .empty⟩
    (.updateIde "new" (file [] [] 1) 1))

def rank (m : Mod) : Nat := if m = "prelude" then 0 else if m = "user" then 2 else 1

theorem needs_rank {d m : Mod} (h : Needs unsaved.files d m) : rank d < rank m := by
  obtain ⟨s, h, h'⟩ := h
  have hm : m ∈ ["new", "prelude", "user"] := mem_of_lookup h
  have key : ∀ imports libs i, unsaved.files.lookup m = some (file imports libs i) →
      (d ∈ imports ∨ d ∈ libs) ∨ d = preludeMod ∧ m ≠ preludeMod := by
    intro imports libs i e
    rw [h] at e
    simp only [file, Option.some.injEq, File.parsed.injEq] at e
    subst e
    simpa only [List.mem_singleton, exists_eq_left] using h'
  simp only [List.mem_cons, List.not_mem_nil, or_false] at hm
  rcases hm with rfl | rfl | rfl
  · have := key [] [] 1 rfl
    simp only [List.not_mem_nil, or_false, false_or] at this
    rw [this.1]; decide
  · have := key [] [] 5 rfl
    simp only [List.not_mem_nil, or_false, false_or] at this
    exact absurd rfl this.2
  · have := key ["new"] [] 10 rfl
    simp only [List.mem_singleton, List.not_mem_nil, or_false] at this
    rcases this with rfl | ⟨rfl, _⟩ <;> decide

end LoadDemo

/-- A module that is open in the editor but not on disk is not registered.  If a module that imports it
is prepared first, the loader does not know that the one waits for the other: with one worker both are
loaded, with two workers the importing module fails with a circular import, though there is none. -/
theorem C52_disagreement_unsaved_import :
    ∃ (P : Project Nat Nat) (prefer : Mod → Mod → Bool) (order : List Mod),
      Local LoadDemo.El P.files ∧ order.Nodup ∧
      (∀ m ∈ order, P.files.lookup m ≠ none) ∧ (∀ m, ¬ Circular P.files m) ∧
      LoadDemo.bindingsOf (LoadDemo.arrivals prefer [0, 0, 0]
        (P.startParallel prefer order order 1)) "user" = some 21 ∧
      LoadDemo.bindingsOf (LoadDemo.arrivals prefer [0, 0, 0]
        (P.startParallel prefer order order 2)) "user" = none ∧
      (P.load LoadDemo.El "user").1.table.bindings "user" = some 21 := by
  refine ⟨LoadDemo.unsaved, fun a b => a = "prelude" ∨ (a = "new" ∧ b = "user"),
    ["user", "new", "prelude"], LoadDemo.local_El _, by decide, ?_, ?_, by decide +kernel,
    by decide +kernel, by decide +kernel⟩
  · intro m hm
    simp only [List.mem_cons, List.not_mem_nil, or_false] at hm
    rcases hm with rfl | rfl | rfl <;> (intro h; cases h)
  · intro m hc
    have below : ∀ x y, Below LoadDemo.unsaved.files x y → LoadDemo.rank x < LoadDemo.rank y := by
      intro x y h
      induction h with
      | direct n => exact LoadDemo.needs_rank n
      | through _ n ih => exact Nat.lt_trans ih (LoadDemo.needs_rank n)
    rcases hc with h | ⟨x, _, h⟩
    · exact absurd (below _ _ h) (Nat.lt_irrefl _)
    · exact absurd (below _ _ h) (Nat.lt_irrefl _)

end Acorn
