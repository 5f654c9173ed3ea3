import Verif.Lemmas.PackagedGoes

/-
C62: whoever asks for the packaged library gets all of it, whatever other processes do and wherever they are
killed.

`World.run` is any interleaving of the file system operations of any number of processes, in which any
operation may fail and any process may stop for ever.  `Spec.Whole` compares the files with the archive.

The theorems named `_partial` assume that no process fails to look at what is there, and that the cache is
empty at the start (`C62_in_turn_partial`: or holds something that does not pass for the library, with one
process after another).  Without these assumptions the claim is false: see the two disagreements at the end.
-/

namespace Acorn

open Acorn.Packaged

namespace DemoPackaged

/-- The files of a library. -/
def src : Node :=
  .dir (.cons "nat.ac" (.file "nat") (.cons "certs" (.dir (.cons "manifest.json" (.file "{}") .nil)) .nil))

/-- A small library. -/
def archive : Archive where
  tree := .dir (.cons "acornlib" (.dir (.cons "acorn.toml" (.file "") (.cons "src" src .nil))) .nil)
  hash := "h"
  render := fun _ h => h
  parse := fun s => some (1, s)

/-- `n` operations that succeed. -/
def go (i n : Nat) : List (Nat × Choice) := List.replicate n (i, .go)

/-- Two processes race; the first has unpacked everything, the second one is killed while it unpacks. -/
def race : List (Nat × Choice) :=
  go 0 3 ++ go 1 4 ++ [(1, .unpacked (.dir .nil))] ++ go 0 5 ++ go 2 8 ++ go 0 2 ++ go 2 5

/-- A directory that is not a library. -/
def rubbish : Node := .dir (.cons "acornlib" (.dir (.cons "nat.ac" (.file "old") .nil)) .nil)

/-- All but one file. -/
def allBut (q : List String) : List String → Bool := fun p => decide (p ≠ q)

/-- Where a file of the library is. -/
def natAc : List String := ["acornlib", "src", "nat.ac"]

end DemoPackaged

variable {A : Archive}

/-- At every moment, and so wherever the processes are killed, the shared directory is absent or holds the
whole library. -/
theorem C62_never_torn_partial (hr : Spec.Reads A) (temps : Nat → Option Node) {es : List (Nat × Choice)}
    (hc : Spec.Readable es) {t : Node} (h : ((World.first none temps).run A es).target = some t) :
    Spec.Whole A t :=
  installed_whole ((together_run hr hc (together_first temps)).1.clean t h).1

/-- A process that is told the library is ready finds the whole library there. -/
theorem C62_ready_partial (hr : Spec.Reads A) (temps : Nat → Option Node) {es : List (Nat × Choice)}
    (hc : Spec.Readable es) {i : Nat} (h : ((World.first none temps).run A es).pcs i = .ready) :
    ∃ t, ((World.first none temps).run A es).target = some t ∧ Spec.Whole A t := by
  have hs := (together_run hr hc (together_first (A := A) temps)).1.shared i
  simp only [World.view, Shared, h] at hs
  obtain ⟨t, h1, h2⟩ := hs
  exact ⟨t, h1, installed_whole h2.1⟩

/-- Once the library is there no process touches it again. -/
theorem C62_stays_partial (hr : Spec.Reads A) (temps : Nat → Option Node) {es fs : List (Nat × Choice)}
    (hc : Spec.Readable (es ++ fs)) {t : Node} (h : ((World.first none temps).run A es).target = some t) :
    ((World.first none temps).run A (es ++ fs)).target = some t := by
  rw [run_append]
  have h1 := together_run hr (fun e he => hc e (List.mem_append_left _ he)) (together_first (A := A) temps)
  exact (together_run hr (fun e he => hc e (List.mem_append_right _ he)) h1.1).2 t h

/-- Whatever was there at the start, unless it passes for the library: when the processes run one after
another, and any of them may be killed at any moment, one that is told the library is ready finds the whole
library there, also after later processes have run. -/
theorem C62_in_turn_partial (hr : Spec.Reads A) (temps : Nat → Option Node) {old : Option Node}
    (hOld : ∀ t, old = some t → accepted A t = false) {bs : List (Nat × List Choice)}
    (hn : (bs.map (·.1)).Nodup) (hc : ∀ b ∈ bs, ∀ c ∈ b.2, c ≠ .unread) {i : Nat}
    (h : ((World.first old temps).run A (Spec.InTurn bs)).pcs i = .ready) :
    ∃ t, ((World.first old temps).run A (Spec.InTurn bs)).target = some t ∧ Spec.Whole A t := by
  have hb : Between A (World.first old temps) :=
    ⟨(fun t e ha => by rw [hOld t e] at ha; cases ha), (fun i h => by cases h)⟩
  obtain ⟨t, h1, h2⟩ := (between_turns hr hc hn hb fun _ _ => rfl).ready i h
  exact ⟨t, h1, installed_whole h2.1⟩

/-- A process that nothing disturbs gets the library, whatever is in the two directories: it keeps what is
there if that passes for the library, and else puts the whole library there.  The archive must pass the check
that is made of every unpacked library, and no directory may be where the metadata go. -/
theorem C62_installs (hl : layoutOk A.tree = true) (hw : writeAt metaPath (A.render 1 A.hash) A.tree ≠ none)
    {w : World} {i : Nat} (h : w.pcs i = .start) :
    (w.run A (List.replicate 15 (i, .go))).pcs i = .ready ∧
      ((∃ t, (w.run A (List.replicate 15 (i, .go))).target = some t ∧ Spec.Whole A t ∧
          (w.run A (List.replicate 15 (i, .go))).temps i = none) ∨
        (∃ t, w.target = some t ∧ accepted A t = true ∧
          (w.run A (List.replicate 15 (i, .go))).target = some t)) := by
  cases hu : writeAt metaPath (A.render 1 A.hash) A.tree with
  | none => exact absurd hu hw
  | some u =>
    have hv : (w.run A (List.replicate 15 (i, .go))).view i = goes A 15 ⟨.start, w.temps i, w.target⟩ := by
      rw [view_goes, World.view, h]
    have e1 : ((w.run A (List.replicate 15 (i, .go))).view i).pc = (w.run A (List.replicate 15 (i, .go))).pcs i := rfl
    have e2 : ((w.run A (List.replicate 15 (i, .go))).view i).target = (w.run A (List.replicate 15 (i, .go))).target :=
      rfl
    have e3 : ((w.run A (List.replicate 15 (i, .go))).view i).mine = (w.run A (List.replicate 15 (i, .go))).temps i :=
      rfl
    rw [← e1, ← e2, ← e3, hv]
    rcases goes_start (A := A) (m := w.temps i) (t := w.target) hl hu with ⟨e, -⟩ | ⟨e, x, hx, ha⟩
    · rw [e]
      exact ⟨rfl, .inl ⟨u, rfl, installed_whole hu, rfl⟩⟩
    · rw [e]
      exact ⟨rfl, .inr ⟨x, hx, ha, hx⟩⟩

/-- However many processes were killed or are still at work, the next one that is let to run gets the whole
library. -/
theorem C62_retry_partial (hr : Spec.Reads A) (hl : layoutOk A.tree = true)
    (hw : writeAt metaPath (A.render 1 A.hash) A.tree ≠ none) (temps : Nat → Option Node)
    {es : List (Nat × Choice)} (hc : Spec.Readable es) {i : Nat}
    (h : ((World.first none temps).run A es).pcs i = .start) :
    ((World.first none temps).run A (es ++ List.replicate 15 (i, .go))).pcs i = .ready ∧
      ∃ t, ((World.first none temps).run A (es ++ List.replicate 15 (i, .go))).target = some t ∧ Spec.Whole A t := by
  have h1 : ((World.first none temps).run A (es ++ List.replicate 15 (i, .go))).pcs i = .ready := by
    rw [run_append]
    exact (C62_installs hl hw h).1
  refine ⟨h1, C62_ready_partial hr temps (fun e he => ?_) h1⟩
  rcases List.mem_append.1 he with he | he
  · exact hc e he
  · rw [List.eq_of_mem_replicate he]
    exact fun e => by cases e

/-- When nothing goes wrong, a process that has come to its end leaves no temporary directory behind. -/
theorem C62_tidy {w : World} (h0 : ∀ i, w.pcs i = .start ∧ w.temps i = none) {es : List (Nat × Choice)}
    (hc : ∀ e ∈ es, e.2 ≠ .fail) {i : Nat}
    (h : (w.run A es).pcs i = .ready ∨ (w.run A es).pcs i = .failed) : (w.run A es).temps i = none := by
  have hs : ∀ i, Swept (w.view i) := fun i => by simp [Swept, World.view, (h0 i).1, (h0 i).2]
  have := swept_run (A := A) hc hs i
  generalize hv : (w.run A es).view i = v at this
  have e1 : (w.run A es).pcs i = v.pc := by rw [← hv]; rfl
  have e2 : (w.run A es).temps i = v.mine := by rw [← hv]; rfl
  rw [e1] at h
  rw [e2]
  rcases h with h | h <;> simpa only [Swept, h] using this

/-! ### The hypotheses are met -/

section
open DemoPackaged

example : Spec.Reads archive := rfl

example : layoutOk archive.tree = true ∧ writeAt metaPath (archive.render 1 archive.hash) archive.tree ≠ none :=
  ⟨by decide +kernel, by
    cases h : writeAt metaPath (archive.render 1 archive.hash) archive.tree with
    | some _ => exact fun e => by cases e
    | none =>
      have : (writeAt metaPath (archive.render 1 archive.hash) archive.tree).isSome = true := by decide +kernel
      rw [h] at this; cases this⟩

/-- Three processes at once: one is killed, one installs the library, one finds that another was faster. -/
example : Spec.Readable race ∧
    ((World.first none fun _ => none).run archive race).pcs 0 = .ready ∧
    ((World.first none fun _ => none).run archive race).pcs 1 = .unpack ∧
    ((World.first none fun _ => none).run archive race).pcs 2 = .ready ∧
    (((World.first none fun _ => none).run archive race).target.bind (fileAt natAc)) = some "nat" := by
  refine ⟨?_, by decide +kernel, by decide +kernel, by decide +kernel, by decide +kernel⟩
  intro e he
  simp only [race, go, List.mem_append, List.mem_replicate, List.mem_singleton] at he
  rcases he with (((((he | he) | he) | he) | he) | he) | he <;> (first | rw [he.2] | rw [he]) <;> (intro h; cases h)

example : (∀ i, (World.first none fun _ => none).pcs i = .start ∧ (World.first none fun _ => none).temps i = none) ∧
    (∀ e ∈ go 0 15 ++ go 1 15, e.2 ≠ .fail) ∧
    ((World.first none fun _ => none).run archive (go 0 15 ++ go 1 15)).pcs 1 = .ready := by
  refine ⟨fun i => ⟨rfl, rfl⟩, fun e he => ?_, by decide +kernel⟩
  simp only [go, List.mem_append, List.mem_replicate] at he
  rcases he with he | he <;> rw [he.2] <;> (intro h; cases h)

/-- Rubbish is replaced, by the second process if the first is killed while it removes it. -/
example : accepted archive rubbish = false ∧
    ((World.first (some rubbish) fun _ => none).run archive
      (Spec.InTurn [(0, List.replicate 10 .go ++ [.removed fun _ => false]), (1, List.replicate 15 .go)])).pcs 1 =
      .ready := by
  constructor <;> decide +kernel

end

/-! ### Where the code does not do it -/

/-- If a directory that is not the library is there, two processes at once can spoil it: the second process is
told that the library is ready, the first then removes a file of it and is killed, and the third is told that
the library is ready although that file is missing. -/
theorem C62_disagreement_race :
    ∃ (A : Archive) (old : Node) (es fs : List (Nat × Choice)), Spec.Reads A ∧ accepted A old = false ∧
      Spec.Readable (es ++ fs) ∧
      (∃ t, ((World.first (some old) fun _ => none).run A es).pcs 1 = .ready ∧
        ((World.first (some old) fun _ => none).run A es).target = some t ∧ Spec.Whole A t) ∧
      ((World.first (some old) fun _ => none).run A (es ++ fs)).pcs 2 = .ready ∧
      ∃ t, ((World.first (some old) fun _ => none).run A (es ++ fs)).target = some t ∧ ¬ Spec.Whole A t := by
  refine ⟨DemoPackaged.archive, DemoPackaged.rubbish, DemoPackaged.go 0 10 ++ DemoPackaged.go 1 15,
    [(0, .removed (DemoPackaged.allBut DemoPackaged.natAc))] ++ DemoPackaged.go 2 2, rfl, by decide +kernel, ?_, ?_,
    by decide +kernel, ?_⟩
  · intro e he
    simp only [DemoPackaged.go, List.mem_append, List.mem_replicate, List.mem_singleton] at he
    rcases he with (he | he) | (he | he) <;> (first | rw [he.2] | rw [he]) <;> (intro h; cases h)
  · have h2 := C62_installs (A := DemoPackaged.archive)
      (w := (World.first (some DemoPackaged.rubbish) fun _ => none).run DemoPackaged.archive (DemoPackaged.go 0 10))
      (i := 1) (by decide +kernel) (by
        intro h
        have : (writeAt metaPath (DemoPackaged.archive.render 1 DemoPackaged.archive.hash)
          DemoPackaged.archive.tree).isSome = true := by decide +kernel
        rw [h] at this; cases this) (by decide +kernel)
    obtain ⟨h3, h4⟩ := h2
    rw [run_append]
    rcases h4 with ⟨t, h5, h6, -⟩ | ⟨t, h5, h6, -⟩
    · exact ⟨t, h3, h5, h6⟩
    · exfalso
      have : (((World.first (some DemoPackaged.rubbish) fun _ => none).run DemoPackaged.archive
        (DemoPackaged.go 0 10)).target.any (accepted DemoPackaged.archive)) = false := by decide +kernel
      rw [h5, Option.any_some, h6] at this
      cases this
  · generalize hw : (World.first (some DemoPackaged.rubbish) fun _ => none).run DemoPackaged.archive
      (DemoPackaged.go 0 10 ++ DemoPackaged.go 1 15 ++
        ([(0, .removed (DemoPackaged.allBut DemoPackaged.natAc))] ++ DemoPackaged.go 2 2)) = w
    have h1 : w.target.isSome = true := by rw [← hw]; decide +kernel
    have h2 : w.target.bind (fileAt DemoPackaged.natAc) = none := by rw [← hw]; decide +kernel
    rw [Option.isSome_iff_exists] at h1
    obtain ⟨t, ht⟩ := h1
    refine ⟨t, ht, fun h => ?_⟩
    have h3 := h.1 DemoPackaged.natAc (by decide)
    rw [ht, Option.bind_some] at h2
    rw [h2] at h3
    have : fileAt DemoPackaged.natAc DemoPackaged.archive.tree = some "nat" := by decide +kernel
    rw [this] at h3
    cases h3

/-- The same can happen in a cache that was always in order, if a process cannot look at a file of it. -/
theorem C62_disagreement_unread :
    ∃ (A : Archive) (es : List (Nat × Choice)), Spec.Reads A ∧
      ((World.first none fun _ => none).run A es).pcs 2 = .ready ∧
      ∃ t, ((World.first none fun _ => none).run A es).target = some t ∧ ¬ Spec.Whole A t := by
  refine ⟨DemoPackaged.archive, DemoPackaged.go 1 8 ++ DemoPackaged.go 0 15 ++ DemoPackaged.go 1 1 ++
    [(1, .unread), (1, .removed (DemoPackaged.allBut DemoPackaged.natAc))] ++ DemoPackaged.go 2 2, rfl,
    by decide +kernel, ?_⟩
  generalize hw : (World.first none fun _ => none).run DemoPackaged.archive
    (DemoPackaged.go 1 8 ++ DemoPackaged.go 0 15 ++ DemoPackaged.go 1 1 ++
    [(1, .unread), (1, .removed (DemoPackaged.allBut DemoPackaged.natAc))] ++ DemoPackaged.go 2 2) = w
  have h1 : w.target.isSome = true := by rw [← hw]; decide +kernel
  have h2 : w.target.bind (fileAt DemoPackaged.natAc) = none := by rw [← hw]; decide +kernel
  rw [Option.isSome_iff_exists] at h1
  obtain ⟨t, ht⟩ := h1
  refine ⟨t, ht, fun h => ?_⟩
  have h3 := h.1 DemoPackaged.natAc (by decide)
  rw [ht, Option.bind_some] at h2
  rw [h2] at h3
  have : fileAt DemoPackaged.natAc DemoPackaged.archive.tree = some "nat" := by decide +kernel
  rw [this] at h3
  cases h3

end Acorn
