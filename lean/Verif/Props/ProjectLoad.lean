import Verif.Lemmas.ProjectResult
/-
C51: what is loaded is what the files say.

A project serves a history of requests: text typed into an open file, files closed, targets added,
modules loaded.  Whatever the history, a module that is loaded is loaded as the current files define
it, a circular import is reported for modules with a circular import only, and loading always comes to
an end.
-/
namespace Acorn

open Proj

namespace LoadDemo

/-- An elaborator that adds up numbers: the export of a module is the sum of what its statements
say and of the exports they name, plus one for each `lib(...)`; a statement saying `0` is an error. -/
def El : Elaborator Nat Nat Nat where
  start _ prel := prel.getD 0
  addLib s _ := s + 1
  step _ _ s es ls i := if i = 0 then none else some (s + es.sum + ls.sum + i)
  finish _ _ s := s

def file (imports libs : List Mod) (i : Nat) : File Nat := .parsed [⟨imports, libs, i⟩]

def disk : Files Nat :=
  [("prelude", file [] [] 5), ("a", file [] [] 1), ("b", file ["a"] [] 10), ("c", file ["b"] ["a"] 100),
    ("x", file ["y"] [] 1), ("y", file ["x"] [] 1), ("z", file ["y", "a"] [] 1)]

def start : Project Nat Nat := ⟨disk, [], [], .empty⟩

/-- Loading, editing, loading again. -/
def history : List (Request Nat) :=
  [.target "c", .load "z", .update "a" (file [] [] 2) 1, .updateIde "a" (file [] [] 3) 1,
    .update "b" (file ["a"] [] 20) 1, .target "c", .target "z"]

theorem local_El (files : Files Nat) : Local El files := fun _ _ _ _ => ⟨rfl, rfl⟩

end LoadDemo

section
variable {E I σ : Type}

/-- What the files of a project mean is settled by the files: there is exactly one way to give every
module its export. -/
theorem C51_one_result (El : Elaborator E I σ) (files : Files I) (hl : Local El files) :
    ∃ V, Result El files V ∧ ∀ W, Result El files W → W = V := by
  obtain ⟨V, hV⟩ := result_exists El files hl
  exact ⟨V, hV, fun W hW => result_unique hl hW hV⟩

example : ∃ V, Result LoadDemo.El LoadDemo.disk V :=
  (C51_one_result LoadDemo.El LoadDemo.disk (LoadDemo.local_El _)).imp fun _ h => h.1

/-- Whatever requests a project has served, every module in its table is as the current files say:
one that is loaded has the export that the files give it, one with an error has none, and none is
left half loaded.  The prelude must not import anything that leads back to itself; what happens
otherwise is `C51_disagreement_prelude_imports`. -/
theorem C51_loaded_is_current_partial (El : Elaborator E I σ) (P₀ : Project E I)
    (h₀ : P₀.table = .empty) (history : List (Request I)) (V : Mod → Option E)
    (hl : Local El (history.foldl (Project.handle El) P₀).files)
    (hpre : ¬ Circular (history.foldl (Project.handle El) P₀).files preludeMod)
    (hV : Result El (history.foldl (Project.handle El) P₀).files V) (m : Mod) :
    (∀ e, (history.foldl (Project.handle El) P₀).table.states m = some (.ok e) → V m = some e) ∧
    (∀ c, (history.foldl (Project.handle El) P₀).table.states m = some (.error c) → V m = none) ∧
    (history.foldl (Project.handle El) P₀).table.states m ≠ some .loading := by
  obtain ⟨hi, hn⟩ := settled_run history (settled_empty El P₀ h₀) V hV hl hpre
  exact ⟨fun e h => hi.ok m e h, fun c h => hi.err m c h, hn m⟩

/-- The text that counts for a module is the one that the history left there: the last text typed
with a new version number, or what is on disk when the file is not open. -/
theorem C51_text_is_latest (El : Elaborator E I σ) (P₀ : Project E I)
    (history : List (Request I)) (m : Mod) :
    (history.foldl (Project.handle El) P₀).files.lookup m =
      match openAfter m (P₀.opened.lookup m) history with
      | some (f, _) => some f
      | none => P₀.disk.lookup m := by
  obtain ⟨a, b⟩ := run_opened (El := El) history P₀ m
  rw [files_lookup, a, b]
  rfl

/-- Loading a module always comes to an end with an answer.  The module is not found exactly if it has
no file; if it has one it is then loaded, well or badly; and only a module whose imports do go round
in a circle is called circular. -/
theorem C51_load_answers_partial (El : Elaborator E I σ) (P₀ : Project E I)
    (h₀ : P₀.table = .empty) (history : List (Request I)) (P : Project E I)
    (hP : P = history.foldl (Project.handle El) P₀) (hl : Local El P.files)
    (hpre : ¬ Circular P.files preludeMod) (m : Mod) :
    (P.load El m).2 ≠ .stuck ∧
    ((P.load El m).2 = .notFound ↔ P.files.lookup m = none) ∧
    (P.files.lookup m ≠ none → Finished (P.load El m).1.table m) ∧
    ((P.load El m).2 = .circular ∨ (P.load El m).1.table.states m = some (.error true) →
      Circular P.files m) ∧
    (Circular P.files m → ∃ c, (P.load El m).1.table.states m = some (.error c)) := by
  have hs : Settled El P := hP ▸ settled_run history (settled_empty El P₀ h₀)
  obtain ⟨V, hV⟩ := result_exists El P.files hl
  obtain ⟨hne, o⟩ := project_load hs hV hl hpre m
  have hnl : (P.load El m).1.table.states m ≠ some .loading :=
    fun h => (hs V hV hl hpre).2 m ((o.grows.loading m).1 h)
  have hfin : P.files.lookup m ≠ none → Finished (P.load El m).1.table m := by
    intro hf
    rcases o.known with h | h | h
    · exact h
    · exact absurd h hnl
    · exact absurd h hf
  have hcyc : (P.load El m).2 = .circular → Circular P.files m := o.circ
  refine ⟨hne, ⟨o.missing, fun hf => ?_⟩, hfin, ?_, fun hc => ?_⟩
  · cases hr : (P.load El m).2 with
    | notFound => rfl
    | stuck => exact absurd hr hne
    | ok => exact absurd hf (o.inv.file m (o.ok hr))
    | circular =>
      obtain ⟨d, ⟨s, h, _⟩, _⟩ := (hcyc hr).needs
      rw [hf] at h; cases h
  · rintro (h | h)
    · exact hcyc h
    · exact o.inv.cyc m h
  · have hf : P.files.lookup m ≠ none := by
      obtain ⟨d, ⟨s, h, _⟩, _⟩ := hc.needs
      rw [h]; simp
    rcases hfin hf with ⟨e, h⟩ | ⟨c, h⟩
    · have := o.inv.ok m e h
      rw [hV.circular m hc] at this; cases this
    · exact ⟨c, h⟩

/-- After an edit, after closing a file and after a reload, every target that has a file is
loaded. -/
theorem C51_targets_are_loaded_partial (El : Elaborator E I σ) (P₀ : Project E I)
    (h₀ : P₀.table = .empty) (history : List (Request I)) (P : Project E I)
    (hP : P = (history.foldl (Project.handle El) P₀).reload El) (hl : Local El P.files)
    (hpre : ¬ Circular P.files preludeMod) (t : Mod) (ht : t ∈ P.targets)
    (hf : P.files.lookup t ≠ none) : Finished P.table t := by
  have hs : Settled El (history.foldl (Project.handle El) P₀) :=
    settled_run history (settled_empty El P₀ h₀)
  generalize history.foldl (Project.handle El) P₀ = Q at hP hs
  subst hP
  obtain ⟨a, b, c⟩ := reload_opened (El := El) Q
  have e : (Q.reload El).files = Q.files := by unfold Project.files; rw [a, b]
  rw [e] at hl hpre hf
  rw [c] at ht
  obtain ⟨V, hV⟩ := result_exists El Q.files hl
  exact (loads_finish Q.targets hs hV hl hpre).2 t ht hf

/-- An edit that brings a new version reloads: it leaves the same project as the edit of the text alone
followed by a reload.  An edit that repeats the version held changes nothing. -/
theorem C51_update_reloads (El : Elaborator E I σ) (P : Project E I) (m : Mod) (f : File I)
    (v : Int) :
    (P.opened.lookup m).map (·.2) ≠ some v ∧
        P.update El m f v = (P.updateIde m f v).reload El ∧ m ∈ (P.update El m f v).targets ∨
      (P.opened.lookup m).map (·.2) = some v ∧ P.update El m f v = P := by
  unfold Project.update Project.updateIde
  rcases updateState_cases P m f v with ⟨⟨g, hg⟩, h⟩ | ⟨hg, h⟩
  · right; rw [h, hg]; exact ⟨rfl, rfl⟩
  · left
    rw [h]
    refine ⟨?_, rfl, ?_⟩
    · cases ho : P.opened.lookup m with
      | none => simp
      | some x =>
        obtain ⟨g, w⟩ := x
        simp only [Option.map_some, ne_eq, Option.some.injEq]
        rintro rfl
        exact hg g ho
    · simp only [if_true]
      rw [(reload_opened _).2.2]
      unfold Project.addTarget
      simp only
      split
      · assumption
      · simp

/-- Two histories that leave the same texts agree on every module that both have loaded, in whatever
order they loaded them. -/
theorem C51_order_does_not_matter_partial (El : Elaborator E I σ) (P₀ Q₀ : Project E I)
    (hP₀ : P₀.table = .empty) (hQ₀ : Q₀.table = .empty) (h k : List (Request I))
    (P Q : Project E I) (hP : P = h.foldl (Project.handle El) P₀)
    (hQ : Q = k.foldl (Project.handle El) Q₀)
    (same : ∀ m, P.files.lookup m = Q.files.lookup m) (hl : Local El P.files)
    (hpre : ¬ Circular P.files preludeMod) (m : Mod) (hm : Finished P.table m)
    (hm' : Finished Q.table m) : P.table.bindings m = Q.table.bindings m := by
  obtain ⟨V, hV⟩ := result_exists El P.files hl
  have hV' := result_congr same hV
  have hl' := local_congr same hl
  have hpre' : ¬ Circular Q.files preludeMod :=
    fun c => hpre (circular_congr (fun m => (same m).symm) c)
  obtain ⟨hi, _⟩ := (hP ▸ settled_run h (settled_empty El P₀ hP₀) : Settled El P) V hV hl hpre
  obtain ⟨hi', _⟩ := (hQ ▸ settled_run k (settled_empty El Q₀ hQ₀) : Settled El Q) V hV' hl' hpre'
  rw [bindings_eq hi hm, bindings_eq hi' hm']

end

namespace LoadDemo

/-- A prelude that imports another module, which therefore needs itself. -/
def preludeDisk : Files Nat :=
  [("prelude", file ["base"] [] 5), ("base", file [] [] 1)]

def preludeStart : Project Nat Nat := ⟨preludeDisk, [], [], .empty⟩

end LoadDemo

example : (LoadDemo.history.foldl (Project.handle LoadDemo.El) LoadDemo.start).table.bindings "c" =
    some 145 := by decide +kernel
example : (LoadDemo.history.foldl (Project.handle LoadDemo.El) LoadDemo.start).table.bindings "z" =
    none := by decide +kernel
example : ((LoadDemo.history.take 2).foldl (Project.handle LoadDemo.El)
    LoadDemo.start).table.bindings "c" = some 133 := by decide +kernel
/-- The hypotheses of the theorems hold after this history, so what it leaves is what the files
say. -/
example (V : Mod → Option Nat)
    (hV : Result LoadDemo.El
      (LoadDemo.history.foldl (Project.handle LoadDemo.El) LoadDemo.start).files V) :
    ∀ e, (LoadDemo.history.foldl (Project.handle LoadDemo.El) LoadDemo.start).table.states "c" =
      some (.ok e) → V "c" = some e := by
  refine (C51_loaded_is_current_partial LoadDemo.El LoadDemo.start rfl LoadDemo.history V
    (LoadDemo.local_El _) (fun h => ?_) hV "c").1
  obtain ⟨d, ⟨s, h, h'⟩, _⟩ := h.needs
  have e : (LoadDemo.history.foldl (Project.handle LoadDemo.El) LoadDemo.start).files.lookup
      preludeMod = some (LoadDemo.file [] [] 5) := rfl
  rw [e] at h
  simp only [LoadDemo.file, Option.some.injEq, File.parsed.injEq] at h
  subst h
  simp at h'

/-- When the prelude imports a module, what is loaded depends on the order.  Loading the prelude first
loads both; loading the other module first leaves the prelude with an error, which nobody is told
about, and everything loaded later goes without a prelude. -/
theorem C51_disagreement_prelude_imports :
    ∃ (El : Elaborator Nat Nat Nat) (P : Project Nat Nat), P.table = .empty ∧ P.opened = [] ∧
      Local El P.files ∧
      (let Q := ((P.load El "prelude").1.load El "base").1
       Q.table.bindings "prelude" = some 6 ∧ Q.table.bindings "base" = some 1) ∧
      (let Q := ((P.load El "base").1.load El "prelude").1
       (P.load El "base").2 = .ok ∧ ((P.load El "base").1.load El "prelude").2 = .ok ∧
       Q.table.bindings "prelude" = none ∧ Q.table.bindings "base" = some 1) :=
  ⟨LoadDemo.El, LoadDemo.preludeStart, rfl, rfl, LoadDemo.local_El _,
    by decide +kernel, by decide +kernel⟩

end Acorn
