import Verif.Lemmas.ReloadTargets
import Verif.Props.ParallelLoad
/-
C53: after an edit, exactly what the edit can change is loaded and built again.

After every change of a file the language server asks the project which targets to build again and
loads them with the parallel loader.  The targets are the edited module and those that need it; all
that they need is loaded, under every schedule; and what a target that is left out stands for has not
been changed by the edit.
-/
namespace Acorn

open Proj

section
variable {E I σ : Type}

/-- The targets to be built again are the edited module and the targets that need it through other
targets, each once. -/
theorem C53_targets (prefer : Mod → Mod → Bool) (sort : List Mod → List Mod) (P : Project E I)
    (m : Mod) (jobs : Nat) :
    (P.reloadDependent prefer sort m jobs).2.1.Nodup ∧
    ∀ t, t ∈ (P.reloadDependent prefer sort m jobs).2.1 ↔ Affected P.files P.targets m t := by
  obtain ⟨h1, h2⟩ := dependentTargets_spec P.files (P.addTarget m).targets m
  refine ⟨h1, fun t => (h2 t).trans ?_⟩
  have sub : ∀ x, x ∈ (P.addTarget m).targets → x = m ∨ x ∈ P.targets := by
    intro x hx
    simp only [Project.addTarget] at hx
    split at hx
    · exact .inr hx
    · rcases List.mem_append.1 hx with h | h
      · exact .inr h
      · exact .inl (List.mem_singleton.1 h)
  have sup : ∀ x, x ∈ P.targets → x ∈ (P.addTarget m).targets := by
    intro x hx
    simp only [Project.addTarget]
    split
    · exact hx
    · exact List.mem_append.2 (.inl hx)
  constructor <;> intro h
  · induction h with
    | self => exact .self
    | needs _ k1 k2 ih =>
      rcases sub _ k1 with rfl | k1
      · exact .self
      · exact .needs ih k1 k2
    | prelude _ k1 k2 ih =>
      rcases sub _ k1 with rfl | k1
      · exact .self
      · exact .prelude ih k1 k2
  · induction h with
    | self => exact .self
    | needs _ k1 k2 ih => exact .needs ih (sup _ k1) k2
    | prelude _ k1 k2 ih => exact .prelude ih (sup _ k1) k2

/-- Nothing is built again without need: a target to be built again is the edited module, or needs it,
or cannot be read and might need it through the prelude. -/
theorem C53_only_dependents (prefer : Mod → Mod → Bool) (sort : List Mod → List Mod)
    (P : Project E I) (m : Mod) (jobs : Nat) (t : Mod)
    (ht : t ∈ (P.reloadDependent prefer sort m jobs).2.1) :
    t = m ∨ (t ∈ P.targets ∧ (Below P.files m t ∨
      ((∀ stmts, P.files.lookup t ≠ some (.parsed stmts)) ∧
        (m = preludeMod ∨ Below P.files m preludeMod)))) := by
  have h := ((C53_targets prefer sort P m jobs).2 t).1 ht
  clear ht
  have viaPrelude : ∀ t, t ≠ preludeMod → (m = preludeMod ∨ Below P.files m preludeMod) →
      Below P.files m t ∨ ((∀ stmts, P.files.lookup t ≠ some (.parsed stmts)) ∧
        (m = preludeMod ∨ Below P.files m preludeMod)) := by
    intro t ht hm
    by_cases hp : ∃ stmts, P.files.lookup t = some (.parsed stmts)
    · obtain ⟨s, hs⟩ := hp
      have n : Needs P.files preludeMod t := ⟨s, hs, .inr ⟨rfl, ht⟩⟩
      left
      rcases hm with rfl | hm
      · exact .direct n
      · exact .through hm n
    · exact .inr ⟨fun s hs => hp ⟨s, hs⟩, hm⟩
  induction h with
  | self => exact .inl rfl
  | @needs d t _ k1 k2 ih =>
    by_cases e : t = m
    · exact .inl e
    · refine .inr ⟨k1, ?_⟩
      rcases ih with rfl | ⟨_, h | ⟨_, hm⟩⟩
      · exact .inl (.direct k2)
      · exact .inl (.through h k2)
      · by_cases e' : t = preludeMod
        · subst e'
          rcases hm with h | h
          · exact absurd h.symm e
          · exact .inl h
        · exact viaPrelude t e' hm
  | @prelude t _ k1 k2 ih =>
    right
    refine ⟨k1, viaPrelude t k2 ?_⟩
    rcases ih with h | ⟨_, h | h⟩
    · exact .inl h.symm
    · exact .inr h
    · exact h.2

/-- Nothing is forgotten: if every module through which a target needs the edited one is a target, every
target that needs the edited module is built again. -/
theorem C53_all_dependents_partial (prefer : Mod → Mod → Bool) (sort : List Mod → List Mod)
    (P : Project E I) (m : Mod) (jobs : Nat)
    (hclosed : ∀ t ∈ P.targets, ∀ d, Needs P.files d t → Below P.files m d → d ∈ P.targets)
    (t : Mod) (ht : t ∈ P.targets) (hb : Below P.files m t) :
    t ∈ (P.reloadDependent prefer sort m jobs).2.1 := by
  refine ((C53_targets prefer sort P m jobs).2 t).2 ?_
  induction hb with
  | direct n => exact .needs .self ht n
  | @through k t b n ih => exact .needs (ih (hclosed t ht k n b)) ht n

/-- What is not built again did not have to be: after new text for `m`, a target that is left out stands
for exactly what it stood for before. -/
theorem C53_left_out_unchanged_partial (El : Elaborator E I σ) (prefer : Mod → Mod → Bool)
    (sort : List Mod → List Mod) (P Q : Project E I) (m : Mod) (f : File I) (version : Int)
    (jobs : Nat) (hQ : Q = P.updateIde m f version)
    (hclosed : ∀ t ∈ Q.targets, ∀ d, Needs Q.files d t → Below Q.files m d → d ∈ Q.targets)
    (hl : Local El Q.files) (V W : Mod → Option E)
    (hV : Result El P.files V) (hW : Result El Q.files W) (t : Mod) (ht : t ∈ Q.targets)
    (hout : t ∉ (Q.reloadDependent prefer sort m jobs).2.1) : V t = W t := by
  have same : ∀ x, x ≠ m → Q.files.lookup x = P.files.lookup x := by
    intro x hx
    have h := run_opened (El := El) [.updateIde m f version] P x
    simp only [List.foldl_cons, List.foldl_nil, Project.handle, ← hQ, openAfter,
      if_neg (Ne.symm hx)] at h
    rw [files_lookup, files_lookup, ← h.1, h.2]
  have htm : t ≠ m := by
    rintro rfl
    exact hout (((C53_targets prefer sort Q t jobs).2 t).2 .self)
  exact (result_edit same hl hW hV htm
    (fun b => hout (C53_all_dependents_partial prefer sort Q m jobs hclosed t ht b))).symm

/-- What the loader is given contains all that it needs, so that the claims about the parallel loader
hold of it, in whatever order the modules are put. -/
theorem C53_load_is_covered_partial (sort : List Mod → List Mod) (hsort : ∀ l, (sort l).Perm l)
    (P : Project E I) (hs : Saved P) (prefer : Mod → Mod → Bool) (m : Mod) (jobs : Nat) :
    ∃ load workers, (P.reloadDependent prefer sort m jobs).2.2 =
        P.startParallel prefer load (sort load) workers ∧ 0 < workers ∧
      ((sort load).filter (· ∈ load)) = sort load ∧ (sort load).Nodup ∧
      Covered P.files (P.table.register (P.disk.map (·.1))) (sort load) ∧
      ∀ x, x ∈ load ↔ Wanted P.files (P.table.register (P.disk.map (·.1)))
        (P.reloadDependent prefer sort m jobs).2.1 x := by
  have hn := (dependentTargets_spec P.files (P.addTarget m).targets m).1
  have hc := dependencyClosure_spec P.files (P.table.register (P.disk.map (·.1))) _ hn
  refine ⟨_, _, rfl, Nat.lt_of_lt_of_le Nat.zero_lt_one (Nat.le_max_right _ _), ?_, ?_, ?_, hc.2⟩
  · rw [List.filter_eq_self]
    intro x hx
    simpa using (hsort _).mem_iff.1 hx
  · exact (hsort _).nodup_iff.2 hc.1
  · exact closure_covered hs hn (hsort _)

/-- The reload comes to one of three ends at its start.  It never panics; it fails only if a module that
it has to load has no file, or has imports that go round in a circle. -/
theorem C53_reload_start_partial (El : Elaborator E I σ) (P₀ : Project E I)
    (h₀ : P₀.table = .empty) (history : List (Request I)) (P : Project E I)
    (hP : P = history.foldl (Project.handle El) P₀) (hl : Local El P.files)
    (hpre : ¬ Circular P.files preludeMod) (hs : Saved P) (prefer : Mod → Mod → Bool)
    (sort : List Mod → List Mod) (hsort : ∀ l, (sort l).Perm l) (m : Mod) (jobs : Nat)
    (R : Project E I × List Mod × Started E I) (hR : R = P.reloadDependent prefer sort m jobs) :
    (∃ L₀, R.2.2 = .started L₀) ∨
    (R.2.2 = .failed .notFound ∧ ∃ x, P.files.lookup x = none ∧
      Wanted P.files (P.table.register (P.disk.map (·.1))) R.2.1 x) ∨
    (R.2.2 = .failed .circular ∧ ∃ x, Circular P.files x ∧
      Wanted P.files (P.table.register (P.disk.map (·.1))) R.2.1 x) := by
  subst hR
  obtain ⟨load, workers, e, _, hfil, hnd, hcov, hw⟩ :=
    C53_load_is_covered_partial sort hsort P hs prefer m jobs
  rw [e]
  rcases C52_start_partial El P₀ h₀ history P hP hl hpre prefer load (sort load) workers
    (by rw [hfil]; exact hnd) (by rw [hfil]; exact hcov) with h | ⟨h, x, _, hx, k⟩ | ⟨h, x, _, hx, k⟩
  · exact .inl h
  · exact .inr (.inl ⟨h, x, k, (hw x).1 hx⟩)
  · exact .inr (.inr ⟨h, x, k, (hw x).1 hx⟩)

/-- Whatever the schedule, at every moment of the reload what is loaded is what the current files say;
and when it is through, every target to be built again is loaded, together with all modules that it
needs and that exist, and nothing is left half loaded. -/
theorem C53_reload_partial (El : Elaborator E I σ) (P₀ : Project E I)
    (h₀ : P₀.table = .empty) (history : List (Request I)) (P : Project E I)
    (hP : P = history.foldl (Project.handle El) P₀) (hl : Local El P.files)
    (hpre : ¬ Circular P.files preludeMod) (hs : Saved P) (V : Mod → Option E)
    (hV : Result El P.files V) (prefer : Mod → Mod → Bool)
    (sort : List Mod → List Mod) (hsort : ∀ l, (sort l).Perm l) (m : Mod) (jobs : Nat)
    (R : Project E I × List Mod × Started E I) (hR : R = P.reloadDependent prefer sort m jobs)
    (L₀ L : Loader E I) (hnew : R.2.2 = .started L₀) (hr : Reaches El prefer L₀ L) :
    (∀ x, (∀ e, L.table.states x = some (.ok e) → V x = some e) ∧
      (∀ c, L.table.states x = some (.error c) → V x = none)) ∧
    (L.next = .finished →
      (∀ t ∈ R.2.1, Finished L.table t) ∧
      (∀ t ∈ R.2.1, ∀ d, Below P.files d t → P.files.lookup d ≠ none → Finished L.table d) ∧
      ∀ x, L.table.states x ≠ some .loading) ∧
    (L.next = .circular → ∃ x, Circular P.files x ∧
      Wanted P.files (P.table.register (P.disk.map (·.1))) R.2.1 x) := by
  subst hR
  obtain ⟨load, workers, e, _, hfil, hnd, hcov, hw⟩ :=
    C53_load_is_covered_partial sort hsort P hs prefer m jobs
  rw [e] at hnew
  have hnd' : ((sort load).filter (· ∈ load)).Nodup := by rw [hfil]; exact hnd
  have hcov' : Covered P.files (P.table.register (P.disk.map (·.1)))
      ((sort load).filter (· ∈ load)) := by rw [hfil]; exact hcov
  refine ⟨fun x => ?_, fun hf => ?_, fun hf => ?_⟩
  · obtain ⟨a, b, _⟩ := C52_every_schedule_partial El P₀ h₀ history P hP hl hpre V hV prefer load
      (sort load) workers hnd' hcov' L₀ L hnew hr x
    exact ⟨a, b⟩
  · obtain ⟨a, b⟩ := C52_finished_partial El P₀ h₀ history P hP hl hpre prefer load (sort load)
      workers hnd' hcov' L₀ L hnew hr hf
    have fin : ∀ x, x ∈ load → Finished L.table x :=
      fun x hx => a x ((hsort _).mem_iff.2 hx) hx
    refine ⟨fun t ht => fin t ((hw t).2 (.asked ht)), fun t ht d hd hfile => ?_, b⟩
    refine fin d ((hw d).2 ?_)
    -- all modules on the way have files
    have main : ∀ t, Below P.files d t → Wanted P.files (P.table.register (P.disk.map (·.1)))
        (P.reloadDependent prefer sort m jobs).2.1 t →
        Wanted P.files (P.table.register (P.disk.map (·.1)))
        (P.reloadDependent prefer sort m jobs).2.1 d := by
      intro t hb
      induction hb with
      | direct n => intro hw; exact .needs hw n (register_known hs hfile)
      | @through k t b n ih =>
        intro hw
        have hk : P.files.lookup k ≠ none := by
          cases b with
          | direct n => obtain ⟨_, h, _⟩ := n; rw [h]; simp
          | through _ n => obtain ⟨_, h, _⟩ := n; rw [h]; simp
        exact ih (.needs hw n (register_known hs hk))
    exact main t hd (.asked ht)
  · obtain ⟨⟨x, _, h1, h2, _⟩, _⟩ := C52_gives_up_partial El P₀ h₀ history P hP hl hpre prefer load
      (sort load) workers hnd' hcov' L₀ L hnew hr hf
    exact ⟨x, h2, (hw x).1 h1⟩

end

namespace LoadDemo

/-- The files of the demo, without the circle, after an edit of `a`; `b`, `c` and `d` are targets, and
`d` does not need `a`. -/
def edited : Project Nat Nat :=
  [Request.updateIde "a" (file [] [] 2) 1].foldl (Project.handle El)
    ⟨[("prelude", file [] [] 5), ("a", file [] [] 1), ("b", file ["a"] [] 10),
      ("c", file ["b"] ["a"] 100), ("d", file [] [] 7)], [], ["c", "b", "d"], .empty⟩

theorem saved : Saved edited := by
  intro m hm
  have : m ∈ edited.files.map (·.1) := by
    cases h : edited.files.lookup m with
    | none => exact absurd h hm
    | some f => exact mem_of_lookup h
  revert this
  simp only [edited, Project.files, Project.handle, Project.updateIde, Project.updateState,
    Project.addTarget, List.foldl_cons, List.foldl_nil, List.lookup_nil]
  simp only [List.map_append, List.map_cons, List.map_nil, List.filter_nil, List.cons_append,
    List.nil_append, List.mem_cons, List.not_mem_nil, or_false]
  rintro (h | h | h | h | h | h)
  · exact .inr (.inl h)
  · exact .inl h
  · exact .inr (.inl h)
  · exact .inr (.inr (.inl h))
  · exact .inr (.inr (.inr (.inl h)))
  · exact .inr (.inr (.inr (.inr h)))

end LoadDemo

example : Saved LoadDemo.edited := LoadDemo.saved

/-- Every module through which a target of the demo needs `a` is a target. -/
example : ∀ t ∈ LoadDemo.edited.targets, ∀ d, Needs LoadDemo.edited.files d t →
    Below LoadDemo.edited.files "a" d → d ∈ LoadDemo.edited.targets := by
  intro t _ d hn hb
  have hd : d ∈ ["a", "prelude", "a", "b", "c", "d"] := below_file hb
  simp only [List.mem_cons, List.not_mem_nil, or_false] at hd
  rcases hd with rfl | rfl | rfl | rfl | rfl | rfl
  · decide +kernel
  · exfalso
    have none : ∀ x, ¬ Needs LoadDemo.edited.files x "prelude" := by
      rintro x ⟨s, h, h'⟩
      have e : LoadDemo.edited.files.lookup "prelude" = some (LoadDemo.file [] [] 5) := rfl
      rw [e] at h
      simp only [LoadDemo.file, Option.some.injEq, File.parsed.injEq] at h
      subst h
      simp [preludeMod] at h'
    cases hb with
    | direct n => exact none _ n
    | through _ n => exact none _ n
  · decide +kernel
  · decide +kernel
  · decide +kernel
  · decide +kernel

/-- After the edit of `a` everything but `d` is built again. -/
example : (LoadDemo.edited.reloadDependent (fun _ _ => true) id "a" 4).2.1 = ["b", "c", "a"] := by
  decide +kernel

example : LoadDemo.bindingsOf (LoadDemo.arrivals (fun _ _ => true) [0, 0, 0, 0]
    (LoadDemo.edited.reloadDependent (fun _ _ => true) id "a" 4).2.2) "c" = some 135 := by
  decide +kernel

example : LoadDemo.nextOf (LoadDemo.arrivals (fun _ _ => true) [0, 0, 0, 0]
    (LoadDemo.edited.reloadDependent (fun _ _ => true) id "a" 4).2.2) = some .finished := by
  decide +kernel

namespace LoadDemo

/-- `top` is a target, which needs `base` through `mid`, which is none. -/
def chain : Project Nat Nat :=
  ⟨[("base", file [] [] 1), ("mid", file ["base"] [] 10), ("top", file ["mid"] [] 100)], [],
    ["top"], .empty⟩

/-- A file `new` that was never saved has been closed again, and then the prelude is edited. -/
def closed : Project Nat Nat :=
  [Request.updateIde "new" (file [] [] 1) 1, .close "new", .target "a",
    .updateIde "prelude" (file [] [] 6) 1].foldl (Project.handle El)
    ⟨[("prelude", file [] [] 5), ("a", file [] [] 1)], [], [], .empty⟩

end LoadDemo

/-- A target that needs the edited module through a module that is not itself a target is not built
again, although the edit changes what it stands for. -/
theorem C53_disagreement_through_non_target :
    ∃ (P Q : Project Nat Nat), Q = P.updateIde "base" (LoadDemo.file [] [] 2) 1 ∧
      "top" ∈ P.targets ∧ Saved Q ∧ Local LoadDemo.El Q.files ∧ Below Q.files "base" "top" ∧
      (P.load LoadDemo.El "top").1.table.bindings "top" = some 111 ∧
      (Q.load LoadDemo.El "top").1.table.bindings "top" = some 112 ∧
      ∀ prefer sort jobs, "top" ∉ (Q.reloadDependent prefer sort "base" jobs).2.1 := by
  refine ⟨LoadDemo.chain, _, rfl, by decide +kernel, ?_, LoadDemo.local_El _, ?_, by decide +kernel,
    by decide +kernel, ?_⟩
  · intro m hm
    cases h : ((LoadDemo.chain.updateIde "base" (LoadDemo.file [] [] 2) 1).files).lookup m with
    | none => exact absurd h hm
    | some f =>
      have hmem : m ∈ ["base", "base", "mid", "top"] := mem_of_lookup h
      change m ∈ ["base", "mid", "top"]
      simpa using hmem
  · exact .through (k := "mid")
      (.direct ⟨[⟨["base"], [], 10⟩], rfl, .inl ⟨⟨["base"], [], 10⟩, by simp, by simp⟩⟩)
      ⟨[⟨["mid"], [], 100⟩], rfl, .inl ⟨⟨["mid"], [], 100⟩, by simp, by simp⟩⟩
  · intro prefer sort jobs
    have e : (((LoadDemo.chain.updateIde "base" (LoadDemo.file [] [] 2) 1).reloadDependent prefer sort
        "base" jobs).2.1) = ["base"] := by
      change dependentTargets _ _ _ = _
      decide +kernel
    rw [e]
    decide

/-- One target without a file makes the whole reload fail.  A file that was opened but never saved stays
a target after it is closed; when the prelude is edited after that, nothing is loaded or built, though
loading the targets one by one succeeds; and the modules that had been prepared are left half loaded,
so that loading one of them then reports a circular import. -/
theorem C53_disagreement_closed_file :
    ∃ (P : Project Nat Nat), Saved P ∧ (∀ m, ¬ Circular P.files m) ∧
      (P.load LoadDemo.El "a").1.table.bindings "a" = some 7 ∧
      (∀ prefer jobs, (P.reloadDependent prefer id "prelude" jobs).2.2 = .failed .notFound) ∧
      (let p := (prepareAll P.files (P.table.register (P.disk.map (·.1)))
          (dependencyClosure P.files
            (fun d => ((P.table.register (P.disk.map (·.1))).states d).isSome)
            (P.reloadDependent (fun _ _ => true) id "prelude" 1).2.1)).1
       (loadModule LoadDemo.El P.files P.depth p "a").2 = .circular) := by
  refine ⟨LoadDemo.closed, ?_, ?_, by decide +kernel, fun prefer jobs => ?_, by decide +kernel⟩
  · intro m hm
    cases h : LoadDemo.closed.files.lookup m with
    | none => exact absurd h hm
    | some f =>
      have hmem : m ∈ ["prelude", "prelude", "a"] := mem_of_lookup h
      change m ∈ ["prelude", "a"]
      simpa using hmem
  · have needs : ∀ d m, Needs LoadDemo.closed.files d m → d = preludeMod ∧ m ≠ preludeMod := by
      rintro d m ⟨s, h, h'⟩
      have hmem : m ∈ ["prelude", "prelude", "a"] := mem_of_lookup h
      have key : ∀ i, LoadDemo.closed.files.lookup m = some (LoadDemo.file [] [] i) →
          d = preludeMod ∧ m ≠ preludeMod := by
        intro i e
        rw [h] at e
        simp only [LoadDemo.file, Option.some.injEq, File.parsed.injEq] at e
        subst e
        simpa only [List.mem_singleton, exists_eq_left, List.not_mem_nil, or_false,
          false_or] using h'
      simp only [List.mem_cons, List.not_mem_nil, or_false] at hmem
      rcases hmem with rfl | rfl | rfl
      · exact key 6 rfl
      · exact key 6 rfl
      · exact key 1 rfl
    intro m hc
    obtain ⟨d, n, hd⟩ := hc.needs
    obtain ⟨d', n', _⟩ := hd.needs
    exact (needs _ _ n').2 (needs _ _ n).1
  · have e : ∃ q, prepareAll (E := Nat) LoadDemo.closed.files
        (LoadDemo.closed.table.register (LoadDemo.closed.disk.map (·.1)))
        (["a", "new", "prelude"].filter (· ∈ ["a", "new", "prelude"])) = (q, .error .notFound) :=
      ⟨_, rfl⟩
    have c : dependencyClosure LoadDemo.closed.files
        (fun d => ((LoadDemo.closed.table.register (LoadDemo.closed.disk.map (·.1))).states d).isSome)
        (dependentTargets LoadDemo.closed.files LoadDemo.closed.targets ["prelude"])
          = ["a", "new", "prelude"] := by decide +kernel
    obtain ⟨q, e⟩ := e
    have t : LoadDemo.closed.addTarget "prelude" = LoadDemo.closed := rfl
    unfold Project.reloadDependent
    simp only [t, c, id]
    unfold Project.startParallel Loader.new
    rw [e]

end Acorn
