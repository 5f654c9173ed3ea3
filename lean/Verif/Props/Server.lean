import Verif.Lemmas.ServerProgress
/-
C54: the editor only shows the newest build.

Saving and closing files while builds run in the background: under every order of the steps of the
handlers, of the background tasks and of the events of the builders, each build is of the project just
after its save, the editor is shown the events of one build only, the newest that has been announced,
the build cache is only written with results for the current project, and the newest build is never
given up for an older one.
-/
namespace Acorn

open Serv

/-! ### A small server for the examples -/

namespace ServDemo

/-- A project that is a list of open files; the reload of the file `bad` fails. -/
def ops : Ops (List (Path × String × Int)) Unit (List String) String where
  hasVersion s path v := s.any fun d => d.1 == path && d.2.2 == v
  update s path text v := (path, text, v) :: s.filter fun d => d.1 != path
  close s path := s.filter fun d => d.1 != path
  reload s path := (s, if path == "bad" then none else some ())
  openUrls s := s.map fun d => (d.1, d.2.2)
  record c r := r :: c

abbrev St := State (List (Path × String × Int)) Unit (List String) String
abbrev Ac := Act String

def start : St := State.start [] []

def runAll (s : St) : List Ac → Option St
  | [] => some s
  | a :: as => (s.act ops a).bind fun t => runAll t as

theorem runAll_runsBy {s t u : St} {as bs : List Ac} (h0 : RunsBy ops s as t)
    (h : runAll t bs = some u) : RunsBy ops s (as ++ bs) u := by
  induction bs generalizing t as with
  | nil => cases h; simpa using h0
  | cons b bs ih =>
    simp only [runAll] at h
    cases hb : t.act ops b with
    | none => rw [hb] at h; cases h
    | some t' =>
      rw [hb] at h
      have := ih (.snoc h0 hb) h
      simpa using this

def error (url : Url) (id : Nat) (line : Nat) : Event :=
  ⟨id, none, some url, none, some ⟨line, line, "could not be proved"⟩⟩

/-- Task `i` makes `n` steps. -/
def steps (i n : Nat) : List Ac := List.replicate n (.run i)

/-- A save of `a`, up to the running build. -/
def upToBuild (i : Nat) (text : String) (v : Int) : List Ac := .save "a" text v :: steps i 9

theorem any_run {s : St} {as : List Ac} {f : St → Bool} (h : (runAll s as).any f = true) :
    ∃ t, RunsBy ops s as t ∧ f t = true := by
  cases hr : runAll s as with
  | none => rw [hr] at h; cases h
  | some t =>
    rw [hr] at h
    exact ⟨t, by simpa using runAll_runsBy .nil hr, h⟩

/-- Task `i` is building the project `v`. -/
def isBuild (s : St) (i e r : Nat) (v : List (Path × String × Int)) (token : Nat) : Bool :=
  match s.tasks[i]? with
  | some (.building e' r' v' _ k) =>
    decide (e' = e) && decide (r' = r) && decide (v' = v) && decide (k = token)
  | _ => false

theorem isBuild_get {s : St} {i e r : Nat} {v : List (Path × String × Int)} {token : Nat}
    (h : isBuild s i e r v token = true) : s.tasks[i]? = some (.building e r v () token) := by
  unfold isBuild at h
  split at h
  · rename_i hp
    simp only [Bool.and_eq_true, decide_eq_true_eq] at h
    obtain ⟨⟨⟨rfl, rfl⟩, rfl⟩, rfl⟩ := h
    exact hp
  · cases h

/-- Task `i` is done. -/
def isDone (s : St) (i : Nat) : Bool :=
  match s.tasks[i]? with
  | some .done => true
  | _ => false

theorem isDone_get {s : St} {i : Nat} (h : isDone s i = true) : s.tasks[i]? = some .done := by
  unfold isDone at h
  split at h
  · assumption
  · cases h

end ServDemo

open ServDemo in
example : (runAll start (upToBuild 0 "theorem" 1)).map (fun s => (s.epoch, s.info.generation)) =
    some (2, some 1) := by decide +kernel

section
variable {S T C R : Type}

/-! ### The theorems -/

/-- A build is of the project as it was just after the save that asked for it: nothing that happens
between the save and the start of the build changes what is built. -/
theorem C54_builds_saved_text (ops : Ops S T C R) (proj : S) (cache : C) (s : State S T C R)
    (hr : Runs ops (.start proj cache) s) (i e r : Nat) (v : S) (targets : T) (token : Nat)
    (hp : s.tasks[i]? = some (.building e r v targets token)) :
    ∃ (b : State S T C R) (path : Path) (text : String) (version : Int),
      Runs ops (.start proj cache) b ∧ Runs ops b s ∧
      b.tasks[i]? = some (.saveMutate path text version) ∧ b.epoch + 1 = e ∧
      ops.reload (ops.update b.proj path text version) path = (v, some targets) := by
  obtain ⟨b, path, text, version, h1, h2, h3, h4⟩ := origin_runs (inv_start proj cache)
    (fun p hp => by simp [State.start] at hp) hr i _ hp (fun k => by cases k)
  exact ⟨b, path, text, version, h1, h2, h3, h4.1.symm, h4.2⟩

/-- The build cache is only changed to record a result of the builder for exactly the project that the
server has at that time, which is the one just after a save and its reload. -/
theorem C54_cache_is_current (ops : Ops S T C R) (proj : S) (cache : C) (s t : State S T C R)
    (hr : Runs ops (.start proj cache) s) (a : Act R) (ha : s.act ops a = some t)
    (hc : t.cache ≠ s.cache) :
    ∃ (i : Nat) (x : R), a = .run i ∧ t.cache = ops.record s.cache x ∧ t.proj = s.proj ∧
      (∃ (b : State S T C R) (e r : Nat) (targets : T) (token : Nat),
        Runs ops (.start proj cache) b ∧
        b.tasks[i]? = some (.building e r s.proj targets token) ∧
        ∃ b', b.act ops (.endBuild i (some x)) = some b' ∧ Runs ops b' s) ∧
      ∃ (b : State S T C R) (path : Path) (text : String) (version : Int),
        Runs ops (.start proj cache) b ∧ Runs ops b s ∧
        b.tasks[i]? = some (.saveMutate path text version) ∧
        s.proj = (ops.reload (ops.update b.proj path text version) path).1 := by
  have hinv : Inv s := inv_runs (inv_start proj cache) hr
  cases a with
  | save path text version => cases ha; exact absurd rfl hc
  | close path => cases ha; exact absurd rfl hc
  | event i ev =>
    simp only [State.act] at ha
    split at ha
    · cases ha; exact absurd rfl hc
    · cases ha
  | endBuild i x =>
    simp only [State.act] at ha
    split at ha
    · cases ha; exact absurd rfl hc
    · cases ha
  | run i =>
    simp only [State.act] at ha
    cases hp : s.tasks[i]? with
    | none => rw [hp] at ha; cases ha
    | some p =>
      rw [hp] at ha
      simp only [Option.bind_some] at ha
      cases p with
      | cacheMutate r v result =>
        simp only [State.step] at ha
        split at ha
        · cases ha; exact absurd rfl hc
        · rename_i he
          have he := Classical.not_not.1 he
          cases ha
          cases result with
          | none => exact absurd rfl hc
          | some x =>
            have hv : v = s.proj := (hinv.task i _ hp).snap v rfl (by rw [he]; rfl)
            subst hv
            obtain ⟨b, e, r', targets, token, h1, h2, h3⟩ := built_runs
              (fun p hp => by simp [State.start] at hp) hr i _ hp s.proj (some x) rfl
            obtain ⟨b2, path, text, version, k1, k2, k3, k4⟩ := origin_runs (inv_start proj cache)
              (fun p hp => by simp [State.start] at hp) hr i _ hp (fun k => by cases k)
            refine ⟨i, x, rfl, rfl, rfl, ⟨b, e, r', targets, token, h1, h2, _, ?_, h3⟩,
              b2, path, text, version, k1, k2, k3, k4⟩
            simp only [State.act]
            rw [h2]
      | _ =>
        simp only [State.step] at ha
        (try split at ha) <;>
        first
        | (cases ha; done)
        | (cases ha; exact absurd rfl hc)

/-- What the editor is told changes in two ways only: a save announces a newer build, or the one task
that works for the announced build goes on. -/
theorem C54_one_build_shown (ops : Ops S T C R) (proj : S) (cache : C) (s t : State S T C R)
    (hr : Runs ops (.start proj cache) s) (a : Act R) (ha : s.act ops a = some t)
    (hc : t.info ≠ s.info ∨ t.published ≠ s.published) :
    (∃ i path e, a = .run i ∧ s.tasks[i]? = some (.saveQueue path e) ∧ t.info = .queued e ∧
      t.published = s.published ∧ ∀ g, s.info.generation = some g → g < e) ∨
    ∃ i p g, a.task = some i ∧ s.tasks[i]? = some p ∧ p.saved = some g ∧
      s.info.generation = some g ∧ t.info.generation = some g ∧
      ∀ (j : Nat) q, s.tasks[j]? = some q → q.saved = some g → j = i := by
  have h : Inv s := inv_runs (inv_start proj cache) hr
  have only : ∀ (i : Nat) p g, s.tasks[i]? = some p → p.saved = some g →
      ∀ (j : Nat) q, s.tasks[j]? = some q → q.saved = some g → j = i := by
    intro i p g hp hs j q hq hs'
    apply Classical.byContradiction
    intro hji
    exact (h.differ i j p q hp hq (Ne.symm hji)).saved g hs hs'
  rcases act_info ops ha with ⟨k1, k2⟩ | ⟨i, path, e, rfl, hp, k1, k2⟩ |
    ⟨i, e, r, v, targets, token, info, ps, rfl, hp, hrs, k, _⟩ | ⟨i, p, e, rfl, hp, hf, k1, k2⟩ |
    ⟨i, e, r, v, targets, token, ev, rfl, hp, k1, k2, _⟩
  · rcases hc with hc | hc
    · exact absurd k1 hc
    · exact absurd k2 hc
  · exact .inl ⟨i, path, e, rfl, hp, k1, k2, fun g hg => (h.task i _ hp).wait e rfl rfl g hg⟩
  · obtain ⟨m1, m2, _⟩ := reset_some hrs
    exact .inr ⟨i, _, e, rfl, hp, rfl, m1, by rw [k, m2], only i _ e hp rfl⟩
  · right
    have hg : s.info.generation = some e := by
      apply Classical.byContradiction
      intro hne
      have : s.info.finish e = s.info := by unfold Info.finish; rw [if_pos hne]
      rcases hc with hc | hc
      · exact hc (k1.trans this)
      · exact hc k2
    have hs : p.saved = some e := by
      cases p <;> first | (cases hf; done) | exact hf
    exact ⟨i, p, e, rfl, hp, hs, hg, by rw [k1, finish_generation, hg], only i p e hp hs⟩
  · right
    have hg : s.info.generation = some e := by
      apply Classical.byContradiction
      intro hne
      have : s.info.handleEvent e ev = (s.info, []) := by unfold Info.handleEvent; rw [if_pos hne]
      rw [this] at k1 k2
      rcases hc with hc | hc
      · exact hc k1
      · exact hc k2
    exact ⟨i, _, e, rfl, hp, rfl, hg, by rw [k1, (handleEvent_keeps _ _ _).1, hg],
      only i _ e hp rfl⟩

/-- The announced build is the newest: no background task works for a newer save that has been
announced, and no two tasks work for the same save.  The announced build is never replaced by an older
one. -/
theorem C54_newest_shown (ops : Ops S T C R) (proj : S) (cache : C) (s : State S T C R)
    (hr : Runs ops (.start proj cache) s) :
    (∀ (i : Nat) p e, s.tasks[i]? = some p → p.saved = some e →
      if p.isQueueing then ∀ g, s.info.generation = some g → g < e
      else ∃ g, s.info.generation = some g ∧ e ≤ g) ∧
    (∀ (i j : Nat) p q e, s.tasks[i]? = some p → s.tasks[j]? = some q → p.saved = some e →
      q.saved = some e → i = j) ∧
    ∀ a t g, s.act ops a = some t → s.info.generation = some g →
      ∃ g', t.info.generation = some g' ∧ g ≤ g' := by
  have h : Inv s := inv_runs (inv_start proj cache) hr
  refine ⟨fun i p e hp hs => ?_, fun i j p q e hp hq hs hs' => ?_,
    fun a t g ha hg => act_generation ops h ha g hg⟩
  · split
    · rename_i hq
      exact (h.task i p hp).wait e hs hq
    · rename_i hq
      exact (h.task i p hp).gen e hs (by simpa using hq)
  · apply Classical.byContradiction
    intro hij
    exact (h.differ i j p q hp hq hij).saved e hs hs'

/-- While no newer build is announced, the editor shows for an open file exactly the errors that the
builder has reported for it since the start of the build, in order, with the version that is built,
whatever else happens. -/
theorem C54_shows_reported (ops : Ops S T C R) (proj : S) (cache : C) (s s1 t : State S T C R)
    (hr : Runs ops (.start proj cache) s) (i e r : Nat) (v : S) (targets : T) (token : Nat)
    (hp : s.tasks[i]? = some (.reset e r v targets token)) (h1 : s.act ops (.run i) = some s1)
    (hb : s1.tasks[i]? = some (.building e r v targets token)) (as : List (Act R))
    (ht : RunsBy ops s1 as t) (hg : t.info.generation = some e)
    (id : Nat) (hid : ∀ ev ∈ sent i as, ev.buildId = id)
    (hn : ((ops.openUrls v).map (·.1)).Nodup) (url : Url) (version : Int)
    (hu : (url, version) ∈ ops.openUrls v) :
    shown t.published url = some (reported (sent i as) url, some version) := by
  have h : Inv s := inv_runs (inv_start proj cache) hr
  have hs1 : Inv s1 := inv_act ops h h1
  have hl := lastOpen_of_mem hn hu
  simp only [State.act] at h1
  rw [hp] at h1
  simp only [Option.bind_some, State.step] at h1
  split at h1
  · cases h1
    have : (s.tasks.set i .skipped)[i]? = some (.building e r v targets token) := hb
    rw [List.getElem?_set_self', hp] at this
    cases this
  · rename_i info ps hrs
    cases h1
    obtain ⟨k1, k2⟩ := reset_shown hrs s.published hl
    obtain ⟨m1, m2, m3⟩ := reset_some hrs
    obtain ⟨e1, e2⟩ := reset_eq hrs
    obtain ⟨q, hq, _, k | ⟨_, _, _, d, _, d2, d3, d4⟩⟩ := shows_build hs1 ht hb rfl rfl m2
      (show info.id = none by rw [e1]; rfl) k2 k1 hid
    · obtain ⟨g, hg1, hg2⟩ := k
      rw [hg] at hg1
      cases hg1
      omega
    · rw [d4, d2, d3]

/-- Once the announced build is marked as finished, what the editor is told stays as it is until a save
announces a newer build. -/
theorem C54_finished (ops : Ops S T C R) (proj : S) (cache : C) (s t : State S T C R)
    (hr : Runs ops (.start proj cache) s) (hf : s.info.finished = true) (a : Act R)
    (ha : s.act ops a = some t) :
    (t.info = s.info ∧ t.published = s.published) ∨
    ∃ i path e, a = .run i ∧ s.tasks[i]? = some (.saveQueue path e) ∧ t.info = .queued e ∧
      t.published = s.published ∧ ∀ g, s.info.generation = some g → g < e := by
  have h : Inv s := inv_runs (inv_start proj cache) hr
  by_cases hc : t.info ≠ s.info ∨ t.published ≠ s.published
  · rcases C54_one_build_shown ops proj cache s t hr a ha hc with k | ⟨i, p, g, _, hp, hs, hg, _⟩
    · exact .inr k
    · exact absurd hs ((h.task i p hp).fin hf g hg)
  · refine .inl ⟨?_, ?_⟩
    · exact Classical.byContradiction fun k => hc (.inl k)
    · exact Classical.byContradiction fun k => hc (.inr k)

/-- When the server says that it is not building, no background task that is left changes the project,
the build cache or the flag. -/
theorem C54_not_building (ops : Ops S T C R) (proj : S) (cache : C) (s t : State S T C R)
    (hr : Runs ops (.start proj cache) s) (hf : s.isBuilding = false) (a : Act R)
    (ha : s.act ops a = some t)
    (he : ∀ j q, a = .run j → s.tasks[j]? = some q → q.edits = false) :
    t.proj = s.proj ∧ t.cache = s.cache ∧ t.epoch = s.epoch ∧ t.isBuilding = false := by
  have h : Inv s := inv_runs (inv_start proj cache) hr
  cases a with
  | save path text version => cases ha; exact ⟨rfl, rfl, rfl, hf⟩
  | close path => cases ha; exact ⟨rfl, rfl, rfl, hf⟩
  | event i ev =>
    simp only [State.act] at ha
    split at ha
    · cases ha; exact ⟨rfl, rfl, rfl, hf⟩
    · cases ha
  | endBuild i x =>
    simp only [State.act] at ha
    split at ha
    · cases ha; exact ⟨rfl, rfl, rfl, hf⟩
    · cases ha
  | run i =>
    simp only [State.act] at ha
    cases hp : s.tasks[i]? with
    | none => rw [hp] at ha; cases ha
    | some p =>
      rw [hp] at ha
      obtain ⟨k1, k2, k3, k4, _⟩ := step_other ops ((h.task i p hp).flag hf) (he i p rfl hp) ha
      exact ⟨k2, k3, k1, k4.trans hf⟩

/-- The task of the newest build is never given up as long as no file is saved or closed: whatever else
happens it remains the one that may go on, until it is done. -/
theorem C54_newest_not_skipped (ops : Ops S T C R) (proj : S) (cache : C) (s t : State S T C R)
    (hr : Runs ops (.start proj cache) s) (i : Nat) (p : Phase S T R)
    (hp : s.tasks[i]? = some p) (hp' : p.awaits = some s.epoch) (a : Act R)
    (ha : s.act ops a = some t)
    (he : ∀ j q, a = .run j → s.tasks[j]? = some q → q.edits = false) :
    ∃ q, t.tasks[i]? = some q ∧ (q.awaits = some t.epoch ∨ q = .done) :=
  newest_kept ops (inv_runs (inv_start proj cache) hr) hp hp' ha he

/-- The newest build can always come to its end. -/
theorem C54_newest_finishes (ops : Ops S T C R) (proj : S) (cache : C) (s : State S T C R)
    (hr : Runs ops (.start proj cache) s) (i : Nat) (p : Phase S T R)
    (hp : s.tasks[i]? = some p) (hp' : p.awaits = some s.epoch) :
    ∃ t, Runs ops s t ∧ t.tasks[i]? = some .done :=
  newest_finishes ops _ (inv_runs (inv_start proj cache) hr) hp hp' (Nat.le_refl _)

/-- When the newest build comes to its end, it is the announced build, it is marked as finished, the
server says that it is not building, and the result, if there is one, has been recorded. -/
theorem C54_end_of_build (ops : Ops S T C R) (proj : S) (cache : C) (s t : State S T C R)
    (hr : Runs ops (.start proj cache) s) (i : Nat) (p : Phase S T R)
    (hp : s.tasks[i]? = some p) (hp' : p.awaits = some s.epoch) (ha : s.act ops (.run i) = some t)
    (hd : t.tasks[i]? = some .done) :
    t.isBuilding = false ∧ t.info.finished = true ∧ t.info.generation = some (s.epoch - 1) ∧
    t.proj = s.proj ∧
    (∀ (b b' : State S T C R) (x : R), b.act ops (.endBuild i (some x)) = some b' →
      Runs ops b' s → t.cache = ops.record s.cache x) ∧
    ∀ (j : Nat) q, t.tasks[j]? = some q → q.awaits ≠ some t.epoch := by
  have h : Inv s := inv_runs (inv_start proj cache) hr
  have h' : Inv t := inv_act ops h ha
  have hst : s.step ops i p = some t := by
    simp only [State.act] at ha
    rw [hp] at ha
    exact ha
  obtain ⟨k1, k2, k3, k4, k5, k6⟩ := done_step ops hp hp' hst hd
  obtain ⟨g, hg, hle, hf⟩ := marked_runs (inv_start proj cache) (marked_start proj cache) hr i p _ hp k1
  have hg1 := h.genLe g hg
  have hg2 : g ≠ s.epoch := by
    intro k
    refine (h.task i p hp).other s.epoch ?_ (k ▸ hg)
    cases p <;> first | (cases k1; done) | exact k1
  have hge : g + 1 = s.epoch := by omega
  refine ⟨k2, by rw [k3]; exact hf hge, by rw [k3, hg]; congr 1; omega, k4, ?_,
    fun j q hq => (h'.task j q hq).flag k2⟩
  intro b b' x hb hbs
  simp only [State.act] at hb
  split at hb
  · rename_i e r v targets token hbp
    cases hb
    have hfin : (b.goto i (.finishing e r v (some x))).tasks[i]? =
        some (.finishing e r v (some x)) := by
      show (b.tasks.set i _)[i]? = _
      rw [List.getElem?_set_self', hbp]
      rfl
    obtain ⟨q, hq, hy⟩ := brings_runs hbs hfin (y := (v, some x)) rfl
    rw [hp] at hq
    cases hq
    rcases hy with hy | hy
    · exact k6 v x hy
    · cases p <;> first | (cases hy; done) | (cases hp'; done)
  · cases hb

end

/-! ### Cases that meet the hypotheses -/

open ServDemo in
/-- A build is under way (`C54_builds_saved_text`), and its task is the one that may go on
(`C54_newest_not_skipped`, `C54_newest_finishes`). -/
example : ∃ s : St, Runs ops start s ∧
    s.tasks[0]? = some (.building 1 2 [("a", "text", 1)] () 2) ∧ s.epoch = 2 := by
  obtain ⟨s, hs, h⟩ := any_run (as := upToBuild 0 "text" 1) (s := start)
    (f := fun (s : St) => isBuild s 0 1 2 [("a", "text", 1)] 2 && decide (s.epoch = 2))
    (by decide +kernel)
  simp only [Bool.and_eq_true, decide_eq_true_eq] at h
  exact ⟨s, hs.runs, isBuild_get h.1, h.2⟩

open ServDemo in
/-- The cache is written (`C54_cache_is_current`), and then the server is finished and not building
(`C54_finished`, `C54_not_building`). -/
example : ∃ s t : St, Runs ops start s ∧ RunsBy ops s [.run 0] t ∧ s.cache = [] ∧ t.cache = ["r"] ∧
    t.info.finished = true ∧ t.isBuilding = false := by
  obtain ⟨s, hs, h⟩ := any_run (as := upToBuild 0 "text" 1 ++ ([.endBuild 0 (some "r")] : List Ac) ++
      steps 0 3) (s := start)
    (f := fun (s : St) => decide (s.cache = []) && (runAll s [.run 0]).any fun (t : St) =>
      decide (t.cache = ["r"]) && t.info.finished && !t.isBuilding)
    (by decide +kernel)
  obtain ⟨h1, h2⟩ := Bool.and_eq_true_iff.1 h
  obtain ⟨t, ht, k⟩ := any_run h2
  simp only [Bool.and_eq_true, decide_eq_true_eq, Bool.not_eq_true'] at h1 k
  exact ⟨s, t, hs.runs, ht, h1, k.1.1, k.1.2, k.2⟩

open ServDemo in
/-- Events of the build change what is published (`C54_one_build_shown`) and what is shown
(`C54_shows_reported`), while another save is already under way. -/
example : ∃ s s1 t : St, Runs ops start s ∧ s.act ops (.run 0) = some s1 ∧
    s1.tasks[0]? = some (.building 1 2 [("a", "text", 1)] () 2) ∧
    RunsBy ops s1 [.event 0 (error "a" 7 3), .save "a" "new" 2, .event 0 (error "b" 7 4), .run 1,
      .run 1, .run 1, .event 0 (error "a" 7 5)] t ∧ t.info.generation = some 1 ∧
    shown t.published "a" = some ([⟨3, 3, "could not be proved"⟩, ⟨5, 5, "could not be proved"⟩],
      some 1) := by
  obtain ⟨s, hs, h⟩ := any_run (as := .save "a" "text" 1 :: steps 0 8) (s := start)
    (f := fun (s : St) => (runAll s [.run 0]).any fun (s1 : St) =>
      isBuild s1 0 1 2 [("a", "text", 1)] 2 &&
      (runAll s1 [.event 0 (error "a" 7 3), .save "a" "new" 2, .event 0 (error "b" 7 4), .run 1,
        .run 1, .run 1, .event 0 (error "a" 7 5)]).any fun (t : St) =>
        decide (t.info.generation = some 1) &&
        decide (shown t.published "a" = some ([(⟨3, 3, "could not be proved"⟩ : Diagnostic),
          ⟨5, 5, "could not be proved"⟩], some 1)))
    (by decide +kernel)
  cases hr : s.act ops (.run 0) with
  | none => simp [runAll, hr] at h
  | some s1 =>
    rw [show runAll s [.run 0] = some s1 by simp [runAll, hr], Option.any_some] at h
    obtain ⟨h1, h2⟩ := Bool.and_eq_true_iff.1 h
    obtain ⟨t, ht, k⟩ := any_run h2
    simp only [Bool.and_eq_true, decide_eq_true_eq] at k
    exact ⟨s, s1, t, hs.runs, hr, isBuild_get h1, ht, k.1, k.2⟩

/-! ### Verified lines -/

/-- A document after any verified ranges and errors, in any order. -/
inductive DocReached : DocInfo → Prop where
  | new (v : Option Int) : DocReached (.new v)
  | verify {d : DocInfo} (first last : Nat) : DocReached d → DocReached (d.verify first last)
  | add {d : DocInfo} (x : Diagnostic) : DocReached d → DocReached (d.addDiagnostic x)

/-- The verified ranges of a document are in order, no two start at the same line, and one that is
added does not overlap with the last error. -/
theorem C54_verified_ranges (d : DocInfo) (h : DocReached d) :
    d.verified.Pairwise (fun a b => a.1 < b.1) ∧
    ∀ first last, (first, last) ∈ (d.verify first last).verified →
      (first, last) ∈ d.verified ∨
      ∀ x, d.diagnostics.getLast? = some x → x.last < first ∨ last < x.first := by
  constructor
  · induction h with
    | new v => exact .nil
    | add x _ ih => exact ih
    | @verify d first last _ ih =>
      unfold DocInfo.verify
      split
      · exact ih
      · show (popFrom first d.verified ++ [(first, last)]).Pairwise _
        have key : ∀ l : List (Nat × Nat), l.Pairwise (fun a b => b.1 < a.1) →
            (l.dropWhile fun r => first ≤ r.1).Pairwise (fun a b => b.1 < a.1) ∧
            ∀ x ∈ l.dropWhile fun r => first ≤ r.1, x.1 < first := by
          intro l
          induction l with
          | nil => intro _; exact ⟨.nil, fun x hx => by cases hx⟩
          | cons y l ihl =>
            intro hl
            rw [List.dropWhile_cons]
            obtain ⟨h1, h2⟩ := List.pairwise_cons.1 hl
            split
            · exact ihl h2
            · rename_i hy
              have hy : y.1 < first := by simpa using hy
              refine ⟨hl, fun x hx => ?_⟩
              rcases List.mem_cons.1 hx with rfl | hx
              · exact hy
              · exact Nat.lt_trans (h1 x hx) hy
        obtain ⟨k1, k2⟩ := key d.verified.reverse (List.pairwise_reverse.2 ih)
        rw [List.pairwise_append]
        refine ⟨List.pairwise_reverse.2 k1, List.pairwise_singleton _ _, fun a ha b hb => ?_⟩
        rw [List.mem_singleton.1 hb]
        exact k2 a (List.mem_reverse.1 ha)
  · intro first last hm
    unfold DocInfo.verify at hm
    split at hm
    · exact .inl hm
    · rename_i hb
      right
      intro x hx
      have : d.blocked first last = (decide (x.last ≥ first) && decide (x.first ≤ last)) := by
        unfold DocInfo.blocked
        rw [hx]
      rw [this] at hb
      by_cases h1 : x.last < first
      · exact .inl h1
      · by_cases h2 : last < x.first
        · exact .inr h2
        · exfalso
          apply hb
          simp only [Bool.and_eq_true, decide_eq_true_eq]
          omega

example : ((((DocInfo.new (some 1)).verify 0 2).verify 4 6).addDiagnostic ⟨8, 9, "e"⟩ |>.verify 3 7
    |>.verify 8 8).verified = [(0, 2), (3, 7)] := by decide +kernel

/-! ### Disagreements -/

open ServDemo in
/-- An error in a file that is not open is never taken back: the first build reports an error for `b`,
the second build, which is of a newer text, ends with no error in any file, and the editor still shows
the error of the first build. -/
theorem C54_disagreement_stale_diagnostics :
    ∃ (s t : St) (as : List Ac), Runs ops start s ∧ RunsBy ops s as t ∧
      s.info.finished = true ∧ (∀ p ∈ s.tasks, p.ended = true) ∧
      t.info.finished = true ∧ t.info.generation = some 4 ∧ t.isBuilding = false ∧
      (∀ p ∈ t.tasks, p.ended = true) ∧ sent 1 as = [] ∧
      shown t.published "b" = some ([⟨3, 3, "could not be proved"⟩], none) := by
  obtain ⟨s, hs, h⟩ := any_run (as := upToBuild 0 "old" 1 ++
      ([.event 0 (error "b" 7 3), .endBuild 0 (some "r1")] : List Ac) ++ steps 0 4) (s := start)
    (f := fun (s : St) => (s.info.finished && s.tasks.all (·.ended)) &&
      (runAll s (upToBuild 1 "new" 2 ++ ([.endBuild 1 (some "r2")] : List Ac) ++ steps 1 4)).any fun (t : St) =>
        t.info.finished && decide (t.info.generation = some 4) && !t.isBuilding &&
        t.tasks.all (·.ended) &&
        decide (shown t.published "b" = some ([(⟨3, 3, "could not be proved"⟩ : Diagnostic)], none)))
    (by decide +kernel)
  obtain ⟨h1, h2⟩ := Bool.and_eq_true_iff.1 h
  obtain ⟨t, ht, k⟩ := any_run h2
  simp only [Bool.and_eq_true, decide_eq_true_eq, List.all_eq_true, Bool.not_eq_true'] at h1 k
  obtain ⟨⟨⟨⟨k1, k2⟩, k3⟩, k4⟩, k5⟩ := k
  exact ⟨s, t, _, hs.runs, ht, h1.1, h1.2, k1, k2, k3, k4, rfl, k5⟩

open ServDemo in
/-- Closing a file during a build stops it for good: the build of `a` is under way when another file is
closed.  In the end no task is left, the server says that it is building, the result is not recorded,
and to save `a` again without a change does not help. -/
theorem C54_disagreement_close_stops_build :
    ∃ (s t u : St), Runs ops start s ∧
      s.tasks[0]? = some (.building 1 2 [("a", "text", 1)] () 2) ∧ 2 ∉ s.cancelled ∧
      RunsBy ops s ([.close "b"] ++ steps 1 2 ++ [.endBuild 0 (some "r")] ++ steps 0 2) t ∧
      2 ∈ t.cancelled ∧ (∀ p ∈ t.tasks, p.ended = true) ∧ t.isBuilding = true ∧ t.cache = [] ∧
      t.proj = [("a", "text", 1)] ∧
      RunsBy ops t [.save "a" "text" 1, .run 2] u ∧ (∀ p ∈ u.tasks, p.ended = true) ∧
      u.isBuilding = true ∧ u.cache = [] := by
  obtain ⟨s, hs, h⟩ := any_run (as := upToBuild 0 "text" 1) (s := start)
    (f := fun (s : St) => (isBuild s 0 1 2 [("a", "text", 1)] 2 && decide (2 ∉ s.cancelled)) &&
      (runAll s ([.close "b"] ++ steps 1 2 ++ [.endBuild 0 (some "r")] ++ steps 0 2)).any fun (t : St) =>
        (decide (2 ∈ t.cancelled) && t.tasks.all (·.ended) && t.isBuilding &&
          decide (t.cache = []) && decide (t.proj = [("a", "text", 1)])) &&
        (runAll t [.save "a" "text" 1, .run 2]).any fun (u : St) =>
          u.tasks.all (·.ended) && u.isBuilding && decide (u.cache = []))
    (by decide +kernel)
  obtain ⟨h1, h2⟩ := Bool.and_eq_true_iff.1 h
  obtain ⟨t, ht, k⟩ := any_run h2
  obtain ⟨k1, k2⟩ := Bool.and_eq_true_iff.1 k
  obtain ⟨u, hu, l⟩ := any_run k2
  simp only [Bool.and_eq_true, decide_eq_true_eq, List.all_eq_true] at h1 k1 l
  obtain ⟨⟨⟨⟨a1, a2⟩, a3⟩, a4⟩, a5⟩ := k1
  exact ⟨s, t, u, hs.runs, isBuild_get h1.1, h1.2, ht, a1, a2, a3, a4, a5, hu, l.1.1, l.1.2, l.2⟩

open ServDemo in
/-- A task of an older build can cancel the newest build: it looks at the epoch, finds it unchanged, and
only then cancels whatever build is current.  Nothing has been saved or closed since the cancelled build
began. -/
theorem C54_disagreement_stale_cancel :
    ∃ (s t : St), Runs ops start s ∧
      s.tasks[1]? = some (.building 3 4 [("a", "new", 2)] () 4) ∧ s.epoch = 4 ∧ 4 ∉ s.cancelled ∧
      RunsBy ops s [.run 0] t ∧
      t.tasks[1]? = some (.building 3 4 [("a", "new", 2)] () 4) ∧ t.epoch = 4 ∧ 4 ∈ t.cancelled := by
  obtain ⟨s, hs, h⟩ := any_run (as := upToBuild 0 "old" 1 ++ [.endBuild 0 (some "r")] ++ steps 0 2 ++
      upToBuild 1 "new" 2) (s := start)
    (f := fun (s : St) => (isBuild s 1 3 4 [("a", "new", 2)] 4 && decide (s.epoch = 4) &&
        decide (4 ∉ s.cancelled)) &&
      (runAll s [.run 0]).any fun (t : St) => isBuild t 1 3 4 [("a", "new", 2)] 4 &&
        decide (t.epoch = 4) && decide (4 ∈ t.cancelled))
    (by decide +kernel)
  obtain ⟨h1, h2⟩ := Bool.and_eq_true_iff.1 h
  obtain ⟨t, ht, k⟩ := any_run h2
  simp only [Bool.and_eq_true, decide_eq_true_eq] at h1 k
  exact ⟨s, t, hs.runs, isBuild_get h1.1.1, h1.1.2, h1.2, ht, isBuild_get k.1.1, k.1.2, k.2⟩

open ServDemo in
/-- A build that is out of date can go on without being cancelled: a save cancels the current token
before it has the lock of the project, and a reload that comes in between makes a new token.  The save
itself has been made, and no task is left that will cancel the old build. -/
theorem C54_disagreement_not_cancelled :
    ∃ (s t : St), Runs ops start s ∧ Runs ops s t ∧
      s.tasks[0]? = some (.building 1 2 [("a", "old", 1)] () 2) ∧
      t.tasks[0]? = some (.building 1 2 [("a", "old", 1)] () 2) ∧
      t.tasks[1]? = some .done ∧ t.tasks.length = 2 ∧ t.proj = [("a", "new", 2)] ∧
      t.isBuilding = false ∧ 2 ∉ t.cancelled := by
  obtain ⟨s, hs, h⟩ := any_run (as := [.save "a" "old" 1] ++ steps 0 6 ++
      [.save "a" "new" 2] ++ steps 1 2 ++ steps 0 3) (s := start)
    (f := fun (s : St) => isBuild s 0 1 2 [("a", "old", 1)] 2 &&
      (runAll s (steps 1 7 ++ [.endBuild 1 (some "r")] ++ steps 1 4)).any fun (t : St) =>
        isBuild t 0 1 2 [("a", "old", 1)] 2 && isDone t 1 && decide (t.tasks.length = 2) &&
        decide (t.proj = [("a", "new", 2)]) && !t.isBuilding && decide (2 ∉ t.cancelled))
    (by decide +kernel)
  obtain ⟨h1, h2⟩ := Bool.and_eq_true_iff.1 h
  obtain ⟨t, ht, k⟩ := any_run h2
  simp only [Bool.and_eq_true, decide_eq_true_eq, Bool.not_eq_true'] at k
  obtain ⟨⟨⟨⟨⟨k1, k2⟩, k3⟩, k4⟩, k5⟩, k6⟩ := k
  exact ⟨s, t, hs.runs, ht.runs, isBuild_get h1, isBuild_get k1, isDone_get k2, k3, k4, k5, k6⟩

end Acorn
