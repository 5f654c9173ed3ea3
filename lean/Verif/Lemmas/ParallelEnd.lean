import Verif.Lemmas.ParallelRun
import Verif.Lemmas.ProjectResult
/-
Where the runs of the parallel loader lead.
-/
namespace Acorn.Proj

variable {E I σ : Type}

theorem nodup_range_lt {l : List Nat} {n : Nat} (hn : l.Nodup) (hb : ∀ i ∈ l, i < n) :
    l.length ≤ n := by
  induction n generalizing l with
  | zero =>
    cases l with
    | nil => simp
    | cons a l => exact absurd (hb a (.head _)) (Nat.not_lt_zero _)
  | succ n ih =>
    have := ih (l := l.erase n) (hn.erase n) (fun i hi => by
      have h := (hn.mem_erase_iff.1 hi)
      have := hb i h.2
      omega)
    have h2 := List.length_erase (a := n) (l := l)
    split at h2 <;> omega

/-- When no job can go on, every job that is not done waits for a circle. -/
theorem Good.stuck_circular {El : Elaborator E I σ} {files : Files I} {V : Mod → Option E}
    {L : Loader E I} {done : List Nat} (g : Good El files V L done) (hr : L.ready = [])
    (ha : L.active = []) {i : Nat} {job : Job I} (hi : L.jobs[i]? = some job) (hd : i ∉ done) :
    Circular files job.mod := by
  apply Classical.byContradiction
  intro hc
  have acc := acc_of_not_circular hc
  generalize hm : job.mod = m at acc hc
  induction acc generalizing i job with
  | intro m _ ih =>
    subst hm
    have hp : pending L.jobs done job ≠ 0 := by
      intro h
      have := (g.zero i job hi).1 h
      rw [hr, ha] at this
      simp at this
      exact hd this
    unfold pending at hp
    rw [Ne, List.length_eq_zero_iff] at hp
    obtain ⟨d, ds, e⟩ := List.exists_cons_of_ne_nil hp
    have hmem : d ∈ job.deps.filter (pendingDep L.jobs done) := by rw [e]; exact .head _
    obtain ⟨h1, h2⟩ := List.mem_filter.1 hmem
    unfold pendingDep at h2
    split at h2
    · rename_i k hk
      obtain ⟨b, hb, e⟩ := jobOf_some hk
      have hn : Needs files d job.mod := (g.needs job (List.mem_of_getElem? hi) d h1).2.1
      exact ih d (.direct hn) hb (by simpa using h2) e (fun h => hc (h.of_below (.direct hn)))
    · cases h2

/-- What starting the loader gives. -/
theorem new_spec {El : Elaborator E I σ} {files : Files I} {V : Mod → Option E}
    (hV : Result El files V) (hl : Local El files) (hpre : ¬ Circular files preludeMod)
    (prefer : Mod → Mod → Bool) {p : Table E} (hr : Ready files V p) (targets order : List Mod)
    (hn : (order.filter (· ∈ targets)).Nodup) (hc : Covered files p (order.filter (· ∈ targets)))
    (workers : Nat) :
    (∃ m ∈ order.filter (· ∈ targets), files.lookup m = none ∧
      Loader.new prefer files p targets order workers = .failed .notFound) ∨
    (∃ m ∈ order.filter (· ∈ targets), Circular files m ∧
      Loader.new prefer files p targets order workers = .failed .circular) ∨
    ∃ L, Loader.new prefer files p targets order workers = .started L ∧ Good El files V L [] ∧
      (∀ m ∈ order.filter (· ∈ targets), Finished L.table m ∨ ∃ j ∈ L.jobs, j.mod = m) ∧
      (∀ j ∈ L.jobs, j.mod ∈ order.filter (· ∈ targets)) ∧
      (∀ x, Finished p x → L.table.states x = p.states x) ∧
      (L.active.length = L.workers ∨ L.ready = []) := by
  obtain ⟨p1, p2⟩ := prepareAll_spec hV _ hn p hr.inv (fun m _ => hr.idle m)
  unfold Loader.new
  cases hp : prepareAll files p (order.filter (· ∈ targets)) with
  | mk q res =>
    cases res with
    | error e =>
      obtain ⟨rfl, m, hm, hf⟩ := p1 q e hp
      exact .inl ⟨m, hm, hf, rfl⟩
    | ok jobs =>
      have w := p2 q jobs hp
      have g := hr.good (El := El) hc w (min workers jobs.length)
      simp only
      by_cases hd : jobs ≠ [] ∧
          ((List.range jobs.length).filter fun i => (remainingOf jobs)[i]? = some 0) = []
      · rw [if_pos hd]
        right; left
        obtain ⟨j, js, e⟩ := List.exists_cons_of_ne_nil hd.1
        have hj : jobs[0]? = some j := by rw [e]; rfl
        refine ⟨j.mod, w.sub j (List.mem_of_getElem? hj), ?_, rfl⟩
        refine g.stuck_circular (L := ⟨q, jobs, [], remainingOf jobs,
          (List.range jobs.length).map (dependentsOf jobs),
          (List.range jobs.length).filter fun i => (remainingOf jobs)[i]? = some 0, [], 0,
          max (min workers jobs.length) 1⟩) hd.2 rfl hj (by simp)
      · rw [if_neg hd]
        right; right
        obtain ⟨L, e, g', h1, h2, _, h4⟩ := g.fill hV hl hpre prefer
          (max (min workers jobs.length) 1 - 0) (by simp)
        refine ⟨L, ?_, g', ?_, ?_, ?_, h4⟩
        · unfold Loader.enqueueAvailable
          simp only [List.length_nil, e]
        · rw [h1, h2]; exact w.known
        · rw [h1]; exact w.sub
        · rw [h2]; exact w.stays

/-- All that holds of a state that the loader reaches. -/
structure Reached (El : Elaborator E I σ) (files : Files I) (V : Mod → Option E) (p : Table E)
    (ms : List Mod) (L : Loader E I) : Prop where
  good : ∃ done, Good El files V L done
  known : ∀ m ∈ ms, Finished L.table m ∨ ∃ j ∈ L.jobs, j.mod = m
  sub : ∀ j ∈ L.jobs, j.mod ∈ ms
  stays : ∀ x, Finished p x → L.table.states x = p.states x
  busy : L.active.length = L.workers ∨ L.ready = []

theorem Reached.step {El : Elaborator E I σ} {files : Files I} {V : Mod → Option E}
    (hV : Result El files V) (hl : Local El files) (hpre : ¬ Circular files preludeMod)
    (prefer : Mod → Mod → Bool) {p : Table E} {ms : List Mod} {L : Loader E I}
    (r : Reached El files V p ms L) {k : Nat} (hk : k < L.active.length) :
    ∃ L', L.receive El prefer k = some L' ∧ Reached El files V p ms L' ∧ L'.jobs = L.jobs ∧
      L'.completed = L.completed + 1 ∧
      (∀ x, Finished L.table x → L'.table.states x = L.table.states x) := by
  obtain ⟨done, g⟩ := r.good
  have hget := List.getElem?_eq_getElem hk
  generalize L.active[k] = a at hget
  obtain ⟨i, q⟩ := a
  obtain ⟨L', e, g', h1, h2, h3⟩ := g.receive hV hl hpre prefer hget
  have fin : ∀ x, Finished L.table x → Finished L'.table x := by
    intro x hx
    unfold Finished
    rw [h2 x hx]
    exact hx
  refine ⟨L', e, ⟨⟨_, g'⟩, ?_, ?_, ?_, h3⟩, h1, ?_, h2⟩
  · intro m hm
    rw [h1]
    exact (r.known m hm).imp (fin m) id
  · rw [h1]; exact r.sub
  · intro x hx
    have := r.stays x hx
    rw [h2 x, this]
    unfold Finished
    rw [this]
    exact hx
  · rw [g'.count, g.count]; rfl

theorem Reached.of_reaches {El : Elaborator E I σ} {files : Files I} {V : Mod → Option E}
    (hV : Result El files V) (hl : Local El files) (hpre : ¬ Circular files preludeMod)
    (prefer : Mod → Mod → Bool) {p : Table E} {ms : List Mod} {L₀ L : Loader E I}
    (r : Reached El files V p ms L₀) (h : Reaches El prefer L₀ L) : Reached El files V p ms L := by
  induction h with
  | refl => exact r
  | @step L' L'' k _ _ e ih =>
    have hk : k < L'.active.length := by
      apply Classical.byContradiction
      intro hk
      rw [Loader.receive, List.getElem?_eq_none (Nat.le_of_not_lt hk)] at e
      cases e
    obtain ⟨L3, e3, r3, _⟩ := ih.step hV hl hpre prefer hk
    rw [e] at e3
    simp only [Option.some.injEq] at e3
    rw [e3]; exact r3

theorem Good.waiting {El : Elaborator E I σ} {files : Files I} {V : Mod → Option E}
    {L : Loader E I} {done : List Nat} (g : Good El files V L done)
    (hb : L.active.length = L.workers ∨ L.ready = []) (h : L.next = .waits) : L.active ≠ [] := by
  intro ha
  unfold Loader.next at h
  split at h
  · cases h
  · split at h
    · cases h
    · rename_i hn
      apply hn
      have hr : L.ready = [] := by
        rcases hb with hb | hb
        · have := g.worker; rw [ha] at hb; simp at hb; omega
        · exact hb
      simp [ha, hr]

/-- When all results are in, all jobs are done. -/
theorem Good.all_done {El : Elaborator E I σ} {files : Files I} {V : Mod → Option E}
    {L : Loader E I} {done : List Nat} (g : Good El files V L done)
    (h : L.next = .finished) : ∀ j ∈ L.jobs, Finished L.table j.mod := by
  have hlen : L.jobs.length ≤ done.length := by
    unfold Loader.next at h
    split at h
    · rename_i k; rw [g.count] at k; exact k
    · split at h <;> cases h
  have hnd : done.Nodup := (List.nodup_append.1 (List.nodup_append.1 g.order).2.1).2.1
  have hb : ∀ i ∈ done, i < L.jobs.length := fun i hi =>
    g.bound i (List.mem_append.2 (.inr (List.mem_append.2 (.inr hi))))
  intro j hj
  obtain ⟨i, hi⟩ := List.getElem?_of_mem hj
  have hmem : i ∈ done := by
    apply Classical.byContradiction
    intro hnot
    have := nodup_range_lt (l := i :: done) (n := L.jobs.length)
      (List.nodup_cons.2 ⟨hnot, hnd⟩) (fun x hx => by
        rcases List.mem_cons.1 hx with rfl | hx
        · exact (List.getElem?_eq_some_iff.1 hi).1
        · exact hb x hx)
    simp only [List.length_cons] at this
    omega
  exact g.over i hmem j hi

theorem Good.count_le {El : Elaborator E I σ} {files : Files I} {V : Mod → Option E}
    {L : Loader E I} {done : List Nat} (g : Good El files V L done) :
    L.completed ≤ L.jobs.length := by
  rw [g.count]
  exact nodup_range_lt (List.nodup_append.1 (List.nodup_append.1 g.order).2.1).2.1 (fun i hi =>
    g.bound i (List.mem_append.2 (.inr (List.mem_append.2 (.inr hi)))))

theorem reached_start {El : Elaborator E I σ} {P : Project E I} (hs : Settled El P)
    (hl : Local El P.files) (hpre : ¬ Circular P.files preludeMod) {V : Mod → Option E}
    (hV : Result El P.files V) {prefer : Mod → Mod → Bool} {targets order : List Mod}
    {workers : Nat} (hn : (order.filter (· ∈ targets)).Nodup)
    (hc : Covered P.files (P.table.register (P.disk.map (·.1))) (order.filter (· ∈ targets)))
    {L₀ L : Loader E I} (hnew : P.startParallel prefer targets order workers = .started L₀)
    (hr : Reaches El prefer L₀ L) :
    Reached El P.files V (P.table.register (P.disk.map (·.1))) (order.filter (· ∈ targets)) L := by
  obtain ⟨hi, hidle⟩ := hs V hV hl hpre
  have ready : Ready P.files V (P.table.register (P.disk.map (·.1))) :=
    ⟨hi.register _, fun x h => hidle x (((register_grows _ _).loading x).1 h)⟩
  rcases new_spec hV hl hpre prefer ready targets order hn hc workers with
    ⟨m, _, _, e⟩ | ⟨m, _, _, e⟩ | ⟨L', e, g, a, b, c, d⟩
  · rw [Project.startParallel, e] at hnew; cases hnew
  · rw [Project.startParallel, e] at hnew; cases hnew
  · rw [Project.startParallel, e] at hnew
    simp only [Started.started.injEq] at hnew
    subst hnew
    exact Reached.of_reaches hV hl hpre prefer ⟨⟨_, g⟩, a, b, c, d⟩ hr

end Acorn.Proj
