import Verif.Lemmas.ParallelPrepare
/-
The parallel loader at work.
-/
namespace Acorn.Proj

variable {E I σ : Type}

/-! ### Jobs and their numbers -/

theorem jobOf_some {jobs : List (Job I)} {d : Mod} {i : Nat} (h : jobOf jobs d = some i) :
    ∃ job, jobs[i]? = some job ∧ job.mod = d := by
  unfold jobOf at h
  rw [List.findIdx?_eq_some_iff_getElem] at h
  obtain ⟨hi, hd, _⟩ := h
  exact ⟨jobs[i], List.getElem?_eq_getElem hi, by simpa using hd⟩

theorem job_unique {jobs : List (Job I)} (hn : (jobs.map (·.mod)).Nodup) {i j : Nat} {a b : Job I}
    (hi : jobs[i]? = some a) (hj : jobs[j]? = some b) (e : a.mod = b.mod) : i = j := by
  have h1 : (jobs.map (·.mod))[i]? = some a.mod := by simp [hi]
  have h2 : (jobs.map (·.mod))[j]? = some a.mod := by simp [hj, e]
  obtain ⟨l1, _⟩ := List.getElem?_eq_some_iff.1 h1
  exact (List.getElem?_inj l1 hn).1 (h1.trans h2.symm)

theorem jobOf_eq {jobs : List (Job I)} (hn : (jobs.map (·.mod)).Nodup) {i : Nat} {a : Job I}
    (hi : jobs[i]? = some a) (d : Mod) : jobOf jobs d = some i ↔ d = a.mod := by
  constructor
  · intro h
    obtain ⟨b, hb, e⟩ := jobOf_some h
    rw [hi] at hb
    simp only [Option.some.injEq] at hb
    rw [hb, e]
  · rintro rfl
    cases h : jobOf jobs a.mod with
    | none =>
      unfold jobOf at h
      rw [List.findIdx?_eq_none_iff] at h
      have := h a (List.mem_of_getElem? hi)
      simp at this
    | some j =>
      obtain ⟨b, hb, e⟩ := jobOf_some h
      rw [job_unique hn hi hb e.symm]

/-- Whether a dependency is a job that is not done. -/
def pendingDep (jobs : List (Job I)) (done : List Nat) (d : Mod) : Bool :=
  match jobOf jobs d with
  | some j => decide (j ∉ done)
  | none => false

/-- How many dependencies a job still waits for. -/
def pending (jobs : List (Job I)) (done : List Nat) (job : Job I) : Nat :=
  (job.deps.filter (pendingDep jobs done)).length

theorem pending_nil (jobs : List (Job I)) (job : Job I) :
    pending jobs [] job = (job.deps.filter fun d => (jobOf jobs d).isSome).length := by
  unfold pending
  congr 1
  apply List.filter_congr
  intro d _
  unfold pendingDep
  cases jobOf jobs d <;> simp

theorem filter_split {p q : Mod → Bool} {a : Mod} {l : List Mod} (hl : l.Nodup) (hp : p a = true)
    (hq : ∀ x, q x = (p x && decide (x ≠ a))) :
    (l.filter p).length = (l.filter q).length + if a ∈ l then 1 else 0 := by
  induction l with
  | nil => simp
  | cons b l ih =>
    have hl' := List.nodup_cons.1 hl
    have := ih hl'.2
    by_cases e : b = a
    · subst e
      rw [List.filter_cons_of_pos hp, List.filter_cons_of_neg (by simp [hq])]
      rw [if_neg hl'.1] at this
      simp only [List.length_cons, List.mem_cons, true_or, if_true, this]
    · have e' : (if a ∈ b :: l then 1 else 0) = (if a ∈ l then 1 else 0) := by
        simp [Ne.symm e]
      rw [e']
      by_cases h : p b = true
      · rw [List.filter_cons_of_pos h, List.filter_cons_of_pos (by simp [hq, h, e])]
        simp only [List.length_cons, this]; omega
      · rw [List.filter_cons_of_neg h, List.filter_cons_of_neg (by simp [hq, h])]
        exact this

theorem pending_done {jobs : List (Job I)} (hn : (jobs.map (·.mod)).Nodup) {done : List Nat}
    {i : Nat} {a job : Job I} (hi : jobs[i]? = some a) (hd : i ∉ done) (hj : job.deps.Nodup) :
    pending jobs done job = pending jobs (i :: done) job + if a.mod ∈ job.deps then 1 else 0 := by
  unfold pending
  refine filter_split hj ?_ ?_
  · unfold pendingDep
    rw [(jobOf_eq hn hi a.mod).2 rfl]
    simpa using hd
  · intro x
    unfold pendingDep
    cases h : jobOf jobs x with
    | none => simp
    | some j =>
      by_cases e : x = a.mod
      · rw [(jobOf_eq hn hi x).2 e] at h
        simp only [Option.some.injEq] at h
        subst h
        simp [e]
      · have : j ≠ i := by
          rintro rfl
          exact e ((jobOf_eq hn hi x).1 h)
        simp [this, e]

theorem mem_dependentsOf {jobs : List (Job I)} (hn : (jobs.map (·.mod)).Nodup) {i : Nat}
    {a : Job I} (hi : jobs[i]? = some a) (j : Nat) :
    j ∈ dependentsOf jobs i ↔ ∃ b, jobs[j]? = some b ∧ a.mod ∈ b.deps := by
  unfold dependentsOf
  rw [List.mem_flatMap]
  constructor
  · rintro ⟨k, _, h⟩
    split at h
    · cases h
    · rename_i b hb
      obtain ⟨d, hd, rfl⟩ := List.mem_map.1 h
      rw [List.mem_filter, decide_eq_true_eq, jobOf_eq hn hi] at hd
      exact ⟨b, hb, hd.2 ▸ hd.1⟩
  · rintro ⟨b, hb, hd⟩
    refine ⟨j, ?_, ?_⟩
    · rw [List.mem_range]
      exact (List.getElem?_eq_some_iff.1 hb).1
    · rw [hb]
      refine List.mem_map.2 ⟨a.mod, ?_, rfl⟩
      rw [List.mem_filter, decide_eq_true_eq, jobOf_eq hn hi]
      exact ⟨hd, rfl⟩

theorem filter_eq_length {l : List Mod} (hl : l.Nodup) (a : Mod) :
    (l.filter fun d => d = a).length ≤ 1 := by
  induction l with
  | nil => simp
  | cons b l ih =>
    have hl' := List.nodup_cons.1 hl
    by_cases e : b = a
    · subst e
      rw [List.filter_cons_of_pos (by simp)]
      have : l.filter (fun d => d = b) = [] := by
        rw [List.filter_eq_nil_iff]
        intro x hx
        simp only [decide_eq_true_eq]
        rintro rfl
        exact hl'.1 hx
      rw [this]
      simp
    · rw [List.filter_cons_of_neg (by simpa using e)]
      exact ih hl'.2

theorem dependentsOf_nodup {jobs : List (Job I)} (hn : (jobs.map (·.mod)).Nodup) {i : Nat}
    {a : Job I} (hi : jobs[i]? = some a) (hj : ∀ j ∈ jobs, j.deps.Nodup) :
    (dependentsOf jobs i).Nodup := by
  unfold dependentsOf
  unfold List.Nodup
  rw [List.pairwise_flatMap]
  refine ⟨fun j _ => ?_, ?_⟩
  · split
    · simp
    · rename_i b hb
      have h1 := filter_eq_length (hj b (List.mem_of_getElem? hb)) a.mod
      have h2 : (b.deps.filter fun d => jobOf jobs d = some i) = b.deps.filter fun d => d = a.mod := by
        apply List.filter_congr
        intro d _
        simp only [jobOf_eq hn hi]
      rw [h2]
      generalize (b.deps.filter fun d => d = a.mod) = l at h1
      match l, h1 with
      | [], _ => simp
      | [_], _ => simp
  · refine List.Pairwise.imp ?_ List.nodup_range
    intro x y hxy z hz1 z' hz2 e
    subst e
    apply hxy
    have g : ∀ w, z ∈ (match jobs[w]? with
        | none => []
        | some job => (job.deps.filter fun d => jobOf jobs d = some i).map fun _ => w) → z = w := by
      intro w hw
      split at hw
      · cases hw
      · obtain ⟨_, _, rfl⟩ := List.mem_map.1 hw; rfl
    rw [← g x hz1, ← g y hz2]

/-! ### The loop over the dependents -/

theorem release_spec (js : List Nat) (hn : js.Nodup) (remaining ready : List Nat)
    (hj : ∀ j ∈ js, ∃ n, remaining[j]? = some (n + 1)) :
    ∃ rem' rd', release js remaining ready = some (rem', rd') ∧
      (∀ j n, remaining[j]? = some n → rem'[j]? = some (if j ∈ js then n - 1 else n)) ∧
      rd' = ready ++ js.filter (fun j => remaining[j]? = some 1) := by
  induction js generalizing remaining ready with
  | nil => exact ⟨remaining, ready, rfl, by simp, by simp⟩
  | cons j js ih =>
    have hn' := List.nodup_cons.1 hn
    obtain ⟨n, hr⟩ := hj j (.head _)
    have hlt := (List.getElem?_eq_some_iff.1 hr).1
    have other : ∀ x, x ≠ j → (remaining.set j n)[x]? = remaining[x]? := by
      intro x hx
      rw [List.getElem?_set_ne (Ne.symm hx)]
    obtain ⟨r1, r2, e, a, b⟩ := ih hn'.2 (remaining.set j n)
      (if n = 0 then ready ++ [j] else ready) (fun x hx => by
        have : x ≠ j := fun e => hn'.1 (e ▸ hx)
        rw [other x this]
        exact hj x (.tail _ hx))
    refine ⟨r1, r2, ?_, ?_, ?_⟩
    · rw [release, hr]; exact e
    · intro x k hk
      by_cases hx : x = j
      · subst hx
        rw [hr] at hk
        simp only [Option.some.injEq] at hk
        subst hk
        have := a x n (by rw [List.getElem?_set_self hlt])
        rw [this, if_neg hn'.1]
        simp
      · rw [a x k (by rw [other x hx]; exact hk)]
        simp [hx]
    · rw [b]
      have e2 : js.filter (fun x => (remaining.set j n)[x]? = some 1) =
          js.filter (fun x => remaining[x]? = some 1) := by
        apply List.filter_congr
        intro x hx
        rw [other x (fun e => hn'.1 (e ▸ hx))]
      rw [e2, List.filter_cons]
      by_cases h0 : n = 0
      · subst h0; simp [hr]
      · simp [hr, h0]

/-! ### The invariant -/

/-- What a worker makes of the job on this snapshot is right. -/
structure Right (El : Elaborator E I σ) (files : Files I) (V : Mod → Option E) (q : Table E)
    (job : Job I) : Prop where
  ok : ∀ e, job.result El q = .ok e → V job.mod = some e
  err : ∀ c, job.result El q = .error c → V job.mod = none
  cyc : job.result El q = .error true → Circular files job.mod

/-- What holds of the loader between any two steps, when the jobs in `done` are done. -/
structure Good (El : Elaborator E I σ) (files : Files I) (V : Mod → Option E) (L : Loader E I)
    (done : List Nat) : Prop where
  inv : Inv files V L.table
  closed : ∀ x, Finished L.table x → ∀ d, Needs files d x →
    d = x ∨ Finished L.table d ∨ files.lookup d = none
  mods : (L.jobs.map (·.mod)).Nodup
  file : ∀ j ∈ L.jobs, files.lookup j.mod = some (.parsed j.stmts)
  nodup : ∀ j ∈ L.jobs, j.deps.Nodup
  needs : ∀ j ∈ L.jobs, ∀ d ∈ j.deps, d ≠ j.mod ∧ Needs files d j.mod ∧
    (files.lookup d = none ∨ Finished L.table d ∨ ∃ k ∈ L.jobs, k.mod = d)
  all : ∀ j ∈ L.jobs, ∀ d, Needs files d j.mod → d = j.mod ∨ files.lookup d = none ∨ d ∈ j.deps
  libs : ∀ j ∈ L.jobs, (∀ d ∈ dependencyNames j.stmts, d ∈ j.deps) →
    j.libs = (dependencyNames j.stmts).filter (· ∈ libNames j.stmts)
  over : ∀ i ∈ done, ∀ j, L.jobs[i]? = some j → Finished L.table j.mod
  under : ∀ i : Nat, i ∉ done → ∀ j, L.jobs[i]? = some j → L.table.states j.mod = some .loading
  loading : ∀ x, L.table.states x = some .loading → ∃ j ∈ L.jobs, j.mod = x
  order : (L.ready ++ (L.active.map (·.1) ++ done)).Nodup
  bound : ∀ i ∈ L.ready ++ (L.active.map (·.1) ++ done), i < L.jobs.length
  taken : ∀ i ∈ L.taken, i ∈ L.active.map (·.1) ++ done
  rem : ∀ (i : Nat) j, L.jobs[i]? = some j → L.remaining[i]? = some (pending L.jobs done j)
  zero : ∀ (i : Nat) j, L.jobs[i]? = some j →
    (pending L.jobs done j = 0 ↔ i ∈ L.ready ++ (L.active.map (·.1) ++ done))
  snap : ∀ i q, (i, q) ∈ L.active → ∀ j, L.jobs[i]? = some j → Right El files V q j
  count : L.completed = done.length
  dependents : L.dependents = (List.range L.jobs.length).map (dependentsOf L.jobs)
  cap : L.active.length ≤ L.workers
  worker : 1 ≤ L.workers

/-- When a job waits for nothing more, all modules below it are loaded. -/
theorem Good.below {El : Elaborator E I σ} {files : Files I} {V : Mod → Option E}
    {L : Loader E I} {done : List Nat} (g : Good El files V L done) {i : Nat} {job : Job I}
    (hi : L.jobs[i]? = some job) (h0 : pending L.jobs done job = 0) :
    (∀ d, Needs files d job.mod → d = job.mod ∨ Finished L.table d ∨ files.lookup d = none) ∧
    ∀ x, Below files x job.mod → x = job.mod ∨ Finished L.table x ∨ files.lookup x = none := by
  have hj := List.mem_of_getElem? hi
  have direct : ∀ d, Needs files d job.mod →
      d = job.mod ∨ Finished L.table d ∨ files.lookup d = none := by
    intro d hd
    rcases g.all job hj d hd with h | h | h
    · exact .inl h
    · exact .inr (.inr h)
    · obtain ⟨_, _, k⟩ := g.needs job hj d h
      rcases k with k | k | ⟨b, hb, e⟩
      · exact .inr (.inr k)
      · exact .inr (.inl k)
      · obtain ⟨k, hk⟩ := List.getElem?_of_mem hb
        unfold pending at h0
        rw [List.length_eq_zero_iff, List.filter_eq_nil_iff] at h0
        have := h0 d h
        unfold pendingDep at this
        rw [(jobOf_eq g.mods hk d).2 e.symm] at this
        simp only [decide_not, Bool.not_eq_true', decide_eq_false_iff_not, Decidable.not_not] at this
        exact .inr (.inl (e ▸ g.over k this b hk))
  refine ⟨direct, ?_⟩
  have key : ∀ x k, Below files x k → (k = job.mod ∨ Finished L.table k) →
      x = job.mod ∨ Finished L.table x ∨ files.lookup x = none := by
    intro x k hb
    have step : ∀ d k, Needs files d k → (k = job.mod ∨ Finished L.table k) →
        d = job.mod ∨ Finished L.table d ∨ files.lookup d = none := by
      rintro d k n (rfl | h)
      · exact direct d n
      · rcases g.closed k h d n with rfl | h' | h'
        · exact .inr (.inl h)
        · exact .inr (.inl h')
        · exact .inr (.inr h')
    induction hb with
    | direct n => exact step _ _ n
    | @through k' k b n ih =>
      intro h
      rcases step _ _ n h with h | h | h
      · exact ih (.inl h)
      · exact ih (.inr h)
      · exfalso
        cases b with
        | direct n' => obtain ⟨_, h', _⟩ := n'; rw [h] at h'; cases h'
        | through _ n' => obtain ⟨_, h', _⟩ := n'; rw [h] at h'; cases h'
  exact fun x hx => key x _ hx (.inl rfl)

theorem Good.right {El : Elaborator E I σ} {files : Files I} {V : Mod → Option E}
    (hV : Result El files V) (hl : Local El files) (hpre : ¬ Circular files preludeMod)
    {L : Loader E I} {done : List Nat} (g : Good El files V L done) {i : Nat} {job : Job I}
    (hi : L.jobs[i]? = some job) (h0 : pending L.jobs done job = 0) (hd : i ∉ done) :
    Right El files V L.table job := by
  have hj := List.mem_of_getElem? hi
  obtain ⟨b1, b2⟩ := g.below hi h0
  have hm := g.under i hd job hi
  have res := elaborate_result hV hl hpre (g.file job hj) g.inv (libs := job.libs)
    (fun x hx hb => by
      rcases b2 x hb with h | h | h
      · exact .inl h
      · rcases h with ⟨_, h⟩ | ⟨_, h⟩ <;> rw [hx] at h <;> cases h
      · obtain ⟨k, hk, e⟩ := g.loading x hx
        rw [← e, g.file k hk] at h; cases h)
    (fun d hd => by
      rcases b1 d hd with h | h | h
      · rw [h]; exact .inr (.inl hm)
      · exact .inl h
      · exact .inr (.inr h))
    (fun h => by
      apply g.libs job hj
      intro d hd
      rcases g.all job hj d ((needs_iff (g.file job hj) d).2 (.inl hd)) with k | k | k
      · exact absurd (loading_none (k ▸ hm)) (h d hd)
      · exact absurd (missing_none g.inv k) (h d hd)
      · exact k)
  obtain ⟨r1, r2, r3⟩ := res
  unfold Job.result at *
  constructor
  · intro e h
    unfold Job.result at h
    split at h
    · rename_i e' he
      simp only [LoadState.ok.injEq] at h
      subst h
      exact r1 _ he
    · cases h
  · intro c h
    unfold Job.result at h
    split at h
    · cases h
    · rename_i c' hc; exact r2 c' hc
  · intro h
    unfold Job.result at h
    split at h
    · cases h
    · rename_i c' hc
      simp only [LoadState.error.injEq] at h
      subst h
      exact r3 hc

/-! ### Handing out jobs -/

theorem bestReady_spec {prefer : Mod → Mod → Bool} {jobs : List (Job I)} (l : List Nat) :
    (bestReady prefer jobs l = none ↔ l = []) ∧
    ∀ i, bestReady prefer jobs l = some i → i ∈ l := by
  induction l with
  | nil => simp [bestReady]
  | cons a l ih =>
    rw [bestReady]
    split
    · simp
    · rename_i j hj
      have hm := ih.2 j hj
      split
      · refine ⟨by simp, fun i h => ?_⟩
        simp only [Option.some.injEq] at h
        split at h
        · subst h; exact .head _
        · subst h; exact .tail _ hm
      · refine ⟨by simp, fun i h => ?_⟩
        simp only [Option.some.injEq] at h
        subst h
        exact .tail _ hm

theorem Good.enqueue {El : Elaborator E I σ} {files : Files I} {V : Mod → Option E}
    (hV : Result El files V) (hl : Local El files) (hpre : ¬ Circular files preludeMod)
    {L : Loader E I} {done : List Nat} (g : Good El files V L done) {i : Nat} (hi : i ∈ L.ready)
    (hc : L.active.length < L.workers) :
    ∃ L', L.enqueue i = some L' ∧ Good El files V L' done ∧
      L'.active.length = L.active.length + 1 ∧ L'.workers = L.workers := by
  have hnd := List.nodup_append.1 g.order
  have hnot : i ∉ L.active.map (·.1) ++ done := fun h => hnd.2.2 i hi i h rfl
  have hlt := g.bound i (List.mem_append.2 (.inl hi))
  have hjob := List.getElem?_eq_getElem hlt
  have hpend : pending L.jobs done L.jobs[i] = 0 :=
    (g.zero i _ hjob).2 (List.mem_append.2 (.inl hi))
  have hright := g.right hV hl hpre hjob hpend (fun h => hnot (List.mem_append.2 (.inr h)))
  have hmem : ∀ x, x ∈ L.ready.erase i ++ ((L.active ++ [(i, L.table)]).map (·.1) ++ done) ↔
      x ∈ L.ready ++ (L.active.map (·.1) ++ done) := by
    intro x
    simp only [List.mem_append, List.map_append, List.map_cons, List.map_nil, List.mem_singleton]
    rw [hnd.1.mem_erase_iff]
    by_cases e : x = i
    · subst e; simp [hi]
    · simp [e]
  refine ⟨{ L with
    taken := i :: L.taken
    ready := L.ready.erase i
    active := L.active ++ [(i, L.table)] },
    by rw [Loader.enqueue, if_neg (fun h => hnot (g.taken i h))], ?_, by simp, rfl⟩
  refine ⟨g.inv, g.closed, g.mods, g.file, g.nodup, g.needs, g.all, g.libs, g.over, g.under,
    g.loading, ?_, ?_, ?_, g.rem, ?_, ?_, g.count, g.dependents, ?_, g.worker⟩
  · show (L.ready.erase i ++ ((L.active ++ [(i, L.table)]).map (·.1) ++ done)).Nodup
    have hp : (L.ready ++ (L.active.map (·.1) ++ done)).Perm
        (L.ready.erase i ++ ((L.active ++ [(i, L.table)]).map (·.1) ++ done)) := by
      refine ((List.perm_cons_erase hi).append_right _).trans ?_
      rw [List.cons_append, List.map_append]
      refine List.perm_middle.symm.trans ?_
      refine List.Perm.append_left _ ?_
      simp only [List.map_cons, List.map_nil, List.append_assoc, List.singleton_append]
      exact List.perm_middle.symm
    exact hp.nodup_iff.1 g.order
  · intro x hx
    exact g.bound x ((hmem x).1 hx)
  · intro x hx
    show x ∈ (L.active ++ [(i, L.table)]).map (·.1) ++ done
    rcases List.mem_cons.1 hx with rfl | hx
    · simp
    · have := g.taken x hx
      simp only [List.map_append, List.mem_append] at this ⊢
      rcases this with h | h
      · exact .inl (.inl h)
      · exact .inr h
  · intro x j hj
    rw [g.zero x j hj]
    exact (hmem x).symm
  · intro x q hx j hj
    rcases List.mem_append.1 hx with h | h
    · exact g.snap x q h j hj
    · simp only [List.mem_singleton, Prod.mk.injEq] at h
      obtain ⟨rfl, rfl⟩ := h
      rw [hjob] at hj
      simp only [Option.some.injEq] at hj
      subst hj
      exact hright
  · show (L.active ++ [(i, L.table)]).length ≤ L.workers
    rw [List.length_append]
    exact hc

/-- Handing out jobs succeeds, and leaves no worker without a job while there is one. -/
theorem Good.fill {El : Elaborator E I σ} {files : Files I} {V : Mod → Option E}
    (hV : Result El files V) (hl : Local El files) (hpre : ¬ Circular files preludeMod)
    (prefer : Mod → Mod → Bool) (n : Nat) {L : Loader E I} {done : List Nat}
    (g : Good El files V L done) (hc : L.active.length + n = L.workers) :
    ∃ L', Loader.fill prefer n L = some L' ∧ Good El files V L' done ∧
      L'.jobs = L.jobs ∧ L'.table = L.table ∧ L'.completed = L.completed ∧
      (L'.active.length = L'.workers ∨ L'.ready = []) := by
  induction n generalizing L with
  | zero => exact ⟨L, rfl, g, rfl, rfl, rfl, .inl (by simpa using hc)⟩
  | succ n ih =>
    rw [Loader.fill]
    obtain ⟨b1, b2⟩ := bestReady_spec (prefer := prefer) (jobs := L.jobs) L.ready
    cases hb : bestReady prefer L.jobs L.ready with
    | none => exact ⟨L, rfl, g, rfl, rfl, rfl, .inr (b1.1 hb)⟩
    | some i =>
      obtain ⟨L1, e, g1, a1, w1⟩ := g.enqueue hV hl hpre (b2 i hb) (by omega)
      obtain ⟨L2, e2, g2, h1, h2, h3, h4⟩ := ih g1 (by omega)
      have same : L1.jobs = L.jobs ∧ L1.table = L.table ∧ L1.completed = L.completed := by
        unfold Loader.enqueue at e
        split at e
        · cases e
        · simp only [Option.some.injEq] at e
          subst e
          exact ⟨rfl, rfl, rfl⟩
      exact ⟨L2, by simp only [e, Option.bind_some]; exact e2, g2, h1.trans same.1,
        h2.trans same.2.1, h3.trans same.2.2, h4⟩

/-! ### Receiving a result -/

theorem eraseIdx_perm {α : Type} {l : List α} {k : Nat} {a : α} (h : l[k]? = some a) :
    l.Perm (a :: l.eraseIdx k) := by
  induction l generalizing k with
  | nil => simp at h
  | cons b l ih =>
    cases k with
    | zero =>
      simp only [List.getElem?_cons_zero, Option.some.injEq] at h
      subst h
      exact List.Perm.refl _
    | succ k =>
      rw [List.getElem?_cons_succ] at h
      rw [List.eraseIdx_cons_succ]
      exact ((ih h).cons b).trans (.swap _ _ _)

theorem result_cases (El : Elaborator E I σ) (job : Job I) (q : Table E) :
    (∃ e, job.result El q = .ok e) ∨ ∃ c, job.result El q = .error c := by
  unfold Job.result
  split
  · exact .inl ⟨_, rfl⟩
  · exact .inr ⟨_, rfl⟩

/-- Receiving a result succeeds, and exactly one more job is done. -/
theorem Good.receive {El : Elaborator E I σ} {files : Files I} {V : Mod → Option E}
    (hV : Result El files V) (hl : Local El files) (hpre : ¬ Circular files preludeMod)
    (prefer : Mod → Mod → Bool) {L : Loader E I} {done : List Nat}
    (g : Good El files V L done) {k i : Nat} {q : Table E} (hk : L.active[k]? = some (i, q)) :
    ∃ L', L.receive El prefer k = some L' ∧ Good El files V L' (i :: done) ∧
      L'.jobs = L.jobs ∧ (∀ x, Finished L.table x → L'.table.states x = L.table.states x) ∧
      (L'.active.length = L'.workers ∨ L'.ready = []) := by
  have hact : L.active.Perm ((i, q) :: L.active.eraseIdx k) := eraseIdx_perm hk
  have hmemA : (i, q) ∈ L.active := List.mem_of_getElem? hk
  have hi : i ∈ L.active.map (·.1) := List.mem_map.2 ⟨_, hmemA, rfl⟩
  have hlt := g.bound i (List.mem_append.2 (.inr (List.mem_append.2 (.inl hi))))
  have hjob := List.getElem?_eq_getElem hlt
  generalize L.jobs[i] = job at hjob
  have hj := List.mem_of_getElem? hjob
  have hpend : pending L.jobs done job = 0 :=
    (g.zero i _ hjob).2 (List.mem_append.2 (.inr (List.mem_append.2 (.inl hi))))
  have hnd := (List.nodup_append.1 (List.nodup_append.1 g.order).2.1)
  have hidone : i ∉ done := fun h => hnd.2.2 i hi i h rfl
  have hdeps : L.dependents[i]? = some (dependentsOf L.jobs i) := by
    rw [g.dependents, List.getElem?_map, List.getElem?_range hlt]
    rfl
  have hmd := fun j => mem_dependentsOf g.mods hjob j
  obtain ⟨rem', rd', hrel, hrem, hrd⟩ := release_spec (dependentsOf L.jobs i)
    (dependentsOf_nodup g.mods hjob g.nodup) L.remaining L.ready (fun j hjm => by
      obtain ⟨b, hb, hd⟩ := (hmd j).1 hjm
      rw [g.rem j b hb, pending_done g.mods hjob hidone (g.nodup b (List.mem_of_getElem? hb)),
        if_pos hd]
      exact ⟨_, rfl⟩)
  have hrd' : ∀ x, x ∈ rd' ↔ x ∈ L.ready ∨ (x ∈ dependentsOf L.jobs i ∧ L.remaining[x]? = some 1) := by
    intro x
    rw [hrd, List.mem_append, List.mem_filter, decide_eq_true_eq]
  have hnew : ∀ x ∈ dependentsOf L.jobs i, x ∉ L.ready ++ (L.active.map (·.1) ++ done) := by
    intro x hx hx2
    obtain ⟨b, hb, hd⟩ := (hmd x).1 hx
    have := (g.zero x b hb).2 hx2
    rw [pending_done g.mods hjob hidone (g.nodup b (List.mem_of_getElem? hb)), if_pos hd] at this
    omega
  have hperm : (L.ready ++ (L.active.map (·.1) ++ done)).Perm
      (L.ready ++ ((L.active.eraseIdx k).map (·.1) ++ i :: done)) := by
    refine List.Perm.append_left _ ?_
    refine ((hact.map (·.1)).append_right done).trans ?_
    exact List.perm_middle.symm
  have hright := g.snap i q hmemA job hjob
  have hs := result_cases El job q
  obtain ⟨b1, _⟩ := g.below hjob hpend
  have hm := g.under i hidone job hjob
  have fin : ∀ x, Finished L.table x →
      Finished (L.table.set job.mod (job.result El q)) x := by
    intro x hx
    have e : x ≠ job.mod := by
      rintro rfl
      rcases hx with ⟨_, h⟩ | ⟨_, h⟩ <;> rw [hm] at h <;> cases h
    unfold Finished
    rw [set_states, if_neg e]
    exact hx
  have finm : Finished (L.table.set job.mod (job.result El q)) job.mod := by
    unfold Finished
    rw [set_states, if_pos rfl]
    rcases hs with ⟨e, h⟩ | ⟨c, h⟩
    · exact .inl ⟨e, by rw [h]⟩
    · exact .inr ⟨c, by rw [h]⟩
  have fin' : ∀ x, Finished (L.table.set job.mod (job.result El q)) x →
      x = job.mod ∨ Finished L.table x := by
    intro x hx
    by_cases e : x = job.mod
    · exact .inl e
    · unfold Finished at hx
      rw [set_states, if_neg e] at hx
      exact .inr hx
  -- the state before jobs are handed out
  have gm : Good El files V { L with
      table := L.table.set job.mod (job.result El q)
      remaining := rem'
      ready := rd'
      active := L.active.eraseIdx k
      completed := L.completed + 1 } (i :: done) := by
    refine ⟨?_, ?_, g.mods, g.file, g.nodup, ?_, g.all, g.libs, ?_, ?_, ?_, ?_, ?_, ?_, ?_, ?_, ?_,
      ?_, g.dependents, ?_, g.worker⟩
    · exact g.inv.finish hs hright.ok hright.err hright.cyc (by rw [g.file job hj]; simp)
        (fun d hd => by
          rcases b1 d hd with h | h | h
          · rw [h]; exact .inr (.inl hm)
          · exact .inl h
          · exact .inr (.inr h))
    · intro x hx d hd
      rcases fin' x hx with rfl | hx
      · rcases b1 d hd with h | h | h
        · exact .inl h
        · exact .inr (.inl (fin d h))
        · exact .inr (.inr h)
      · rcases g.closed x hx d hd with h | h | h
        · exact .inl h
        · exact .inr (.inl (fin d h))
        · exact .inr (.inr h)
    · intro j hjm d hd
      obtain ⟨h1, h2, h3⟩ := g.needs j hjm d hd
      refine ⟨h1, h2, ?_⟩
      rcases h3 with h | h | h
      · exact .inl h
      · exact .inr (.inl (fin d h))
      · exact .inr (.inr h)
    · intro x hx j hxj
      rcases List.mem_cons.1 hx with rfl | hx
      · rw [hjob] at hxj
        simp only [Option.some.injEq] at hxj
        subst hxj
        exact finm
      · exact fin _ (g.over x hx j hxj)
    · intro x hx j hxj
      have hxi : x ≠ i := fun e => hx (e ▸ .head _)
      have e : j.mod ≠ job.mod := fun e => hxi (job_unique g.mods hxj hjob e)
      show (L.table.set job.mod (job.result El q)).states j.mod = _
      rw [set_states, if_neg e]
      exact g.under x (fun h => hx (.tail _ h)) j hxj
    · intro x hx
      have hx' : (L.table.set job.mod (job.result El q)).states x = some .loading := hx
      rw [set_states] at hx'
      split at hx'
      · rcases hs with ⟨e, h⟩ | ⟨c, h⟩ <;> rw [h] at hx' <;> cases hx'
      · exact g.loading x hx'
    · show (rd' ++ ((L.active.eraseIdx k).map (·.1) ++ i :: done)).Nodup
      have h1 := hperm.nodup_iff.1 g.order
      rw [hrd, List.append_assoc]
      have h2 : (dependentsOf L.jobs i).Nodup := dependentsOf_nodup g.mods hjob g.nodup
      have hp2 : (L.ready ++ ((dependentsOf L.jobs i).filter (fun j => L.remaining[j]? = some 1) ++
          ((L.active.eraseIdx k).map (·.1) ++ i :: done))).Perm
          ((dependentsOf L.jobs i).filter (fun j => L.remaining[j]? = some 1) ++
            (L.ready ++ ((L.active.eraseIdx k).map (·.1) ++ i :: done))) :=
        List.perm_append_comm_assoc _ _ _
      rw [hp2.nodup_iff, List.nodup_append]
      refine ⟨h2.filter _, h1, ?_⟩
      intro x hx y hy e
      subst e
      exact hnew x (List.mem_filter.1 hx).1 (hperm.mem_iff.2 hy)
    · intro x hx
      have hx' : x ∈ rd' ++ ((L.active.eraseIdx k).map (·.1) ++ i :: done) := hx
      rw [List.mem_append, hrd' x] at hx'
      rcases hx' with (h | ⟨h, _⟩) | h
      · exact g.bound x (List.mem_append.2 (.inl h))
      · obtain ⟨b, hb, _⟩ := (hmd x).1 h
        exact (List.getElem?_eq_some_iff.1 hb).1
      · exact g.bound x (hperm.mem_iff.2 (List.mem_append.2 (.inr h)))
    · intro x hx
      show x ∈ (L.active.eraseIdx k).map (·.1) ++ i :: done
      have := g.taken x hx
      have hp3 : (L.active.map (·.1) ++ done).Perm ((L.active.eraseIdx k).map (·.1) ++ i :: done) :=
        ((hact.map (·.1)).append_right done).trans List.perm_middle.symm
      exact hp3.mem_iff.1 this
    · intro x j hxj
      show rem'[x]? = some (pending L.jobs (i :: done) j)
      have hx := g.rem x j hxj
      rw [pending_done g.mods hjob hidone (g.nodup j (List.mem_of_getElem? hxj))] at hx
      rw [hrem x _ hx]
      by_cases hd : job.mod ∈ j.deps
      · rw [if_pos hd, if_pos ((hmd x).2 ⟨j, hxj, hd⟩)]; rfl
      · rw [if_neg hd, if_neg]
        · rfl
        · intro h
          obtain ⟨b, hb, hd'⟩ := (hmd x).1 h
          rw [hxj] at hb
          simp only [Option.some.injEq] at hb
          subst hb
          exact hd hd'
    · intro x j hxj
      show pending L.jobs (i :: done) j = 0 ↔ x ∈ rd' ++ ((L.active.eraseIdx k).map (·.1) ++ i :: done)
      have hp := pending_done g.mods hjob hidone (g.nodup j (List.mem_of_getElem? hxj))
      have hz := g.zero x j hxj
      rw [hperm.mem_iff, List.mem_append] at hz
      rw [List.mem_append, hrd' x]
      by_cases hd : job.mod ∈ j.deps
      · have hx := (hmd x).2 ⟨j, hxj, hd⟩
        rw [if_pos hd] at hp
        have hr := g.rem x j hxj
        rw [hp] at hr
        constructor
        · intro h0
          rw [h0] at hr
          exact .inl (.inr ⟨hx, hr⟩)
        · rintro ((h | ⟨_, h⟩) | h)
          · have := hz.2 (.inl h); omega
          · rw [hr] at h
            simp only [Option.some.injEq] at h
            omega
          · have := hz.2 (.inr h); omega
      · rw [if_neg hd] at hp
        have hx : x ∉ dependentsOf L.jobs i := by
          intro h
          obtain ⟨b, hb, hd'⟩ := (hmd x).1 h
          rw [hxj] at hb
          simp only [Option.some.injEq] at hb
          subst hb
          exact hd hd'
        have : pending L.jobs (i :: done) j = pending L.jobs done j := by omega
        rw [this, hz]
        simp [hx]
    · intro x q' hx j hxj
      exact g.snap x q' (List.mem_of_mem_eraseIdx hx) j hxj
    · show L.completed + 1 = (i :: done).length
      rw [g.count]; rfl
    · show (L.active.eraseIdx k).length ≤ L.workers
      have := g.cap
      rw [hact.length_eq] at this
      simp only [List.length_cons] at this
      omega
  obtain ⟨L', e, g', h1, h2, _, h4⟩ := gm.fill hV hl hpre prefer _ (by
    show (L.active.eraseIdx k).length + (L.workers - (L.active.eraseIdx k).length) = L.workers
    have := gm.cap
    simp only at this
    omega)
  refine ⟨L', ?_, g', h1, ?_, h4⟩
  · unfold Loader.receive
    simp only [hk, hjob, hdeps, hrel]
    exact e
  · intro x hx
    rw [h2]
    show (L.table.set job.mod (job.result El q)).states x = _
    rw [set_states, if_neg]
    rintro rfl
    rcases hx with ⟨_, h⟩ | ⟨_, h⟩ <;> rw [hm] at h <;> cases h

/-! ### Starting -/

/-- A table that the loader may start from. -/
structure Ready (files : Files I) (V : Mod → Option E) (p : Table E) : Prop where
  inv : Inv files V p
  idle : ∀ x, p.states x ≠ some .loading

theorem Ready.good {El : Elaborator E I σ} {files : Files I} {V : Mod → Option E} {p : Table E}
    (hr : Ready files V p) {ms : List Mod} (hc : Covered files p ms) {q : Table E}
    {jobs : List (Job I)} (w : PrepareWell files V p ms q jobs) (workers : Nat) :
    Good El files V ⟨q, jobs, [], remainingOf jobs,
      (List.range jobs.length).map (dependentsOf jobs),
      (List.range jobs.length).filter fun i => (remainingOf jobs)[i]? = some 0, [], 0,
      max workers 1⟩ [] := by
  have finq : ∀ x, Finished p x → Finished q x := by
    intro x hx
    unfold Finished
    rw [w.stays x hx]
    exact hx
  have rem : ∀ (i : Nat) j, jobs[i]? = some j →
      (remainingOf jobs)[i]? = some (pending jobs [] j) := by
    intro i j hj
    unfold remainingOf
    rw [List.getElem?_map, hj, pending_nil]
    rfl
  have hready : ∀ i, i ∈ ((List.range jobs.length).filter fun i => (remainingOf jobs)[i]? = some 0) ↔
      (i < jobs.length ∧ (remainingOf jobs)[i]? = some 0) := by
    intro i
    rw [List.mem_filter, List.mem_range, decide_eq_true_eq]
  have needed : ∀ j ∈ jobs, ∀ d, Needs files d j.mod →
      Finished p d ∨ files.lookup d = none ∨ (d ∈ ms ∧ p.states d ≠ none) :=
    fun j hj d hd => hc j.mod (w.sub j hj) d hd
  refine ⟨w.inv, ?_, w.nodup, fun j hj => (w.well j hj).file, fun j hj => (w.well j hj).nodup, ?_,
    ?_, ?_, by simp, ?_, ?_, ?_, ?_, by simp, rem, ?_, by simp, rfl, rfl, by simp,
    Nat.le_max_right _ _⟩
  · intro x hx d hd
    rcases w.added x hx with h | h
    · rcases hr.inv.closed x h d hd with k | k | k
      · exact .inr (.inl (finq d k))
      · exact absurd k (hr.idle d)
      · exact .inr (.inr k)
    · exact absurd hd (h d)
  · intro j hj d hd
    obtain ⟨h1, h2⟩ := (w.well j hj).needs d hd
    refine ⟨h1, h2, ?_⟩
    rcases needed j hj d h2 with h | h | ⟨h, _⟩
    · exact .inr (.inl (finq d h))
    · exact .inl h
    · exact .inr (w.known d h)
  · intro j hj d hd
    by_cases e : d = j.mod
    · exact .inl e
    · rcases needed j hj d hd with h | h | ⟨_, h⟩
      · refine .inr (.inr ((w.well j hj).all d hd e ?_))
        rcases h with ⟨_, h⟩ | ⟨_, h⟩ <;> rw [h] <;> simp
      · exact .inr (.inl h)
      · exact .inr (.inr ((w.well j hj).all d hd e h))
  · exact fun j hj => (w.well j hj).libs
  · intro i _ j hj
    exact (w.loading _).2 (.inr ⟨j, List.mem_of_getElem? hj, rfl⟩)
  · intro x hx
    rcases (w.loading x).1 hx with h | h
    · exact absurd h (hr.idle x)
    · exact h
  · show (((List.range jobs.length).filter fun i => (remainingOf jobs)[i]? = some 0) ++ ([] ++ [])).Nodup
    rw [List.append_nil, List.append_nil]
    exact List.nodup_range.filter _
  · intro i hi
    simp only [List.map_nil, List.append_nil] at hi
    exact ((hready i).1 hi).1
  · intro i j hj
    show _ ↔ i ∈ ((List.range jobs.length).filter fun i => (remainingOf jobs)[i]? = some 0) ++ ([] ++ [])
    rw [List.append_nil, List.append_nil, hready, rem i j hj]
    simp only [Option.some.injEq]
    exact ⟨fun h => ⟨(List.getElem?_eq_some_iff.1 hj).1, h⟩, fun h => h.2⟩

end Acorn.Proj
