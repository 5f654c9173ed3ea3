import Verif.Spec.ParallelLoad
import Verif.Lemmas.ProjectLoadRun
/-
Preparing the jobs of the parallel loader.
-/
namespace Acorn.Proj

variable {E I σ : Type}

/-- Whether a dependency name becomes a dependency of the job. -/
def noted (p : Table E) (m d : Mod) : Bool := decide (d ≠ m) && (p.states d).isSome

theorem noted_iff {p : Table E} {m d : Mod} : noted p m d = true ↔ d ≠ m ∧ p.states d ≠ none := by
  unfold noted
  cases p.states d <;> simp

theorem noteDependencies_spec {files : Files I} {V : Mod → Option E} (m : Mod) (names : List Mod)
    (ds : List Mod) (p : Table E) (hp : Inv files V p) :
    (noteDependencies m names p ds).1.states = p.states ∧
    Inv files V (noteDependencies m names p ds).1 ∧
    (noteDependencies m names p ds).2.1 = ds.filter (noted p m) ∧
    (noteDependencies m names p ds).2.2 = (ds.filter (noted p m)).filter (· ∈ names) := by
  induction ds generalizing p with
  | nil => exact ⟨rfl, hp, rfl, rfl⟩
  | cons d ds ih =>
    rw [noteDependencies]
    by_cases e : d = m
    · rw [if_pos e, List.filter_cons_of_neg (by simp [noted, e])]
      exact ih p hp
    · rw [if_neg e]
      split
      · rename_i s hs
        obtain ⟨a, b, c, f⟩ := ih (p.setError d none) (hp.setError (by simp))
        have n : noted p m d = true := by simp [noted, e, hs]
        have same : noted (p.setError d none) m = noted p m := rfl
        rw [same] at c f
        refine ⟨a, b, ?_, ?_⟩
        · simp only [c]; rw [List.filter_cons_of_pos n]
        · simp only [f]; rw [List.filter_cons_of_pos n, List.filter_cons]; simp
      · rename_i hs
        obtain ⟨a, b, c, f⟩ := ih (p.setError d (some .notFound)) (hp.setError (by simp))
        have same : noted (p.setError d (some .notFound)) m = noted p m := rfl
        rw [same] at c f
        have n : ¬ noted p m d = true := by simp [noted, hs]
        rw [List.filter_cons_of_neg n]
        exact ⟨a, b, c, f⟩

theorem eraseDups_nodup (l : List Mod) : l.eraseDups.Nodup := by
  induction h : l.length using Nat.strongRecOn generalizing l with
  | _ n ih =>
    cases l with
    | nil => simp
    | cons a l =>
      rw [List.eraseDups_cons, List.nodup_cons]
      refine ⟨by simp [List.mem_eraseDups], ih _ ?_ _ rfl⟩
      subst h
      exact Nat.lt_succ_of_le (List.length_filter_le _ _)

theorem dependencyNames_nodup (stmts : List (Stmt I)) : (dependencyNames stmts).Nodup := by
  rw [dependencyNames_eq]; exact eraseDups_nodup _

theorem mem_addDependency {l : List Mod} {a x : Mod} : x ∈ addDependency l a ↔ x ∈ l ∨ x = a := by
  unfold addDependency
  split
  · rename_i h
    constructor
    · exact .inl
    · rintro (k | rfl)
      · exact k
      · exact h
  · simp

theorem addDependency_nodup {l : List Mod} {a : Mod} (h : l.Nodup) : (addDependency l a).Nodup := by
  unfold addDependency
  split
  · exact h
  · rename_i k
    rw [List.nodup_append]
    refine ⟨h, by simp, ?_⟩
    intro x hx y hy
    simp only [List.mem_singleton] at hy
    rintro rfl
    exact k (hy ▸ hx)

/-- What a job that was prepared on table `p` is like. -/
structure JobWell (files : Files I) (p : Table E) (job : Job I) : Prop where
  file : files.lookup job.mod = some (.parsed job.stmts)
  nodup : job.deps.Nodup
  needs : ∀ d ∈ job.deps, d ≠ job.mod ∧ Needs files d job.mod
  all : ∀ d, Needs files d job.mod → d ≠ job.mod → p.states d ≠ none → d ∈ job.deps
  libs : (∀ d ∈ dependencyNames job.stmts, d ∈ job.deps) →
    job.libs = (dependencyNames job.stmts).filter (· ∈ libNames job.stmts)

theorem JobWell.mono {files : Files I} {p q : Table E} {job : Job I} (h : JobWell files q job)
    (k : ∀ x, p.states x ≠ none → q.states x ≠ none) : JobWell files p job :=
  ⟨h.file, h.nodup, h.needs, fun d a b c => h.all d a b (k d c),
    h.libs⟩

theorem unparsable_inv {El : Elaborator E I σ} {files : Files I} {V : Mod → Option E}
    (hV : Result El files V) {p : Table E} (hp : Inv files V p) {m : Mod}
    (hf : files.lookup m = some .unparsable) : Inv files V (p.set m (.error false)) := by
  have hV0 : V m = none := by
    by_cases hc : Circular files m
    · exact hV.circular m hc
    · rw [hV.build m hc, buildFile, hf]
  refine hp.finish (.inr ⟨_, rfl⟩) (by simp) (fun _ _ => hV0) (by simp) (by simp [hf]) ?_
  rintro d ⟨_, h, _⟩
  rw [hf] at h; cases h

/-- What preparing one job does. -/
inductive PrepareOne (files : Files I) (V : Mod → Option E) (p : Table E) (m : Mod) :
    Table E × Except ImportError (Option (Job I)) → Prop where
  | missing : files.lookup m = none → PrepareOne files V p m (p, .error .notFound)
  | known : Finished p m → PrepareOne files V p m (p, .ok none)
  | bad : Fresh p m → (∀ d, ¬ Needs files d m) → Inv files V (p.set m (.error false)) →
      PrepareOne files V p m (p.set m (.error false), .ok none)
  | job (q : Table E) (job : Job I) : Fresh p m → q.states = (p.set m .loading).states →
      Inv files V q → job.mod = m → JobWell files p job →
      PrepareOne files V p m (q, .ok (some job))

theorem prepareJob_spec {El : Elaborator E I σ} {files : Files I} {V : Mod → Option E}
    (hV : Result El files V) {p : Table E} (hp : Inv files V p) (m : Mod)
    (hm : p.states m ≠ some .loading) : PrepareOne files V p m (prepareJob files p m) := by
  have fresh : Fresh p m → PrepareOne files V p m (prepareJob files p m) := by
    intro hfr
    have e : prepareJob files p m =
        (match files.lookup m with
        | none => (p, .error .notFound)
        | some .unparsable => (p.set m (.error false), .ok none)
        | some (.parsed stmts) =>
          let r := noteDependencies m (libNames stmts) (p.set m .loading) (dependencyNames stmts)
          (r.1, .ok (some ⟨m, stmts, withPrelude r.1 m r.2.1, r.2.2⟩))) := by
      rcases hfr with h | h <;> simp only [prepareJob, h] <;> rfl
    rw [e]
    cases hf : files.lookup m with
    | none => exact .missing hf
    | some f =>
      cases f with
      | unparsable =>
        refine .bad hfr ?_ (unparsable_inv hV hp hf)
        rintro d ⟨_, h, _⟩
        rw [hf] at h; cases h
      | parsed stmts =>
        obtain ⟨a, b, c, f⟩ := noteDependencies_spec (I := I) (V := V) m (libNames stmts)
          (dependencyNames stmts) (p.set m .loading) (hp.enter hfr)
        simp only
        generalize noteDependencies m (libNames stmts) (p.set m .loading) (dependencyNames stmts)
          = r at a b c f
        have hn : ∀ d, d ≠ m → (noted (p.set m .loading) m d = true ↔ p.states d ≠ none) := by
          intro d hd
          rw [noted_iff, set_states, if_neg hd]
          exact ⟨fun h => h.2, fun h => ⟨hd, h⟩⟩
        have mem0 : ∀ d, d ∈ r.2.1 ↔ d ∈ dependencyNames stmts ∧ d ≠ m ∧ p.states d ≠ none := by
          intro d
          rw [c, List.mem_filter]
          by_cases hd : d = m
          · simp [hd, noted]
          · rw [hn d hd]; simp [hd]
        have mem : ∀ d, d ∈ withPrelude r.1 m r.2.1 ↔
            d ∈ r.2.1 ∨ (d = preludeMod ∧ m ≠ preludeMod ∧ p.states preludeMod ≠ none) := by
          intro d
          unfold withPrelude
          rw [a, set_states]
          by_cases hm' : m = preludeMod
          · rw [if_pos hm']; simp [hm']
          · rw [if_neg hm', if_neg (Ne.symm hm')]
            cases hs : p.states preludeMod with
            | none => simp
            | some s => simp only [mem_addDependency]; simp [hm']
        refine .job _ _ hfr a b rfl ⟨hf, ?_, ?_, ?_, ?_⟩
        · show (withPrelude r.1 m r.2.1).Nodup
          have nd : r.2.1.Nodup := by rw [c]; exact (dependencyNames_nodup stmts).filter _
          unfold withPrelude
          split
          · exact nd
          · split
            · exact addDependency_nodup nd
            · exact nd
        · intro d hd
          rcases (mem d).1 hd with h | ⟨rfl, h, _⟩
          · obtain ⟨h1, h2, _⟩ := (mem0 d).1 h
            exact ⟨h2, (needs_iff hf d).2 (.inl h1)⟩
          · exact ⟨Ne.symm h, (needs_iff hf _).2 (.inr ⟨rfl, h⟩)⟩
        · intro d h1 h2 h3
          show d ∈ withPrelude r.1 m r.2.1
          rw [mem]
          rcases (needs_iff hf d).1 h1 with h | ⟨rfl, h⟩
          · exact .inl ((mem0 d).2 ⟨h, h2, h3⟩)
          · exact .inr ⟨rfl, h, h3⟩
        · intro h
          show r.2.2 = _
          rw [f]
          congr 1
          rw [List.filter_eq_self]
          intro d hd
          obtain ⟨hdm, h2⟩ : d ≠ m ∧ p.states d ≠ none := by
            rcases (mem d).1 (h d hd) with k | ⟨rfl, k, k'⟩
            · exact ((mem0 d).1 k).2
            · exact ⟨Ne.symm k, k'⟩
          exact (hn d hdm).2 h2
  rcases fresh_cases p m with h | h | h
  · exact fresh h
  · exact absurd h hm
  · have e : prepareJob files p m = (p, .ok none) := by
      rcases h with ⟨_, h⟩ | ⟨_, h⟩ <;> rw [prepareJob, h]
    rw [e]
    exact .known h

/-- What preparing all jobs does. -/
structure PrepareWell (files : Files I) (V : Mod → Option E) (p : Table E) (ms : List Mod)
    (q : Table E) (jobs : List (Job I)) : Prop where
  inv : Inv files V q
  stays : ∀ x, Finished p x → q.states x = p.states x
  loading : ∀ x, q.states x = some .loading ↔ p.states x = some .loading ∨ ∃ j ∈ jobs, j.mod = x
  known : ∀ m ∈ ms, Finished q m ∨ ∃ j ∈ jobs, j.mod = m
  nodup : (jobs.map (·.mod)).Nodup
  sub : ∀ j ∈ jobs, j.mod ∈ ms
  well : ∀ j ∈ jobs, JobWell files p j
  added : ∀ x, Finished q x → Finished p x ∨ ∀ d, ¬ Needs files d x

theorem prepareAll_spec {El : Elaborator E I σ} {files : Files I} {V : Mod → Option E}
    (hV : Result El files V) (ms : List Mod) (hn : ms.Nodup) (p : Table E) (hp : Inv files V p)
    (hm : ∀ m ∈ ms, p.states m ≠ some .loading) :
    (∀ q e, prepareAll (I := I) files p ms = (q, .error e) →
      e = .notFound ∧ ∃ m ∈ ms, files.lookup m = none) ∧
    ∀ q jobs, prepareAll files p ms = (q, .ok jobs) → PrepareWell files V p ms q jobs := by
  induction ms generalizing p with
  | nil =>
    refine ⟨fun q e h => by simp [prepareAll] at h, fun q jobs h => ?_⟩
    simp only [prepareAll, Prod.mk.injEq, Except.ok.injEq] at h
    obtain ⟨rfl, rfl⟩ := h
    exact ⟨hp, fun _ _ => rfl, by simp, by simp, by simp, by simp, by simp, fun _ h => .inl h⟩
  | cons m ms ih =>
    have hn' := List.nodup_cons.1 hn
    have one := prepareJob_spec hV hp m (hm m (.head _))
    rw [prepareAll]
    cases hr : prepareJob files p m with
    | mk p' res =>
      rw [hr] at one
      cases one with
      | missing hf =>
        simp only
        refine ⟨fun q e h => ?_, fun q jobs h => by simp at h⟩
        simp only [Prod.mk.injEq, Except.error.injEq] at h
        exact ⟨h.2.symm, m, .head _, hf⟩
      | known hk =>
        simp only
        obtain ⟨i1, i2⟩ := ih hn'.2 p hp (fun x hx => hm x (.tail _ hx))
        refine ⟨fun q e h => ?_, fun q jobs h => ?_⟩
        · obtain ⟨a, x, hx, b⟩ := i1 q e h
          exact ⟨a, x, .tail _ hx, b⟩
        · have w := i2 q jobs h
          refine { w with known := fun x hx => ?_, sub := fun j hj => .tail _ (w.sub j hj) }
          rcases List.mem_cons.1 hx with rfl | hx
          · left
            unfold Finished
            rw [w.stays x hk]
            exact hk
          · exact w.known x hx
      | bad hfr hno hinv =>
        simp only
        have ne : ∀ x ∈ ms, x ≠ m := fun x hx e => hn'.1 (e ▸ hx)
        obtain ⟨i1, i2⟩ := ih hn'.2 (p.set m (.error false)) hinv (fun x hx => by
          rw [set_states, if_neg (ne x hx)]; exact hm x (.tail _ hx))
        refine ⟨fun q e h => ?_, fun q jobs h => ?_⟩
        · obtain ⟨a, x, hx, b⟩ := i1 q e h
          exact ⟨a, x, .tail _ hx, b⟩
        · have w := i2 q jobs h
          have fm : Finished (p.set m (.error false)) m := .inr ⟨false, by simp [set_states]⟩
          refine ⟨w.inv, fun x hx => ?_, fun x => ?_, fun x hx => ?_, w.nodup,
            fun j hj => .tail _ (w.sub j hj), fun j hj => (w.well j hj).mono fun x hx => ?_,
            fun x hx => ?_⟩
          · have e : x ≠ m := fun e => hfr.not_finished (e ▸ hx)
            rw [w.stays x, set_states, if_neg e]
            unfold Finished
            rw [set_states, if_neg e]
            exact hx
          · rw [w.loading x, set_states]
            by_cases e : x = m
            · rw [if_pos e, e]
              constructor
              · rintro (h | h)
                · cases h
                · exact .inr h
              · rintro (h | h)
                · exact absurd h hfr.not_loading
                · exact .inr h
            · rw [if_neg e]
          · rcases List.mem_cons.1 hx with rfl | hx
            · left
              unfold Finished
              rw [w.stays x fm]
              exact fm
            · exact w.known x hx
          · rw [set_states]; split
            · simp
            · exact hx
          · rcases w.added x hx with h | h
            · by_cases e : x = m
              · rw [e]; exact .inr hno
              · unfold Finished at h
                rw [set_states, if_neg e] at h
                exact .inl h
            · exact .inr h
      | job p' job hfr hst hinv hmod hwell =>
        have ne : ∀ x ∈ ms, x ≠ m := fun x hx e => hn'.1 (e ▸ hx)
        have st : ∀ x, p'.states x = if x = m then some .loading else p.states x :=
          fun x => by rw [hst, set_states]
        obtain ⟨i1, i2⟩ := ih hn'.2 p' hinv (fun x hx => by
          rw [st, if_neg (ne x hx)]; exact hm x (.tail _ hx))
        simp only
        cases hr2 : prepareAll (I := I) files p' ms with
        | mk q' res2 =>
          cases res2 with
          | error e' =>
            simp only
            refine ⟨fun q e h => ?_, fun q jobs h => by simp at h⟩
            simp only [Prod.mk.injEq, Except.error.injEq] at h
            obtain ⟨rfl, rfl⟩ := h
            obtain ⟨a, x, hx, b⟩ := i1 _ _ hr2
            exact ⟨a, x, .tail _ hx, b⟩
          | ok jobs' =>
            simp only
            refine ⟨fun q e h => by simp at h, fun q jobs h => ?_⟩
            simp only [Prod.mk.injEq, Except.ok.injEq] at h
            obtain ⟨rfl, rfl⟩ := h
            have w := i2 _ _ hr2
            refine ⟨w.inv, fun x hx => ?_, fun x => ?_, fun x hx => ?_, ?_, fun j hj => ?_,
              fun j hj => ?_, fun x hx => ?_⟩
            · have e : x ≠ m := fun e => hfr.not_finished (e ▸ hx)
              rw [w.stays x, st, if_neg e]
              unfold Finished
              rw [st, if_neg e]
              exact hx
            · rw [w.loading x, st]
              by_cases e : x = m
              · rw [if_pos e]
                exact ⟨fun _ => .inr ⟨job, .head _, hmod.trans e.symm⟩, fun _ => .inl rfl⟩
              · rw [if_neg e]
                constructor
                · rintro (h | ⟨j, h, k⟩)
                  · exact .inl h
                  · exact .inr ⟨j, .tail _ h, k⟩
                · rintro (h | ⟨j, h, k⟩)
                  · exact .inl h
                  · rcases List.mem_cons.1 h with rfl | h
                    · exact absurd (k.symm.trans hmod) e
                    · exact .inr ⟨j, h, k⟩
            · rcases List.mem_cons.1 hx with rfl | hx
              · exact .inr ⟨job, .head _, hmod⟩
              · rcases w.known x hx with h | ⟨j, h, k⟩
                · exact .inl h
                · exact .inr ⟨j, .tail _ h, k⟩
            · rw [List.map_cons, List.nodup_cons]
              refine ⟨fun h => ?_, w.nodup⟩
              obtain ⟨j, hj, e⟩ := List.mem_map.1 h
              exact hn'.1 (hmod ▸ e ▸ w.sub j hj)
            · rcases List.mem_cons.1 hj with rfl | hj
              · rw [hmod]; exact .head _
              · exact .tail _ (w.sub j hj)
            · rcases List.mem_cons.1 hj with rfl | hj
              · exact hwell
              · refine (w.well j hj).mono fun x hx => ?_
                rw [st]; split
                · simp
                · exact hx
            · rcases w.added x hx with h | h
              · by_cases e : x = m
                · unfold Finished at h
                  rw [st, if_pos e] at h
                  simp at h
                · unfold Finished at h
                  rw [st, if_neg e] at h
                  exact .inl h
              · exact .inr h

end Acorn.Proj
