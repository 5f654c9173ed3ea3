import Verif.Lemmas.Pipeline
/-
C35: the outcome of a parallel build does not depend on the schedule.
-/
namespace Acorn.Build
open Spec Paths

/-- C35 for a batch: however the modules are distributed over the workers, and in whatever order the
workers deliver their results, the builder ends in the state it has after merging the results in
order. -/
theorem C35_batch (b : Builder) (results : List Result) (workers : List (List (Nat × Result)))
    (h : workers.flatten.Perm (results.zipIdx.map fun e => (e.2, e.1))) :
    b.mergeBatch workers = results.foldl Builder.merge b := by
  unfold Builder.mergeBatch
  have hsorted : (results.zipIdx.map fun e => (e.2, e.1)).Pairwise
      (fun x y : Nat × Result => x.1 < y.1) := by
    rw [List.pairwise_map]
    have : ∀ (l : List Result) (n : Nat), (l.zipIdx n).Pairwise fun x y => x.2 < y.2 := by
      intro l
      induction l with
      | nil => intro n; exact List.Pairwise.nil
      | cons a l ih =>
        intro n
        rw [List.zipIdx_cons, List.pairwise_cons]
        refine ⟨fun x hx => ?_, ih _⟩
        have := List.le_snd_of_mem_zipIdx hx
        exact Nat.lt_of_succ_le this
    exact this results 0
  have hnodup : ((results.zipIdx.map fun e => (e.2, e.1)).map Prod.fst).Nodup := by
    rw [List.nodup_iff_pairwise_ne, List.pairwise_map]
    exact hsorted.imp fun h => Nat.ne_of_lt h
  have hperm : (workers.flatten.mergeSort fun x y => decide (x.1 ≤ y.1)).Perm
      (results.zipIdx.map fun e => (e.2, e.1)) := (List.mergeSort_perm _ _).trans h
  have hs : (workers.flatten.mergeSort fun x y : Nat × Result => decide (x.1 ≤ y.1)).Pairwise
      fun x y => x.1 ≤ y.1 := by
    have := List.pairwise_mergeSort (le := fun x y : Nat × Result => decide (x.1 ≤ y.1))
      (fun a b c h1 h2 => by simp at *; omega) (fun a b => by simp; omega) workers.flatten
    simpa using this
  have e : (workers.flatten.mergeSort fun x y => decide (x.1 ≤ y.1)) =
      (results.zipIdx.map fun e => (e.2, e.1)) := by
    refine List.Perm.eq_of_pairwise ?_ hs (hsorted.imp fun h => Nat.le_of_lt h) hperm
    intro x y hx hy h1 h2
    have hxy : x.1 = y.1 := Nat.le_antisymm h1 h2
    obtain ⟨i, hi, rfl⟩ := List.getElem_of_mem (hperm.subset hx)
    obtain ⟨j, hj, rfl⟩ := List.getElem_of_mem hy
    rcases Nat.lt_trichotomy i j with hlt | rfl | hlt
    · exact absurd hxy (Nat.ne_of_lt (List.pairwise_iff_getElem.1 hsorted i j hi hj hlt))
    · rfl
    · exact absurd hxy.symm (Nat.ne_of_lt (List.pairwise_iff_getElem.1 hsorted j i hj hi hlt))
  rw [e, List.map_map]
  congr 1
  exact List.zipIdx_map_fst 0 results

/-- C35 for the pipeline, at every moment of every execution: the results merged so far are those of
the first modules in the order of loading, whatever the order in which they arrived; nothing is
reported out of order. -/
theorem C35_in_order (src : Path) (p : Project) (w : Bool) (id : Nat) (batches : List (List Item))
    (s : Pipe) (h : Reachable src p w id batches s) :
    ∃ n done, done <+: batches ∧ n ≤ (allResults done).length ∧
      SameReport s.builder (((allResults done).take n).foldl Builder.merge
        (done.foldl (Builder.prepare src p) { id })) := by
  have hi := PipeInv.reachable h
  obtain ⟨done, hl1, hl2, hl3, _⟩ := hi.loaded
  have hall : allResults batches = allResults done ++ allResults s.todo := by
    rw [← allResults_append, ← hl1]
  have hn : s.nextMerge ≤ (allResults done).length := by
    have h1 := hi.index
    have h2 := hi.merge
    have h3 := congrArg List.length hl2
    have h4 := congrArg List.length hall
    simp at h3 h4
    omega
  refine ⟨s.nextMerge, done, ⟨s.todo, hl1.symm⟩, hn, ?_⟩
  rw [hall, List.take_append_of_le_length hn] at hl3
  exact hl3

/-- C35 for the pipeline: every execution that is not stopped early ends with the same status, metrics,
certificates, use counts and order of events as verifying the modules one after another. -/
theorem C35_outcome_partial (src : Path) (p : Project) (w : Bool) (id : Nat)
    (batches : List (List Item)) (s : Pipe) (h : Reachable src p w id batches s)
    (hd : s.Done w) (hstop : s.stopped w = false) :
    SameReport s.builder (sequential src p id batches) := by
  have hi := PipeInv.reachable h
  obtain ⟨hf, hd⟩ := hd
  obtain ⟨he, ht⟩ := hd.resolve_left (by rw [hstop]; exact Bool.false_ne_true)
  have hn := hi.all_merged hf he ht
  obtain ⟨done, hl1, _, hl3, _⟩ := hi.loaded
  rw [ht, List.append_nil] at hl1
  subst hl1
  rw [hn, List.take_length] at hl3
  exact hl3

/-- C35, the manifests: every such execution also records the same hashes in the manifests. -/
theorem C35_manifests_partial (src : Path) (p : Project) (w : Bool) (id : Nat)
    (batches : List (List Item)) (hc : ConsistentHashes src p batches) (s : Pipe)
    (h : Reachable src p w id batches s) (hd : s.Done w) (hstop : s.stopped w = false) (k : Place) :
    hashAt s.builder.cache k = hashAt (sequential src p id batches).cache k := by
  have hi := PipeInv.reachable h
  obtain ⟨hf, hd⟩ := hd
  obtain ⟨he, ht⟩ := hd.resolve_left (by rw [hstop]; exact Bool.false_ne_true)
  have hn := hi.all_merged hf he ht
  obtain ⟨done, hl1, _, _, hl4⟩ := hi.loaded
  rw [ht, List.append_nil] at hl1
  subst hl1
  rw [hn, List.take_length] at hl4
  have hseq : Holds (sequential src p id batches).cache (fun c => loadWrites src p batches.flatten c ∨
      resultWrites (allResults batches) c) := by
    have h0 : Holds ({ id } : Builder).cache (fun _ => False) := by
      intro k
      have hemp : ∀ k, hashAt Cache.empty k = none := by intro k; cases k <;> rfl
      refine ⟨fun g e => ?_, fun _ _ hw => hw.elim⟩
      rw [show ({ id } : Builder).cache = Cache.empty from rfl, hemp] at e
      cases e
    have key : ∀ (l : List (List Item)) (b : Builder) (W : Cache → Prop), Holds b.cache W →
        Holds (l.foldl (Builder.prepare src p) b).cache
          (fun c => W c ∨ loadWrites src p l.flatten c) := by
      intro l
      induction l with
      | nil => intro b W hW; exact hW.congr fun x => by simp [loadWrites]
      | cons a l ih =>
        intro b W hW
        refine (ih _ _ (hW.prepare src p a)).congr fun x => ?_
        simp only [loadWrites, List.flatten_cons, List.mem_append]
        constructor
        · rintro ((h | ⟨d, h, e⟩) | ⟨d, h, e⟩)
          · exact Or.inl h
          · exact Or.inr ⟨d, Or.inl h, e⟩
          · exact Or.inr ⟨d, Or.inr h, e⟩
        · rintro (h | ⟨d, h | h, e⟩)
          · exact Or.inl (Or.inl h)
          · exact Or.inl (Or.inr ⟨d, h, e⟩)
          · exact Or.inr ⟨d, h, e⟩
    exact ((key batches _ _ h0).foldl_merge (allResults batches)).congr fun x => by simp
  refine hl4.unique hseq ?_ k
  have hitem : ∀ x, loadWrites src p batches.flatten x ∨ resultWrites (allResults batches) x →
      ∃ i ∈ batches.flatten, Item.writes src p i = some x := by
    rintro x (⟨d, hd, rfl⟩ | ⟨r, hr, hx⟩)
    · exact ⟨_, hd, rfl⟩
    · obtain ⟨i, hi, hr⟩ := List.mem_filterMap.1 hr
      cases i with
      | interface d => cases hr
      | module sf g q => cases hr; exact ⟨_, hi, hx⟩
  intro x y hx hy k g g' hg hg'
  obtain ⟨i, hi, hix⟩ := hitem x hx
  obtain ⟨j, hj, hjy⟩ := hitem y hy
  exact hc i hi j hj x y hix hjy k g g' hg hg'

/-- C35, the status, for every execution, stopped early or not: it ends good exactly when every module
is good, and, unless warnings stop the build, with an error exactly when some module has an error. -/
theorem C35_status (src : Path) (p : Project) (w : Bool) (id : Nat) (batches : List (List Item))
    (s : Pipe) (h : Reachable src p w id batches s) (hd : s.Done w) :
    (s.builder.status = .good ↔ ∀ r ∈ allResults batches, r.status = .good) ∧
    (w = false → (s.builder.status = .error ↔ ∃ r ∈ allResults batches, r.status = .error)) := by
  have hi := PipeInv.reachable h
  obtain ⟨hg, he⟩ := hi.status
  have hmerged : s.stopped w = false → s.nextMerge = (allResults batches).length := by
    intro hs
    obtain ⟨h1, h2⟩ := hd.2.resolve_left (by rw [hs]; exact Bool.false_ne_true)
    exact hi.all_merged hd.1 h1 h2
  refine ⟨⟨fun hgood => ?_, fun hall => ?_⟩, fun hw => ⟨fun herr => ?_, fun hex => ?_⟩⟩
  · have := hg.1 hgood
    rw [hmerged (by simp [Pipe.stopped, hgood]), List.take_length] at this
    exact this
  · exact hg.2 fun r hr => hall r (List.mem_of_mem_take hr)
  · obtain ⟨r, hr, e⟩ := he.1 herr
    exact ⟨r, List.mem_of_mem_take hr, e⟩
  · cases hst : s.stopped w with
    | true =>
      subst hw
      simpa [Pipe.stopped] using hst
    | false =>
      rw [hmerged hst, List.take_length] at he
      exact he.2 hex

/-- C35, the counts: every execution that is not stopped early ends with counts that are the sums over
all modules, and announces as many goals as the modules have. -/
theorem C35_counts (src : Path) (p : Project) (w : Bool) (id : Nat) (batches : List (List Item))
    (s : Pipe) (h : Reachable src p w id batches s) (hd : s.Done w) (hstop : s.stopped w = false) :
    let rs := (allResults batches).map Result.metrics
    s.builder.metrics.goalsDone = (rs.map (·.goalsDone)).sum ∧
    s.builder.metrics.goalsSuccess = (rs.map (·.goalsSuccess)).sum ∧
    s.builder.metrics.modulesCached = (rs.map (·.modulesCached)).sum ∧
    s.builder.metrics.certsCached = (rs.map (·.certsCached)).sum ∧
    s.builder.metrics.certsCreated = (rs.map (·.certsCreated)).sum ∧
    s.builder.metrics.searches = (rs.map (·.searches)).sum ∧
    s.builder.metrics.modulesTotal = (allResults batches).length := by
  rw [(C35_outcome_partial src p w id batches s h hd hstop).metrics]
  unfold sequential
  have hm : ∀ (rs : List Result) (b : Builder),
      (rs.foldl Builder.merge b).metrics.goalsDone =
        b.metrics.goalsDone + ((rs.map Result.metrics).map (·.goalsDone)).sum ∧
      (rs.foldl Builder.merge b).metrics.goalsSuccess =
        b.metrics.goalsSuccess + ((rs.map Result.metrics).map (·.goalsSuccess)).sum ∧
      (rs.foldl Builder.merge b).metrics.modulesCached =
        b.metrics.modulesCached + ((rs.map Result.metrics).map (·.modulesCached)).sum ∧
      (rs.foldl Builder.merge b).metrics.certsCached =
        b.metrics.certsCached + ((rs.map Result.metrics).map (·.certsCached)).sum ∧
      (rs.foldl Builder.merge b).metrics.certsCreated =
        b.metrics.certsCreated + ((rs.map Result.metrics).map (·.certsCreated)).sum ∧
      (rs.foldl Builder.merge b).metrics.searches =
        b.metrics.searches + ((rs.map Result.metrics).map (·.searches)).sum ∧
      (rs.foldl Builder.merge b).metrics.modulesTotal = b.metrics.modulesTotal := by
    intro rs
    induction rs with
    | nil => intro b; simp
    | cons r rs ih =>
      intro b
      obtain ⟨h1, h2, h3, h4, h5, h6, h7⟩ := ih (b.merge r)
      simp only [List.foldl_cons, List.map_cons, List.sum_cons, h1, h2, h3, h4, h5, h6, h7]
      simp only [Builder.merge, Metrics.addResult, and_true]
      omega
  have hone : ∀ (l : List Item) (b : Builder),
      let b' := l.foldl (Builder.prepareOne src p) b
      b'.metrics.goalsDone = b.metrics.goalsDone ∧ b'.metrics.goalsSuccess = b.metrics.goalsSuccess ∧
      b'.metrics.modulesCached = b.metrics.modulesCached ∧
      b'.metrics.certsCached = b.metrics.certsCached ∧
      b'.metrics.certsCreated = b.metrics.certsCreated ∧ b'.metrics.searches = b.metrics.searches ∧
      b'.metrics.modulesTotal = b.metrics.modulesTotal := by
    intro l
    induction l with
    | nil => intro b; simp
    | cons i l ih =>
      intro b
      obtain ⟨h1, h2, h3, h4, h5, h6, h7⟩ := ih (b.prepareOne src p i)
      dsimp only at h1 h2 h3 h4 h5 h6 h7 ⊢
      simp only [List.foldl_cons, h1, h2, h3, h4, h5, h6, h7]
      cases i with
      | interface d => simp [Builder.prepareOne]
      | module sf g r => cases sf <;> simp [Builder.prepareOne]
  have hp : ∀ (l : List (List Item)) (b : Builder),
      let b' := l.foldl (Builder.prepare src p) b
      b'.metrics.goalsDone = b.metrics.goalsDone ∧ b'.metrics.goalsSuccess = b.metrics.goalsSuccess ∧
      b'.metrics.modulesCached = b.metrics.modulesCached ∧
      b'.metrics.certsCached = b.metrics.certsCached ∧
      b'.metrics.certsCreated = b.metrics.certsCreated ∧ b'.metrics.searches = b.metrics.searches ∧
      b'.metrics.modulesTotal = b.metrics.modulesTotal + (allResults l).length := by
    intro l
    induction l with
    | nil => intro b; simp [allResults, itemResults]
    | cons i l ih =>
      intro b
      obtain ⟨h1, h2, h3, h4, h5, h6, h7⟩ := ih (b.prepare src p i)
      obtain ⟨k1, k2, k3, k4, k5, k6, k7⟩ := hone i b
      dsimp only at h1 h2 h3 h4 h5 h6 h7 k1 k2 k3 k4 k5 k6 k7 ⊢
      simp only [List.foldl_cons, h1, h2, h3, h4, h5, h6, h7]
      have hr : allResults (i :: l) = itemResults i ++ allResults l := allResults_cons _ _
      refine ⟨k1, k2, k3, k4, k5, k6, ?_⟩
      rw [hr, List.length_append]
      simp only [Builder.prepare, k7]
      omega
  obtain ⟨h1, h2, h3, h4, h5, h6, h7⟩ := hm (allResults batches) (batches.foldl (Builder.prepare src p) { id })
  obtain ⟨k1, k2, k3, k4, k5, k6, k7⟩ := hp batches { id }
  dsimp only at k1 k2 k3 k4 k5 k6 k7 ⊢
  rw [h1, h2, h3, h4, h5, h6, h7, k1, k2, k3, k4, k5, k6, k7]
  simp

/-- C35: the build does not get stuck. -/
theorem C35_progress (src : Path) (p : Project) (w : Bool) (s : Pipe) (hd : ¬ s.Done w) :
    ∃ s', Pipe.Step src p w s s' := by
  cases hf : s.flight with
  | cons e l => exact ⟨_, .receive s e.1 e.2 [] l hf⟩
  | nil =>
    have hstop : s.stopped w = false := by
      cases hs : s.stopped w with
      | false => rfl
      | true => exact absurd ⟨hf, Or.inl hs⟩ hd
    cases he : s.enq with
    | cons r l => exact ⟨_, .enqueue s r l hstop he⟩
    | nil =>
      cases ht : s.todo with
      | cons b l => exact ⟨_, .load s b l hstop he ht⟩
      | nil => exact absurd ⟨hf, Or.inr ⟨he, ht⟩⟩ hd

/-- C35: every execution ends. -/
theorem C35_terminates (src : Path) (p : Project) (w : Bool) :
    WellFounded fun s' s : Pipe => Pipe.Step src p w s s' := by
  refine Subrelation.wf (r := InvImage (· < ·) fun s : Pipe =>
    s.todo.length + 2 * (s.enq.length + (allResults s.todo).length) + s.flight.length) ?_
    (InvImage.wf _ Nat.lt_wfRel.wf)
  intro s' s hs
  simp only [InvImage]
  cases hs with
  | load batch rest hstop he ht =>
    simp only [he, ht, allResults_cons, List.length_append, List.length_cons, List.length_nil]
    omega
  | enqueue r rest hstop he =>
    simp only [he, List.length_append, List.length_cons, List.length_nil]
    omega
  | receive i r before after hf =>
    have h1 : (({ s with flight := before ++ after } : Pipe).receive i r).todo = s.todo := rfl
    have h2 : (({ s with flight := before ++ after } : Pipe).receive i r).enq = s.enq := rfl
    have h3 : (({ s with flight := before ++ after } : Pipe).receive i r).flight = before ++ after :=
      rfl
    rw [h1, h2, h3, hf]
    simp only [List.length_append, List.length_cons]
    omega

/-! ### Stopping early depends on the schedule, and examples -/

namespace PipeDemo

def src : Path := ["src".toList]
def p : Project where
  exist := fun _ => false
  modules := [.name ["a".toList], .name ["b".toList]]
  hash := fun d => if d = .name ["a".toList] then some 1 else some 2
  imports := fun _ => []

/-- The result of a module that fails to verify. -/
def bad : Result where
  status := .warning
  metrics := { goalsDone := 3, goalsSuccess := 2 }
  cache := some (doWork src p false .empty .empty (.module (.name ["a".toList]) false []))
  used := .empty
  events := [⟨7, some (3, 3), .name ["a".toList], "cannot verify".toList⟩]

/-- The result of a module that is verified. -/
def fine : Result where
  status := .good
  metrics := { goalsDone := 5, goalsSuccess := 5, certsCreated := 5 }
  cache := some (doWork src p false .empty .empty (.module (.name ["b".toList]) true []))
  used := .empty
  events := [⟨8, some (5, 5), .name ["b".toList], "verified".toList⟩]

def batches : List (List Item) := [[.module false 3 bad], [.module false 5 fine]]

/-- The first module is loaded and handed out. -/
def s1 : Pipe := { Pipe.start 1 batches with
  builder := Builder.prepare src p { id := 1 } [.module false 3 bad]
  todo := [[.module false 5 fine]], flight := [(0, bad)], nextIndex := 1 }

/-- Its result arrives, and the build stops because of the warning. -/
def early : Pipe := { s1 with flight := [] }.receive 0 bad

/-- Before its result arrives, the second module is loaded and handed out. -/
def s2 : Pipe := { s1 with
  builder := s1.builder.prepare src p [.module false 5 fine]
  todo := [], flight := [(0, bad), (1, fine)], nextIndex := 2 }

/-- The result of the second module arrives first, then that of the first. -/
def late : Pipe := { { s2 with flight := [(0, bad)] }.receive 1 fine with flight := [] }.receive 0 bad

theorem reach_s1 (w : Bool) : Reachable src p w 1 batches s1 := by
  have h1 := Pipe.Step.load (src := src) (p := p) (exitOnWarning := w) (.start 1 batches)
    [.module false 3 bad] [[.module false 5 fine]] (by cases w <;> rfl) rfl rfl
  have h2 := Pipe.Step.enqueue (src := src) (p := p) (exitOnWarning := w)
    { Pipe.start 1 batches with
      builder := Builder.prepare src p { id := 1 } [.module false 3 bad]
      todo := [[.module false 5 fine]], enq := [bad] } bad [] (by cases w <;> rfl) rfl
  exact (Relation.ReflTransGen.single h1).tail h2

theorem reach_early (w : Bool) : Reachable src p w 1 batches early :=
  (reach_s1 w).tail (.receive s1 0 bad [] [] rfl)

theorem reach_late (w : Bool) : Reachable src p w 1 batches late := by
  have h1 := Pipe.Step.load (src := src) (p := p) (exitOnWarning := w) s1
    [.module false 5 fine] [] (by cases w <;> rfl) rfl rfl
  have h2 := Pipe.Step.enqueue (src := src) (p := p) (exitOnWarning := w)
    { s1 with builder := s1.builder.prepare src p [.module false 5 fine], todo := [], enq := [fine] }
    fine [] (by cases w <;> rfl) rfl
  have h3 : Reachable src p w 1 batches s2 := ((reach_s1 w).tail h1).tail h2
  have h4 := h3.tail (.receive s2 1 fine [(0, bad)] [] rfl)
  exact h4.tail (.receive _ 0 bad [] [] rfl)

end PipeDemo

open PipeDemo in
/-- C35 fails for builds that stop at the first warning: depending on when a result arrives, a later
module is verified and recorded, or not. -/
theorem C35_early_stop_differs :
    Reachable src p true 1 batches early ∧ early.Done true ∧
    Reachable src p true 1 batches late ∧ late.Done true ∧
    early.builder.cache.certs.contains (.name ["b".toList]) = false ∧
    late.builder.cache.certs.contains (.name ["b".toList]) = true ∧
    early.builder.metrics ≠ late.builder.metrics :=
  ⟨reach_early true, ⟨rfl, Or.inl rfl⟩, reach_late true, ⟨rfl, Or.inl rfl⟩, by decide +kernel,
    by decide +kernel, by decide +kernel⟩

open PipeDemo in
/-- When warnings do not stop the build, the late execution is one to which the theorems apply; the
events come in the order of loading although the results came in the other. -/
example : Reachable src p false 1 batches late ∧ late.Done false ∧ late.stopped false = false ∧
    late.builder.log.map (·.text) = ["cannot verify".toList, "verified".toList] ∧
    late.builder.metrics.goalsDone = 8 ∧ late.builder.status = .warning ∧
    implementationOf late.builder.cache src ["b.ac".toList] = some 2 :=
  ⟨reach_late false, ⟨rfl, Or.inr ⟨rfl, rfl⟩⟩, rfl, by decide +kernel, by decide +kernel,
    by decide +kernel, by decide +kernel⟩

open PipeDemo in
example : ConsistentHashes src p batches := by
  have hb : ∀ k, hashAt (doWork src p false .empty .empty (.module (.name ["a".toList]) false [])) k =
      none := by intro k; cases k <;> rfl
  intro i hi j hj c d hc hd k g h hg hh
  have hi : i = .module false 3 bad ∨ i = .module false 5 fine := by simpa [batches] using hi
  have hj : j = .module false 3 bad ∨ j = .module false 5 fine := by simpa [batches] using hj
  rcases hi with rfl | rfl <;> cases hc
  · rw [hb] at hg; cases hg
  · rcases hj with rfl | rfl <;> cases hd
    · rw [hb] at hh; cases hh
    · rw [hg] at hh; exact Option.some.inj hh

open PipeDemo in
example : (Builder.mergeBatch { id := 1 } [[(1, fine)], [(0, bad)]]).log.map (·.text) =
    ["cannot verify".toList, "verified".toList] := by
  rw [C35_batch _ [bad, fine] _ (by
    rw [show ([bad, fine].zipIdx.map fun e => (e.2, e.1)) = [(0, bad), (1, fine)] from rfl]
    exact List.Perm.swap _ _ _)]
  decide +kernel

end Acorn.Build
