import Verif.Lemmas.BuildSkip
/-
C34: unchanged modules are skipped.
-/
namespace Acorn.Build
open Spec Paths

/-- C34: the dependencies whose content is compared are exactly the direct and indirect imports. -/
theorem C34_all_dependencies (p : Project) (hp : WellLoaded p) (m : Desc) (hm : m ∈ p.modules)
    (x : Desc) (hx : x ≠ m) :
    x ∈ p.allDependencies m ↔ DependsOn p.imports m x := by
  obtain ⟨h1, h2⟩ := mem_allDependencies hp.imports hm
  exact ⟨h2 x, fun h => (h1 x h).resolve_left hx⟩

/-- C34, the decision: a module is skipped exactly when comparing content is allowed, there are
certificates for it, and the content of the module and of every direct or indirect import is the one
recorded in the cache. -/
theorem C34_decision (src : Path) (p : Project) (hp : WellLoaded p) (checkHashes : Bool)
    (old : Cache) (m : Desc) (hm : m ∈ p.modules) :
    trySkip src p checkHashes old m = true ↔
      checkHashes = true ∧ old.certs.contains m = true ∧
        ∀ x, Closure p m x → ∃ h, p.hash x = some h ∧ old.manifestMatches p.exist src x h = true := by
  rw [trySkip_iff hp hm]
  have e : ∀ x, p.recorded src old x = true ↔
      ∃ h, p.hash x = some h ∧ old.manifestMatches p.exist src x h = true := by
    intro x
    unfold Project.recorded
    cases p.hash x <;> simp
  simp only [e]

/-- C34 for every series of full builds, with errors, failures and skipped modules among them: a
module is skipped only if an earlier build checked it successfully when it and everything it imports,
directly or not, had the same content as now. -/
theorem C34_full_builds_partial (src : Path) (runs : List Run) (p : Project) (checkHashes : Bool)
    (m : Desc) (hp : WellLoaded p) (hm : m ∈ p.modules)
    (hload : ∀ r ∈ runs, WellLoaded r.project ∧ WorksOnLoaded r)
    (hcontent : ImportsFromContent runs p)
    (hfull : ∀ r ∈ runs, r.partialBuild = false) (hwrite : ∀ r ∈ runs, r.writeCache = true)
    (hskip : trySkip src p checkHashes (cacheAfter src runs) m = true) :
    CheckedWithSameContent src runs p m := by
  generalize hn : runs.length = n
  induction n using Nat.strongRecOn generalizing runs p checkHashes with
  | ind n ih =>
    obtain ⟨_, _, hall⟩ := (trySkip_iff hp hm).1 hskip
    have hclosed : ∀ x, Closure p m x → x ∈ p.modules := by
      rintro x (rfl | hx)
      · exact hm
      · exact closed_reach hp.imports hm hx
    rcases full_one_run (src := src) (fun r hr => (hload r hr).2) hfull hwrite with h0 | ⟨i, r, h1, h2, h3⟩
    · obtain ⟨h, k, _, _, hk⟩ := recorded_iff.1 (hall m (Or.inl rfl))
      rw [h0] at hk; cases hk
    · have hrin : r ∈ runs := List.mem_of_getElem? h1
      have hrec : ∀ x, Closure p m x → ∃ h, p.hash x = some h ∧
          RecordedBy src r (cacheAfter src (runs.take i)) x h := by
        intro x hx
        obtain ⟨h, k, hh, hk, hc⟩ := recorded_iff.1 (hall x hx)
        obtain ⟨d, hd, hr⟩ := h3 k h hc
        have e : x = d := keyOf_inj (hp.proper x (hclosed x hx))
          ((hload r hrin).1.proper d hr.2.1) hk hd
        exact ⟨h, hh, e ▸ hr⟩
      obtain ⟨h, hh, hr⟩ := hrec m (Or.inl rfl)
      have hsame : ∀ x, Closure p m x → ∃ h, r.project.hash x = some h ∧ p.hash x = some h := by
        intro x hx
        obtain ⟨h, hh, hr⟩ := hrec x hx
        exact ⟨h, hr.1, hh⟩
      rcases hr.2.2 with hr' | hr'
      · exact ⟨i, r, h1, h2, hr', hsame⟩
      · have hi : i < runs.length := (List.getElem?_eq_some_iff.1 h1).1
        obtain ⟨j, q, hj, hq, hqc, hqs⟩ := ih i (by omega) (runs.take i) r.project r.checkHashes
          (hload r hrin).1 hr.2.1 (fun q hq => hload q (List.mem_of_mem_take hq))
          (by
            intro a b ha hb d h
            refine hcontent a b ?_ ?_ d h
            · rcases ha with rfl | ⟨q, hq, rfl⟩
              · exact Or.inr ⟨r, hrin, rfl⟩
              · exact Or.inr ⟨q, List.mem_of_mem_take hq, rfl⟩
            · rcases hb with rfl | ⟨q, hq, rfl⟩
              · exact Or.inr ⟨r, hrin, rfl⟩
              · exact Or.inr ⟨q, List.mem_of_mem_take hq, rfl⟩)
          (fun q hq => hfull q (List.mem_of_mem_take hq))
          (fun q hq => hwrite q (List.mem_of_mem_take hq)) hr' (by simp; omega)
        have hji : j < i := by
          have := (List.getElem?_eq_some_iff.1 hj).1
          simp at this; omega
        refine ⟨j, q, ?_, hq, ?_, ?_⟩
        · rw [List.getElem?_take_of_lt hji] at hj; exact hj
        · rw [List.take_take, Nat.min_eq_left (Nat.le_of_lt hji)] at hqc; exact hqc
        · -- the closure is the same in the build that skipped it
          have hcl : ∀ x, Closure p m x → Closure r.project m x := by
            rintro x (rfl | hx)
            · exact Or.inl rfl
            · right
              have step : ∀ y z, Closure p m y → z ∈ p.imports y → z ∈ r.project.imports y := by
                intro y z hy hz
                obtain ⟨h, e1, e2⟩ := hsame y hy
                rwa [hcontent r.project p (Or.inr ⟨r, hrin, rfl⟩) (Or.inl rfl) y h e1 e2]
              induction hx with
              | single h' => exact Relation.TransGen.single (step _ _ (Or.inl rfl) h')
              | tail h1 h' ih => exact ih.tail (step _ _ (Or.inr h1) h')
          intro x hx
          obtain ⟨h, e1, e2⟩ := hqs x (hcl x hx)
          obtain ⟨h', e3, e4⟩ := hsame x hx
          rw [e2] at e3
          cases e3
          exact ⟨h, e1, e4⟩

/-- C34 for every series of builds, partial ones too: of a skipped module and of everything it
imports, directly or not, each was checked successfully by an earlier build when it had its present
content.  What is missing is that one build saw all these contents together. -/
theorem C34_own_content_partial (src : Path) (runs : List Run) (p : Project) (checkHashes : Bool)
    (m : Desc) (hp : WellLoaded p) (hm : m ∈ p.modules)
    (hload : ∀ r ∈ runs, WellLoaded r.project ∧ WorksOnLoaded r)
    (hskip : trySkip src p checkHashes (cacheAfter src runs) m = true)
    (x : Desc) (hx : Closure p m x) : CheckedWithOwnContent src runs p x := by
  have hxm : x ∈ p.modules := by
    rcases hx with rfl | hx
    · exact hm
    · exact closed_reach hp.imports hm hx
  have hproper := hp.proper x hxm
  obtain ⟨h, k, hh, hk, hc⟩ := recorded_iff.1 (((trySkip_iff hp hm).1 hskip).2.2 x hx)
  have key : ∀ (n : Nat) (runs : List Run), runs.length = n →
      (∀ r ∈ runs, WellLoaded r.project ∧ WorksOnLoaded r) →
      (∀ exist k, keyOf exist src x = some k → (cacheAfter src runs).at k = some h →
        ∃ i r, runs[i]? = some r ∧ r.error = false ∧
          CheckedIn src r (cacheAfter src (runs.take i)) x ∧ r.project.hash x = some h) := by
    intro n
    induction n with
    | zero =>
      intro runs hn _ exist k _ hc
      rw [List.length_eq_zero_iff.1 hn] at hc
      rw [show cacheAfter src [] = .empty from rfl, empty_at] at hc
      cases hc
    | succ n ih =>
      intro runs hn hload exist k hk hc
      have hne : runs ≠ [] := by rintro rfl; cases hn
      obtain ⟨rs, r, rfl⟩ : ∃ rs r, runs = rs ++ [r] :=
        ⟨_, _, (List.dropLast_concat_getLast hne).symm⟩
      have hlen : rs.length = n := by simpa using hn
      have lift : ∀ exist k, keyOf exist src x = some k → (cacheAfter src rs).at k = some h →
          ∃ i q, (rs ++ [r])[i]? = some q ∧ q.error = false ∧
            CheckedIn src q (cacheAfter src ((rs ++ [r]).take i)) x ∧ q.project.hash x = some h := by
        intro exist k hk hc
        obtain ⟨i, q, e1, e2, e3, e4⟩ := ih rs hlen (fun q hq => hload q (by simp [hq])) exist k hk hc
        have hi : i < rs.length := (List.getElem?_eq_some_iff.1 e1).1
        refine ⟨i, q, by rw [List.getElem?_append_left hi]; exact e1, e2, ?_, e4⟩
        rw [List.take_append_of_le_length (Nat.le_of_lt hi)]
        exact e3
      rw [cacheAfter_snoc] at hc
      have hr := hload r (by simp)
      rcases after_at hr.2 hc with ⟨he, d, hd, hrec⟩ | hc
      · have e : x = d := keyOf_inj hproper (hr.1.proper d hrec.2.1) hk hd
        subst e
        rcases hrec.2.2 with h1 | h1
        · refine ⟨rs.length, r, by simp, he, ?_, hrec.1⟩
          rw [List.take_append_of_le_length (Nat.le_refl _), List.take_length]
          exact h1
        · obtain ⟨h', k', e1, e2, e3⟩ := recorded_iff.1
            (((trySkip_iff hr.1 hrec.2.1).1 h1).2.2 x (Or.inl rfl))
          rw [hrec.1] at e1
          cases e1
          exact lift _ k' e2 e3
      · exact lift exist k hk hc
  obtain ⟨i, r, e1, e2, e3, e4⟩ := key runs.length runs rfl hload p.exist k hk hc
  exact ⟨i, r, h, e1, e2, e3, e4, hh⟩

/-! ### Two histories in which a module is skipped wrongly -/

namespace SkipDemo

def src : Path := ["src".toList]
def a : Desc := .name ["a".toList]
def b : Desc := .name ["b".toList]

/-- Module `a` imports module `b`.  The content of `a` never changes; that of `b` is `hb`. -/
def project (hb : Hash) : Project where
  exist := fun _ => false
  modules := [a, b]
  hash := fun d => if d = a then some 10 else if d = b then some hb else none
  imports := fun d => if d = a then [b] else []

/-- A full build that verifies everything. -/
def first : Run where
  project := project 1
  checkHashes := true
  work := [.module b true default, .module a true default]
  error := false
  partialBuild := false
  writeCache := true

/-- `b` is edited, and only `b` is verified. -/
def onlyB : Run where
  project := project 2
  checkHashes := true
  work := [.module b true default]
  error := false
  partialBuild := true
  writeCache := true

/-- `b` is edited, both are verified, and the verification of `a` fails. -/
def failing : Run where
  project := project 2
  checkHashes := true
  work := [.module b true default, .module a false default]
  error := false
  partialBuild := true
  writeCache := true

/-- The project is built twice, the second time with everything skipped. -/
def again : Run := { first with checkHashes := true }

theorem loaded (hb : Hash) : WellLoaded (project hb) := by
  constructor
  · intro d hd
    have hd : d = a ∨ d = b := by simpa [project] using hd
    rcases hd with rfl | rfl
    · exact ⟨[], "a".toList, rfl, ⟨fun _ h => absurd h (by simp), validPart_iff.1 (by decide)⟩, Or.inl rfl⟩
    · exact ⟨[], "b".toList, rfl, ⟨fun _ h => absurd h (by simp), validPart_iff.1 (by decide)⟩, Or.inl rfl⟩
  · intro d _ x hx
    simp only [project] at hx ⊢
    split at hx
    · have : x = b := by simpa using hx
      simp [this]
    · cases hx

end SkipDemo

open SkipDemo in
/-- C34 fails for partial builds: `a` was verified against the first version of `b`; then only the
new version of `b` was verified; the next build skips `a`, which was never verified against it. -/
theorem C34_stale_skip :
    trySkip src (project 2) true (cacheAfter src [first, onlyB]) a = true ∧
      ¬ CheckedWithSameContent src [first, onlyB] (project 2) a := by
  refine ⟨by decide +kernel, ?_⟩
  rintro ⟨i, r, hi, -, hc, hs⟩
  have hb : Closure (project 2) a b := Or.inr (Relation.TransGen.single (by decide))
  match i, hi with
  | 0, hi =>
    cases hi
    obtain ⟨h, h1, h2⟩ := hs b hb
    have e1 : (1 : Nat) = h := Option.some.inj h1
    have e2 : (2 : Nat) = h := Option.some.inj h2
    exact absurd (e1.trans e2.symm) (by decide)
  | 1, hi =>
    cases hi
    rcases hc with ⟨st, hw, -⟩ | hw
    · have hw : Work.module a true st = Work.module b true default := by simpa [onlyB] using hw
      have : a = b := by injection hw
      exact absurd this (by decide)
    · have hw : Work.interface a = Work.module b true default := by simp [onlyB] at hw
      cases hw
  | i + 2, hi => cases hi

open SkipDemo in
/-- C34 fails for partial builds: a module whose verification has just failed is skipped by the next
build as if it were verified. -/
theorem C34_failed_module_skipped :
    trySkip src (project 2) true (cacheAfter src [first, failing]) a = true ∧
      ¬ CheckedWithSameContent src [first, failing] (project 2) a := by
  refine ⟨by decide +kernel, ?_⟩
  rintro ⟨i, r, hi, -, hc, hs⟩
  have hb : Closure (project 2) a b := Or.inr (Relation.TransGen.single (by decide))
  match i, hi with
  | 0, hi =>
    cases hi
    obtain ⟨h, h1, h2⟩ := hs b hb
    have e1 : (1 : Nat) = h := Option.some.inj h1
    have e2 : (2 : Nat) = h := Option.some.inj h2
    exact absurd (e1.trans e2.symm) (by decide)
  | 1, hi =>
    cases hi
    rcases hc with ⟨st, hw, -⟩ | hw
    · have hw : Work.module a true st = Work.module b true default ∨
          Work.module a true st = Work.module a false default := by simpa [failing] using hw
      rcases hw with hw | hw
      · have : a = b := by injection hw
        exact absurd this (by decide)
      · have : true = false := by injection hw
        cases this
    · have hw : Work.interface a = Work.module b true default ∨
          Work.interface a = Work.module a false default := by simp [failing] at hw
      rcases hw with hw | hw <;> cases hw
  | i + 2, hi => cases hi

/-! ### The hypotheses can be met -/

open SkipDemo in
/-- After a full build, and again after a second one that skips everything, `a` is skipped, and it was
checked with the same content. -/
example : trySkip src (project 1) true (cacheAfter src [first, again]) a = true ∧
    CheckedWithSameContent src [first, again] (project 1) a := by
  have hskip : trySkip src (project 1) true (cacheAfter src [first, again]) a = true := by
    decide +kernel
  refine ⟨hskip, C34_full_builds_partial src _ _ true a (loaded 1) (by decide) ?_ ?_ ?_ ?_ hskip⟩
  · intro r hr
    have hr : r = first ∨ r = again := by simpa using hr
    rcases hr with rfl | rfl
    · refine ⟨loaded 1, ?_⟩
      intro w hw
      have hw : w = .module b true default ∨ w = .module a true default := by
        simpa [first] using hw
      rcases hw with rfl | rfl <;> decide
    · refine ⟨loaded 1, ?_⟩
      intro w hw
      have hw : w = .module b true default ∨ w = .module a true default := by
        simpa [again, first] using hw
      rcases hw with rfl | rfl <;> decide
  · rintro q q' (rfl | ⟨r, hr, rfl⟩) (rfl | ⟨r', hr', rfl⟩) d h _ _
    · rfl
    · have hr' : r' = first ∨ r' = again := by simpa using hr'
      rcases hr' with rfl | rfl <;> rfl
    · have hr : r = first ∨ r = again := by simpa using hr
      rcases hr with rfl | rfl <;> rfl
    · have hr : r = first ∨ r = again := by simpa using hr
      have hr' : r' = first ∨ r' = again := by simpa using hr'
      rcases hr with rfl | rfl <;> rcases hr' with rfl | rfl <;> rfl
  · intro r hr
    have hr : r = first ∨ r = again := by simpa using hr
    rcases hr with rfl | rfl <;> rfl
  · intro r hr
    have hr : r = first ∨ r = again := by simpa using hr
    rcases hr with rfl | rfl <;> rfl

open SkipDemo in
/-- Without a change of `b` nothing is wrong, and with a change in a full build `a` is not skipped. -/
example : trySkip src (project 2) true (cacheAfter src [first]) a = false ∧
    trySkip src (project 2) true (cacheAfter src [first, { failing with partialBuild := false }]) a
      = false := by
  decide +kernel

end Acorn.Build
