import Verif.Lemmas.VerifyCerts
import Verif.Lemmas.VerifyLowered
import Verif.Lemmas.BuildSkip
import Verif.Props.Certificates
import Verif.Props.Environment
import Verif.Props.TraceChecker
/-
C55: a module is good only when every goal was accepted, each with the facts it may use; and what a good
build stores passes a check.
-/
namespace Acorn
open Vrf Spec
open Elab (LowItem)
open Paths (Desc)

/-! ### A module to try -/

namespace VerifyDemo

def base : Desc := .name [['b']]
def lib : Desc := .name [['l']]

/-- A fact; a goal; a block with a fact and a goal, which exports a fact; and a goal after an import.  The first
and the last goal have the same name. -/
def items : List LowItem := [.fact 0, .claim 0 1, .block [.fact 2, .claim 1 3] (some 4), .claim 2 5]

def source : Source Nat where
  deps := fun d => if d = lib then [base] else []
  exports := fun d => if d = base then some [100] else if d = lib then some [200, 201] else none
  initial := [base]
  direct := fun g => if g = 2 then [base, lib] else [base]
  fact := id

/-- A certificate needs one step more than the number of its goal. -/
def setting : Vrf.Setting Nat where
  src := source
  checkMode := false
  skipStore := false
  exitOnWarning := false
  filter := none
  override := none
  name := fun g => if g = 1 then "b" else "a"
  firstLine := fun g => 10 * g
  check := fun _ g c => if g + 1 ≤ c.proof.length then some (g + 1) else none
  search := fun facts _ => if facts.contains 100 then .proof else .nothing
  write := fun _ g => some ⟨if g = 1 then "b" else "a", List.replicate (g + 1) default⟩
  cancelled := fun _ => false

def cert (name : String) (n : Nat) : Cert := ⟨name, List.replicate n default⟩

def order (w : Worklist) : List String := w.indexes.keys

theorem loaded : LoadedModule source items where
  loaded := by
    have key : ∀ d, d = base ∨ d = lib → ∀ m, (m = d ∨ m ∈ source.deps d) → (source.exports m).isSome := by
      rintro d (rfl | rfl) m (rfl | h)
      · rfl
      · cases h
      · rfl
      · obtain rfl : m = base := by simpa [source] using h
        rfl
    rintro m (⟨d, hd, hm⟩ | ⟨g, _, d, hd, hm⟩)
    · exact key d (.inl (by simpa [source] using hd)) m hm
    · refine key d ?_ m hm
      by_cases hg : g = 2
      · simpa [source, hg] using hd
      · exact .inl (by simpa [source, hg] using hd)
  closed := by
    intro d m h x hx
    by_cases hd : d = lib
    · obtain rfl : m = base := by simpa [source, hd] using h
      cases hx
    · simp [source, hd] at h
  grows := by
    simp [Grows, GrowsItem, items, source]
  distinct := by decide +kernel

end VerifyDemo

variable {Fact : Type} {S : Vrf.Setting Fact} {items : List LowItem}

/-! ### Which goals, with which facts -/

/-- A module is verified goal by goal, in the order of the text; each goal is faced with the facts it may use:
those of the modules that its bindings need, each once, and those of its own module that are visible at it.
Goals and facts are the same in all modes, and whatever is stored. -/
theorem C55_goals_in_turn {M : Source Fact} (h : LoadedModule M items) :
    ∃ goals : List (List Fact × Nat), goals.map Prod.snd = goalIds items ∧ (∀ p ∈ goals, MayUse M items p.2 p.1) ∧
      ∀ S : Vrf.Setting Fact, S.src = M → ∀ (status : Vrf.Status) (stored : List Cert) (order : Worklist → List String),
        S.stops (.start status stored) = false →
        verifyModule S status stored order items = (inTurn S (.start status stored) goals).map (Progress.leaves S order) :=
  verifyModule_inTurn h

example : goalIds VerifyDemo.items = [0, 1, 2] ∧
    (faced VerifyDemo.source ⟨[100], [VerifyDemo.base]⟩ VerifyDemo.items) =
      [([100, 0], 0), ([100, 0, 1, 2], 1), ([100, 0, 1, 4, 200, 201], 2)] := by decide +kernel

/-- In a project without circular imports, the dependencies of a dependency are dependencies. -/
theorem C55_dependencies_closed (p : Build.Project) (hp : Spec.WellLoaded p)
    (hc : ∀ m, ¬ Spec.DependsOn p.imports m m) {d m : Desc} (hd : d ∈ p.modules) (hm : m ∈ p.allDependencies d)
    (x : Desc) (hx : x ∈ p.allDependencies m) : x ∈ p.allDependencies d := by
  have h1 := (Build.mem_allDependencies hp.imports hd).2 m hm
  have hmm : m ∈ p.modules := by
    clear hx hm
    induction h1 with
    | single h => exact hp.imports _ hd _ h
    | tail _ h ih => exact hp.imports _ ih _ h
  have h2 := (Build.mem_allDependencies hp.imports hmm).2 x hx
  have h3 : Spec.DependsOn p.imports d x := h1.trans h2
  refine ((Build.mem_allDependencies hp.imports hd).1 x h3).resolve_left fun e => ?_
  subst e
  exact hc _ h3

/-- The certificate that is shown for a goal is checked with the same facts as in a build. -/
theorem C55_lookup_facts {M : Source Fact} (h : LoadedModule M items) {goal : Nat} (hg : goal ∈ goalIds items)
    {facts : List Fact} (hu : MayUse M items goal facts) : ∃ fs, lookupFacts M items goal = some fs ∧ fs.Perm facts :=
  lookupFacts_spec h hg hu

example : lookupFacts VerifyDemo.source VerifyDemo.items 2 = some [100, 200, 201, 0, 1, 4] := by decide +kernel

/-! ### A good module -/

/-- When a module is verified, it is good exactly when the status of the build stays good.  Then each goal was
accepted, once, in order, with the facts it may use: by the checker, with a stored certificate of its name of which
the used steps are kept, or by a search.  No two goals used the same stored certificate.  All goals are
counted and reported.  The certificates are stored in the order of the goals, and after them exactly those
that no goal used. -/
theorem C55_good (h : LoadedModule S.src items) (ho : S.override = none) (hf : S.filter = none)
    {stored : List Cert} {order : Worklist → List String} (hord : ∀ w, (order w).Perm w.indexes.keys) {v : Verified}
    (e : verifyModule S .good stored order items = .ok v) :
    (v.status = .good ↔ v.good = true) ∧
    (v.good = true → ∃ rs : List (Accepted Fact), rs.map Accepted.goal = goalIds items ∧
      (∀ r ∈ rs, MayUse S.src items r.goal r.facts ∧ r.Justified S stored) ∧
      (rs.filterMap Accepted.origin).Nodup ∧
      v.done = rs.length ∧ v.success = rs.length ∧ v.verified = goalIds items ∧
      ∃ rest, v.store = some (rs.map Accepted.cert ++ rest, rs.length) ∧ v.unused = rest.length ∧
        rest.Perm ((stored.zipIdx.filter fun e => !(rs.filterMap Accepted.origin).contains e.2).map Prod.fst)) := by
  obtain ⟨goals, h1, h2, h3⟩ := verifyModule_inTurn h
  have hs : S.stops (.start .good stored) = false := by simp [Vrf.Setting.stops, Progress.start]
  rw [h3 S rfl .good stored order hs] at e
  cases ht : inTurn S (.start .good stored) goals with
  | error x => rw [ht] at e; cases e
  | ok st =>
    rw [ht] at e
    cases e
    obtain ⟨_, _, i3, i4⟩ := inTurn_after ho hf goals (after_start .good stored) hs ht
    refine ⟨i3 rfl rfl, fun hg => ?_⟩
    obtain ⟨new, j1, j2, j3, j4, j5, _⟩ := i4 hg
    rw [List.nil_append] at j2
    have hl : goals.length = new.length := by rw [← j1, List.length_map]
    have hu := unused_of_after j2
    have hnew : new.map Accepted.goal = goalIds items := by rw [← h1, ← j1, List.map_map]; rfl
    obtain ⟨p1, p2⟩ := C25_unused stored (removals S new) (order := order st.work) (by rw [← j2.work]; exact hord _)
    have hcount := C25_count stored (removals S new)
    rw [← j2.work] at p1 p2 hcount
    rw [hu] at p1
    refine ⟨new, hnew, fun r hr => ⟨?_, j2.justified r hr⟩, j2.once, ?_, ?_, ?_, st.work.iterUnused (order st.work), ?_, ?_, p1⟩
    · have : (r.facts, r.goal) ∈ goals := by rw [← j1]; exact List.mem_map_of_mem hr
      exact h2 _ this
    · show st.done = _
      rw [j3, hl]; exact Nat.zero_add _
    · show st.success = _
      rw [j4, hl]; exact Nat.zero_add _
    · show st.verified = _
      rw [j5, h1]; rfl
    · show (if S.filter.isSome then none else some (appendUnused st.newCerts st.work _, st.newCerts.length)) = _
      rw [hf, p2, j2.certs, List.length_map]; rfl
    · show (if S.filter.isSome then 0 else st.work.unused) = _
      rw [hf, if_neg (by simp), hcount, p1.length_eq, List.length_map, ← hu]; rfl

/-- The certificates are used by the goals of their names, in order; the third is trimmed, the fourth is kept as unused. -/
example : (verifyModule VerifyDemo.setting .good
      [VerifyDemo.cert "a" 1, VerifyDemo.cert "b" 2, VerifyDemo.cert "a" 9, VerifyDemo.cert "x" 4] VerifyDemo.order
      VerifyDemo.items).toOption.map (fun v => (v.good, v.verified, v.store)) =
    some (true, [0, 1, 2], some ([VerifyDemo.cert "a" 1, VerifyDemo.cert "b" 2, VerifyDemo.cert "a" 3,
      VerifyDemo.cert "x" 4], 3)) := by decide +kernel

/-- With nothing stored, proofs are searched for. -/
example : (verifyModule VerifyDemo.setting .good [] VerifyDemo.order VerifyDemo.items).toOption.map
      (fun v => (v.good, v.status, v.store)) =
    some (true, .good, some ([VerifyDemo.cert "a" 1, VerifyDemo.cert "b" 2, VerifyDemo.cert "a" 3], 3)) := by decide +kernel

/-- When a proof is found and written down for every goal, the module is good, whatever is stored. -/
theorem C55_found_is_good (h : LoadedModule S.src items) (hm : S.checkMode = false) (ho : S.override = none)
    (hf : S.filter = none) (hc : ∀ g, S.cancelled g = false) (stored : List Cert) (order : Worklist → List String)
    (hp : ∀ g ∈ goalIds items, ∀ facts, MayUse S.src items g facts → S.search facts g = .proof ∧ (S.write facts g).isSome) :
    ∃ v, verifyModule S .good stored order items = .ok v ∧ v.good = true := by
  obtain ⟨goals, h1, h2, h3⟩ := verifyModule_inTurn h
  have hs : S.stops (.start .good stored) = false := by simp [Vrf.Setting.stops, Progress.start]
  obtain ⟨st, e, hg⟩ := inTurn_found hm ho hf goals (after_start .good stored) hs rfl fun p hpm =>
    ⟨hc _, hp p.2 (by rw [← h1]; exact List.mem_map_of_mem hpm) p.1 (h2 p hpm)⟩
  exact ⟨st.leaves S order, by rw [h3 S rfl .good stored order hs, e]; rfl, hg⟩

/-! ### Check mode -/

/-- In check mode a module passes exactly when every goal has its certificate: for the `k`-th goal of a name,
the `k`-th stored certificate of that name is accepted by the checker, with the facts the goal may use.
Otherwise the build has an error. -/
theorem C55_check_iff (h : LoadedModule S.src items) (hm : S.checkMode = true) (hk : S.skipStore = false)
    (ho : S.override = none) (hf : S.filter = none) (hc : ∀ g, S.cancelled g = false) :
    ∃ goals : List (List Fact × Nat), goals.map Prod.snd = goalIds items ∧ (∀ p ∈ goals, MayUse S.src items p.2 p.1) ∧
      ∀ (stored : List Cert) (order : Worklist → List String),
        (AllCertified S stored goals → ∃ v, verifyModule S .good stored order items = .ok v ∧ v.good = true ∧
          v.status = .good ∧ v.done = goals.length ∧ v.success = goals.length ∧ v.verified = goalIds items) ∧
        (¬ AllCertified S stored goals → statusAfter (verifyModule S .good stored order items) = .error) := by
  obtain ⟨goals, h1, h2, h3⟩ := verifyModule_inTurn h
  refine ⟨goals, h1, h2, fun stored order => ?_⟩
  have hs : S.stops (.start .good stored) = false := by simp [Vrf.Setting.stops, Progress.start]
  rw [h3 S rfl .good stored order hs]
  rcases inTurn_check hm hk ho hf hc goals [] (.start .good stored) (usedFirst_new stored) hs with
    ⟨certs, st, i1, i2, _, _, i5, i6, i7, i8, i9⟩ | ⟨⟨before, facts, goal, after, i1, i2⟩, x, i3⟩
  · have hcert : AllCertified S stored goals := fun before facts goal after e => by
      obtain ⟨c, n, j1, j2, _⟩ := i1.certified before facts goal after e
      exact ⟨c, n, by simpa using j1, j2⟩
    refine ⟨fun _ => ⟨st.leaves S order, by rw [i2]; rfl, i6, i5, ?_, ?_, ?_⟩, fun hn => absurd hcert hn⟩
    · show st.done = _
      rw [i7]; exact Nat.zero_add _
    · show st.success = _
      rw [i8]; exact Nat.zero_add _
    · show st.verified = _
      rw [i9, h1]; rfl
  · refine ⟨fun hall => ?_, fun _ => by rw [i3]; rfl⟩
    obtain ⟨c, n, j1, j2⟩ := hall before facts goal after i1
    rw [i2 c (by simpa using j1)] at j2
    cases j2

example : (verifyModule VerifyDemo.setting.checking .good [VerifyDemo.cert "a" 1, VerifyDemo.cert "b" 2, VerifyDemo.cert "a" 9]
      VerifyDemo.order VerifyDemo.items).toOption.map (fun v => (v.good, v.done)) = some (true, 3) ∧
    statusAfter (verifyModule VerifyDemo.setting.checking .good [VerifyDemo.cert "a" 1, VerifyDemo.cert "b" 1, VerifyDemo.cert "a" 9]
      VerifyDemo.order VerifyDemo.items) = .error := by decide +kernel

/-- A check is stricter than a build: here a certificate that is not accepted comes before the one of the second
goal.  The build passes over it, the check does not. -/
example : (verifyModule VerifyDemo.setting .good
      [VerifyDemo.cert "a" 1, VerifyDemo.cert "b" 0, VerifyDemo.cert "b" 2, VerifyDemo.cert "a" 9] VerifyDemo.order
      VerifyDemo.items).toOption.map (fun v => v.good) = some true ∧
    statusAfter (verifyModule VerifyDemo.setting.checking .good
      [VerifyDemo.cert "a" 1, VerifyDemo.cert "b" 0, VerifyDemo.cert "b" 2, VerifyDemo.cert "a" 9] VerifyDemo.order
      VerifyDemo.items) = .error := by decide +kernel

/-- What a good build stores passes a check, of the same files with the same facts, both as it is stored at once
and when the unused certificates are removed at the end of the build.  It is enough that the checker accepts a certificate it has
trimmed, and the certificates of proofs that were found. -/
theorem C55_check_after_verify (h : LoadedModule S.src items) (ho : S.override = none) (hf : S.filter = none)
    (htrim : ∀ facts g c n, S.check facts g c = some n → S.check facts g { c with proof := c.proof.take n } = some n)
    (hwrite : ∀ facts g c, S.search facts g = .proof → S.write facts g = some c →
      c.goal = S.name g ∧ (S.check facts g c).isSome)
    {stored : List Cert} {order : Worklist → List String} {v : Verified}
    (e : verifyModule S .good stored order items = .ok v) (hg : v.good = true) {store : List Cert × Nat}
    (hst : v.store = some store) (kept : List Cert) (hkept : kept = store.1 ∨ kept = trimUnused store)
    (order' : Worklist → List String) :
    ∃ v', verifyModule S.checking .good kept order' items = .ok v' ∧ v'.good = true ∧ v'.status = .good ∧
      v'.done = v.done ∧ v'.success = v.success ∧ v'.verified = v.verified := by
  obtain ⟨goals, h1, h2, h3⟩ := verifyModule_inTurn h
  have hs : S.stops (.start .good stored) = false := by simp [Vrf.Setting.stops, Progress.start]
  rw [h3 S rfl .good stored order hs] at e
  cases ht : inTurn S (.start .good stored) goals with
  | error x => rw [ht] at e; cases e
  | ok st =>
    rw [ht] at e
    cases e
    obtain ⟨_, _, _, i4⟩ := inTurn_after ho hf goals (after_start .good stored) hs ht
    obtain ⟨new, j1, j2, j3, j4, j5, _⟩ := i4 hg
    rw [List.nil_append] at j2
    have hl : new.length = goals.length := by rw [← j1, List.length_map]
    -- what was stored
    have hst : some (appendUnused st.newCerts st.work (order st.work), st.newCerts.length) = some store := by
      rw [← hst]
      show _ = if S.filter.isSome then _ else _
      rw [hf]; rfl
    cases hst
    have happ : ∀ (cs : List Cert) (w : Worklist) (o : List String), ∃ rest, appendUnused cs w o = cs ++ rest := by
      intro cs w o
      unfold appendUnused
      generalize w.iterUnused o = us
      induction us generalizing cs with
      | nil => exact ⟨[], by simp⟩
      | cons u us ih =>
        obtain ⟨rest, hr⟩ := ih (cs ++ [u])
        exact ⟨u :: rest, by rw [List.foldl_cons, hr]; simp⟩
    have hkept : ∃ rest, kept = new.map Accepted.cert ++ rest := by
      obtain ⟨rest, hr⟩ := happ st.newCerts st.work (order st.work)
      rcases hkept with rfl | rfl
      · exact ⟨rest, by rw [hr, j2.certs]⟩
      · refine ⟨[], ?_⟩
        show (appendUnused _ _ _).take _ = _
        rw [hr, List.take_left', j2.certs, List.append_nil]
        rfl
    obtain ⟨rest, rfl⟩ := hkept
    -- each of them is accepted
    have hacc : ∀ r ∈ new, r.cert.goal = S.name r.goal ∧ (S.check r.facts r.goal r.cert).isSome := by
      intro r hr
      have hj := j2.justified r hr
      unfold Accepted.Justified at hj
      split at hj
      · obtain ⟨c, n, _, f2, f3, f4⟩ := hj
        rw [f4]
        exact ⟨f2, by rw [htrim _ _ _ _ f3]; rfl⟩
      · exact hwrite _ _ _ hj.2.1 hj.2.2
    have hnames : (new.map Accepted.cert).map Cert.goal = goals.map fun p => S.name p.2 := by
      rw [← j1, List.map_map, List.map_map]
      exact List.map_congr_left fun r hr => (hacc r hr).1
    have hs' : S.checking.stops (.start .good (new.map Accepted.cert ++ rest)) = false := by
      simp [Vrf.Setting.stops, Progress.start]
    rcases inTurn_check (S := S.checking) rfl rfl rfl rfl (fun _ => rfl) goals []
        (.start .good (new.map Accepted.cert ++ rest)) (usedFirst_new _) hs' with
      ⟨certs, st', k1, k2, _, _, k5, k6, k7, k8, k9⟩ | ⟨⟨before, facts, goal, after, k1, k2⟩, x, k3⟩
    · refine ⟨st'.leaves S.checking order', ?_, k6, k5, ?_, ?_, ?_⟩
      · rw [h3 S.checking rfl .good _ order' hs', k2]; rfl
      · show st'.done = st.done
        rw [k7, j3]; rfl
      · show st'.success = st.success
        rw [k8, j4]; rfl
      · show st'.verified = st.verified
        rw [k9, j5]; rfl
    · exfalso
      have hlt : before.length < new.length := by rw [hl, k1]; simp
      have hr : (new[before.length].facts, new[before.length].goal) = (facts, goal) := by
        have := congrArg (·[before.length]?) j1
        rw [k1] at this
        simp only [List.getElem?_map, List.getElem?_eq_getElem hlt, List.getElem?_append_right (Nat.le_refl _),
          Nat.sub_self] at this
        simpa using this
      have hc := stored_in_order (S := S) (certs := new.map Accepted.cert) (rest := rest) (by rw [hnames, k1])
        (c := new[before.length].cert) (by rw [List.getElem?_map, List.getElem?_eq_getElem hlt]; rfl)
      obtain ⟨_, ha⟩ := hacc _ (List.getElem_mem hlt)
      have := k2 new[before.length].cert (by rw [List.nil_append]; exact hc)
      injection hr with hr1 hr2
      rw [hr1, hr2] at ha
      have this : S.check facts goal new[before.length].cert = none := this
      rw [this] at ha
      cases ha

example : (∀ facts g c n, VerifyDemo.setting.check facts g c = some n →
      VerifyDemo.setting.check facts g { c with proof := c.proof.take n } = some n) ∧
    (∀ facts g c, VerifyDemo.setting.search facts g = Found.proof → VerifyDemo.setting.write facts g = some c →
      c.goal = VerifyDemo.setting.name g ∧ (VerifyDemo.setting.check facts g c).isSome) := by
  constructor
  · intro facts g c n h
    simp only [VerifyDemo.setting] at h ⊢
    split at h
    · cases h
      rename_i hl
      rw [if_pos]
      rw [List.length_take]
      omega
    · cases h
  · intro facts g c _ h
    cases h
    exact ⟨rfl, by simp [VerifyDemo.setting]⟩

/-- A certificate that was trimmed to the steps that were used is accepted again, with all its steps: what the
model of the checker (C23) accepts, it accepts without the steps it did not use. -/
theorem C55_trimmed_accepted (s : Checker) (steps : List (TraceEnv × CertStep)) {n : Nat}
    (h : checkCertificate s steps = .done (some n)) :
    checkCertificate s (steps.take n) = .done (some n) ∧ n ≤ steps.length := by
  have key : ∀ (steps : List (TraceEnv × CertStep)) (k : Nat) (st : TraceState),
      TraceState.checkFrom k st steps = .done (some n) →
      k ≤ n ∧ n ≤ k + steps.length ∧ TraceState.checkFrom k st (steps.take (n - k)) = .done (some n) := by
    intro steps
    induction steps with
    | nil =>
      intro k st h
      have h0 := h
      rw [TraceState.checkFrom] at h
      split at h
      · cases h
        exact ⟨Nat.le_refl _, by simp, by simpa using h0⟩
      · cases h
    | cons p steps ih =>
      intro k st h
      obtain ⟨E, step⟩ := p
      rw [TraceState.checkFrom] at h
      by_cases hc : st.checker.hasContradiction = true
      · rw [if_pos hc] at h
        cases h
        refine ⟨Nat.le_refl _, by simp, ?_⟩
        rw [Nat.sub_self, List.take_zero, TraceState.checkFrom, if_pos hc]
      · rw [if_neg hc] at h
        cases hs : st.checkStep E step with
        | done r =>
          rw [hs] at h
          cases r with
          | none => cases h
          | some st1 =>
            obtain ⟨h1, h2, h3⟩ := ih (k + 1) st1 h
            refine ⟨by omega, by rw [List.length_cons]; omega, ?_⟩
            have e : n - k = (n - (k + 1)) + 1 := by omega
            rw [e, List.take_succ_cons, TraceState.checkFrom, if_neg hc, hs]
            exact h3
        | _ => rw [hs] at h; cases h
  obtain ⟨_, h2, h3⟩ := key steps 0 ⟨s, []⟩ h
  refine ⟨?_, by simpa using h2⟩
  show TraceState.checkFrom 0 ⟨s, []⟩ (steps.take n) = _
  simpa using h3

/-- A check stores what it used, and checking that again changes nothing. -/
theorem C55_check_again (h : LoadedModule S.src items) (hm : S.checkMode = true) (hk : S.skipStore = false)
    (ho : S.override = none) (hf : S.filter = none) (hc : ∀ g, S.cancelled g = false)
    (htrim : ∀ facts g c n, S.check facts g c = some n → S.check facts g { c with proof := c.proof.take n } = some n)
    {stored : List Cert} {order : Worklist → List String} {v : Verified}
    (e : verifyModule S .good stored order items = .ok v) {store : List Cert × Nat} (hst : v.store = some store)
    (order' : Worklist → List String) :
    ∃ v', verifyModule S .good (trimUnused store) order' items = .ok v' ∧ v'.good = true ∧ v'.unused = 0 ∧
      v'.store = some (trimUnused store, store.2) := by
  obtain ⟨goals, h1, h2, h3⟩ := verifyModule_inTurn h
  have hs : ∀ st, S.stops (.start .good st) = false := fun st => by simp [Vrf.Setting.stops, Progress.start]
  rw [h3 S rfl .good stored order (hs _)] at e
  rcases inTurn_check hm hk ho hf hc goals [] (.start .good stored) (usedFirst_new stored) (hs _) with
    ⟨certs, st, i1, i2, _, i4, _⟩ | ⟨_, x, i3⟩
  · rw [i2] at e
    cases e
    have i4 : st.newCerts = certs := i4
    have hst : some (appendUnused st.newCerts st.work (order st.work), st.newCerts.length) = some store := by
      rw [← hst]
      show _ = if S.filter.isSome then _ else _
      rw [hf]; rfl
    cases hst
    have hkept : trimUnused (appendUnused st.newCerts st.work (order st.work), st.newCerts.length) = certs := by
      have : ∀ (us cs : List Cert), (us.foldl (fun cs c => cs ++ [c]) cs).take cs.length = cs := by
        intro us
        induction us with
        | nil => intro cs; simp
        | cons u us ih =>
          intro cs
          have := congrArg (List.take cs.length) (ih (cs ++ [u]))
          rw [List.take_take] at this
          simpa using this
      rw [trimUnused, i4]
      exact this _ _
    rw [hkept]
    have hnames := i1.names
    rw [h3 S rfl .good certs order' (hs _)]
    have hall : ∀ before facts goal after, goals = before ++ (facts, goal) :: after →
        ∃ c n, (storedFor certs (S.name goal))[countNamed S (S.name goal) before]? = some (trimTo c n) ∧
          S.check facts goal (trimTo c n) = some n ∧ certs[before.length]? = some (trimTo c n) := by
      intro before facts goal after e
      obtain ⟨c, n, _, j2, j3⟩ := i1.certified before facts goal after e
      have := stored_in_order (S := S) (rest := []) (by rw [← e]; exact hnames) j3
      rw [List.append_nil] at this
      exact ⟨c, n, this, htrim _ _ _ _ j2, j3⟩
    rcases inTurn_check hm hk ho hf hc goals [] (.start .good certs) (usedFirst_new certs) (hs _) with
      ⟨certs2, st2, k1, k2, k3, k4, _, k6, _⟩ | ⟨⟨before, facts, goal, after, k1, k2⟩, x, k3⟩
    · have k4 : st2.newCerts = certs2 := k4
      have hsame : certs2 = certs := by
        refine List.ext_getElem? fun i => ?_
        by_cases hi : i < goals.length
        · rcases hp : goals[i] with ⟨facts, goal⟩
          have e : goals = goals.take i ++ (facts, goal) :: goals.drop (i + 1) := by
            rw [← hp, ← List.drop_eq_getElem_cons hi, List.take_append_drop]
          have hl : (goals.take i).length = i := by rw [List.length_take]; omega
          obtain ⟨c, n, m1, m2, m3⟩ := hall _ _ _ _ e
          obtain ⟨c', n', q1, q2, q3⟩ := k1.certified _ _ _ _ e
          rw [List.nil_append, m1] at q1
          cases q1
          rw [m2] at q2
          cases q2
          rw [hl] at m3 q3
          rw [m3, q3]
          simp [trimTo]
        · rw [List.getElem?_eq_none (by rw [k1.length]; omega), List.getElem?_eq_none (by rw [i1.length]; omega)]
      obtain ⟨n1, n2⟩ := nothing_left hnames k3 (order' st2.work)
      obtain ⟨rem, hrem⟩ := k3.1
      refine ⟨st2.leaves S order', by rw [k2]; rfl, k6, ?_, ?_⟩
      · show (if S.filter.isSome then 0 else st2.work.unused) = 0
        rw [hf, if_neg (by simp), hrem, C25_count, List.length_eq_zero_iff, List.eq_nil_iff_forall_not_mem]
        rintro ⟨c, i⟩ hci
        have hi : i ∈ st2.work.getIndexes c.goal := by
          rw [hrem, mem_getIndexes]
          obtain ⟨a1, a2⟩ := List.mem_filter.mp hci
          exact ⟨c, List.mk_mem_zipIdx_iff_getElem?.mp a1, by simpa using a2, rfl⟩
        rw [n1] at hi
        cases hi
      · show (if S.filter.isSome then none else some (appendUnused st2.newCerts st2.work _, st2.newCerts.length)) = _
        rw [hf, appendUnused, n2, k4, hsame, i4]; rfl
    · exfalso
      obtain ⟨c, n, m1, m2, _⟩ := hall before facts goal after k1
      rw [k2 _ (by simpa using m1)] at m2
      cases m2
  · rw [i3] at e
    cases e

/-- In check mode nothing is searched for: the outcome does not depend on the search. -/
theorem C55_check_never_searches (h : LoadedModule S.src items) (hm : S.checkMode = true) (search : List Fact → Nat → Vrf.Found)
    (write : List Fact → Nat → Option Cert) (stored : List Cert) (order : Worklist → List String) :
    verifyModule { S with search := search, write := write } .good stored order items =
      verifyModule S .good stored order items := by
  obtain ⟨goals, _, _, h3⟩ := verifyModule_inTurn h
  have hs : S.stops (.start .good stored) = false := by simp [Vrf.Setting.stops, Progress.start]
  rw [h3 S rfl .good stored order hs, h3 { S with search := search, write := write } rfl .good stored order hs]
  have ht : ∀ facts goal work is, tryStored { S with search := search, write := write } facts goal work is =
      tryStored S facts goal work is := by
    intro facts goal work is
    induction is with
    | nil => rfl
    | cons i is ih =>
      unfold tryStored
      rw [ih]
  have hv : ∀ st facts goal, verifyGoal { S with search := search, write := write } st facts goal =
      verifyGoal S st facts goal := by
    intro st facts goal
    unfold verifyGoal
    rw [ht]
    simp only [hm, if_true]
  have hi : ∀ (goals : List (List Fact × Nat)) st, inTurn { S with search := search, write := write } st goals =
      inTurn S st goals := by
    intro goals
    induction goals with
    | nil => intro st; rfl
    | cons p goals ih =>
      intro st
      obtain ⟨facts, goal⟩ := p
      have ha : attempt { S with search := search, write := write } st facts goal = attempt S st facts goal := by
        unfold attempt
        simp only [hv]
      rw [inTurn, inTurn, ha]
      cases attempt S st facts goal with
      | error x => rfl
      | ok st1 =>
        show (if S.stops st1 then pure st1 else inTurn _ st1 goals) = if S.stops st1 then pure st1 else inTurn S st1 goals
        rw [ih]
  rw [hi]
  rfl

/-! ### Verifying part of a module -/

/-- With a filter, exactly the goals it wants are verified, in turn, with the same facts, and nothing is stored.
A line wants the goals before it and, of those on it, the first `index` ones. -/
theorem C55_filter {M : Source Fact} (h : LoadedModule M items) :
    ∃ goals : List (List Fact × Nat), goals.map Prod.snd = goalIds items ∧ (∀ p ∈ goals, MayUse M items p.2 p.1) ∧
      ∀ (S : Vrf.Setting Fact) (f : LineFilter), S.src = M → S.filter = some f → ∀ (stored : List Cert) (order : Worklist → List String),
        verifyModule S .good stored order items =
          (inTurn { S with filter := none } (.start .good stored) (wanted S f [] goals)).map fun st =>
            { (st.leaves S order) with store := none } := by
  obtain ⟨goals, h1, h2, h3⟩ := verifyModule_inTurn h
  refine ⟨goals, h1, h2, fun S f hS hf stored order => ?_⟩
  have hs : S.stops (.start .good stored) = false := by simp [Vrf.Setting.stops, Progress.start]
  rw [h3 S hS .good stored order hs]
  have := inTurn_filter hf goals [] (.start .good stored) 0 hs fun l k _ => rfl
  have h0 : (Progress.start .good stored).atLine 0 = .start .good stored := rfl
  rw [h0] at this
  have hl : ∀ st : Progress, st.leaves S order = { ((st.atLine 0).leaves S order) with store := none } := by
    intro st
    simp [Progress.leaves, Progress.atLine, hf]
  have hl2 : ∀ st : Progress, { (st.leaves S order) with store := none } = { ((st.atLine 0).leaves S order) with store := none } := by
    intro st
    rfl
  show _ = (inTurn S.unfiltered (.start .good stored) (wanted S f [] goals)).map _
  generalize inTurn S (.start .good stored) goals = a at this
  generalize inTurn S.unfiltered (.start .good stored) (wanted S f [] goals) = b at this
  rcases a with a | a <;> rcases b with b | b
  · cases this; rfl
  · cases this
  · cases this
  · have this : a.atLine 0 = b.atLine 0 := by
      injection this
    show Except.ok (a.leaves S order) = Except.ok _
    rw [hl a, this, ← hl2 b]

example : (wanted VerifyDemo.setting (.line 10 none) [] [(([] : List Nat), 0), ([], 1), ([], 2)]).map Prod.snd = [0, 1] ∧
    (wanted VerifyDemo.setting (.line 10 (some 0)) [] [(([] : List Nat), 0), ([], 1), ([], 2)]).map Prod.snd = [0] ∧
    (wanted VerifyDemo.setting (.range 5 10) [] [(([] : List Nat), 0), ([], 1), ([], 2)]).map Prod.snd = [0, 1] := by
  decide +kernel

/-! ### A good module is right -/

section
open Elab Spec.Modules
universe u

/-- When the checker accepts, and the search finds, proofs of valid goals only, the goals of a good module are
valid, where the facts of the modules they need are among those known before the module. -/
theorem C55_good_goals_valid (F : Frame.{u}) (importable : EnvFact → Bool) (above : List EnvFact) (env : Env)
    {S : Vrf.Setting EnvFact} (h : LoadedModule S.src (lowerNodes importable true {} env.nodes).2)
    (hfact : ∀ i f, (lowerNodes importable true {} env.nodes).1.facts[i]? = some f → S.src.fact i = f)
    (habove : ∀ i ∈ goalIds (lowerNodes importable true {} env.nodes).2, ∀ m, Needs S.src (S.src.direct i) m →
      ∀ f ∈ exported S.src m, f ∈ above)
    (hsound : ∀ facts i known goal, (lowerNodes importable true {} env.nodes).1.goals[i]? = some (known, goal) →
      ((∃ c n, S.check facts i c = some n) ∨ S.search facts i = Vrf.Found.proof) → GoalAt.Valid F ⟨facts, known, goal⟩)
    (ho : S.override = none) (hf : S.filter = none) {stored : List Cert} {order : Worklist → List String}
    (hord : ∀ w, (order w).Perm w.indexes.keys) {v : Verified}
    (e : verifyModule S .good stored order (lowerNodes importable true {} env.nodes).2 = .ok v) (hg : v.good = true) :
    GoalsValid F above env := by
  obtain ⟨rs, h1, h2, _⟩ := (C55_good h ho hf hord e).2 hg
  obtain ⟨g1, g2, _⟩ := C49_visible_facts importable env.nodes
  intro g hgm
  rw [← List.append_nil above, goalsAt_above above [] env.nodes] at hgm
  obtain ⟨g0, hg0, rfl⟩ := List.mem_map.mp hgm
  obtain ⟨i, hi, rfl⟩ := List.mem_iff_getElem.mp hg0
  have hi0 : (goalsAt [] env.nodes)[i]? = some (goalsAt [] env.nodes)[i] := List.getElem?_eq_getElem hi
  have him : i ∈ goalIds (lowerNodes importable true {} env.nodes).2 := by
    rw [(goalIds_lower importable env.nodes true {}).1, List.mem_range'_1]
    exact ⟨Nat.zero_le _, by simpa using hi⟩
  obtain ⟨r, hr, rfl⟩ := List.mem_map.mp (h1 ▸ him)
  obtain ⟨hu, hj⟩ := h2 r hr
  obtain ⟨ids, q1, q2⟩ := g2 r.goal _ hi0
  obtain ⟨mods, ids', u1, u2, u3, u4, _⟩ := hu
  rw [q1] at u3
  cases u3
  have hvis := factsOf_visible hfact q2
  have hgoal : (lowerNodes importable true {} env.nodes).1.goals[r.goal]? =
      some ((goalsAt [] env.nodes)[r.goal].known, (goalsAt [] env.nodes)[r.goal].goal) := by
    rw [g1, List.getElem?_map, hi0]; rfl
  have hval : GoalAt.Valid F ⟨r.facts, (goalsAt [] env.nodes)[r.goal].known, (goalsAt [] env.nodes)[r.goal].goal⟩ := by
    refine hsound _ r.goal _ _ hgoal ?_
    unfold Accepted.Justified at hj
    split at hj
    · obtain ⟨c, n, _, _, hc, _⟩ := hj
      exact .inl ⟨c, n, hc⟩
    · exact .inr hj.2.1
  intro C θ hs ha
  refine hval C θ hs fun f hfm => ha f ?_
  show f ∈ above ++ _
  rcases List.mem_append.mp (u4.mem_iff.mp hfm) with hx | hx
  · obtain ⟨m, hm, hx⟩ := List.mem_flatMap.mp hx
    exact List.mem_append_left _ (habove r.goal him m ((u2 m).1 hm) f hx)
  · rw [hvis] at hx
    exact List.mem_append_right _ hx

/-- A good module is right: every fact of it, and every theorem of it, is true in each interpretation that
suits its constants and in which the imported facts and its axioms, definitions and the conditions of its `satisfy`
statements are true.

Partial: as in C49, and that the checker and the search are sound is a hypothesis here; for the checker see C20 to
C23. -/
theorem C55_good_facts_follow_partial (F : Frame.{u}) (importable : EnvFact → Bool) (above : List EnvFact) (start env : Env)
    (b : Body) (he : addBody start b = some env) (hel : ElaboratedModule F start b) (ok : Tidy above start)
    {S : Vrf.Setting EnvFact} (h : LoadedModule S.src (lowerNodes importable true {} env.nodes).2)
    (hfact : ∀ i f, (lowerNodes importable true {} env.nodes).1.facts[i]? = some f → S.src.fact i = f)
    (habove : ∀ i ∈ goalIds (lowerNodes importable true {} env.nodes).2, ∀ m, Needs S.src (S.src.direct i) m →
      ∀ f ∈ exported S.src m, f ∈ above)
    (hsound : ∀ facts i known goal, (lowerNodes importable true {} env.nodes).1.goals[i]? = some (known, goal) →
      ((∃ c n, S.check facts i c = some n) ∨ S.search facts i = Vrf.Found.proof) → GoalAt.Valid F ⟨facts, known, goal⟩)
    (ho : S.override = none) (hf : S.filter = none) {stored : List Cert} {order : Worklist → List String}
    (hord : ∀ w, (order w).Perm w.indexes.keys) {v : Verified}
    (e : verifyModule S .good stored order (lowerNodes importable true {} env.nodes).2 = .ok v) (hg : v.good = true)
    (C : String → List F.T → F.D) (θ : String → F.T) (hfs : Fulfils F C θ above start) (hs : Suits F C θ env.consts)
    (ha : AllHold F C θ (assumed start b)) :
    AllHold F C θ (nodeFacts env.nodes) ∧ TheoremsTrue F C θ env.consts :=
  C49_facts_follow_partial above start env b he hel ok
    (C55_good_goals_valid F importable above env h hfact habove hsound ho hf hord e hg) C θ hfs hs ha

/-- A good module without imports and without assumptions never makes known a statement and its negation. -/
theorem C55_good_no_contradiction_partial (F : Frame.{u}) (importable : EnvFact → Bool) (env : Env)
    (b : Body) (he : addBody {} b = some env) (hel : ElaboratedBody F {} b)
    {S : Vrf.Setting EnvFact} (h : LoadedModule S.src (lowerNodes importable true {} env.nodes).2)
    (hfact : ∀ i f, (lowerNodes importable true {} env.nodes).1.facts[i]? = some f → S.src.fact i = f)
    (halone : ∀ i, S.src.direct i = [])
    (hsound : ∀ facts i known goal, (lowerNodes importable true {} env.nodes).1.goals[i]? = some (known, goal) →
      ((∃ c n, S.check facts i c = some n) ∨ S.search facts i = Vrf.Found.proof) → GoalAt.Valid F ⟨facts, known, goal⟩)
    (ho : S.override = none) (hf : S.filter = none) {stored : List Cert} {order : Worklist → List String}
    (hord : ∀ w, (order w).Perm w.indexes.keys) {v : Verified}
    (e : verifyModule S .good stored order (lowerNodes importable true {} env.nodes).2 = .ok v) (hg : v.good = true)
    (p : Value) : ¬ (EnvFact.prop [] p ∈ nodeFacts env.nodes ∧ EnvFact.prop [] (.not p) ∈ nodeFacts env.nodes) := by
  refine C49_no_contradiction_partial env b he hel
    (C55_good_goals_valid F importable [] env h hfact ?_ hsound ho hf hord e hg) p
  intro i _ m hm
  obtain ⟨d, hd, _⟩ := hm
  rw [halone] at hd
  cases hd

namespace VerifyDemo

/-- A module, and a search that finds exactly the valid goals. -/
noncomputable def settingFor (F : Frame.{u}) (env : Env) : Vrf.Setting EnvFact where
  src := { deps := fun _ => [], exports := fun _ => none, initial := [], direct := fun _ => [],
           fact := fun i => ((lowerNodes (fun _ => true) true {} env.nodes).1.facts[i]?).getD (.prop [] (.bool true)) }
  checkMode := false
  skipStore := false
  exitOnWarning := false
  filter := none
  override := none
  name := fun g => toString g
  firstLine := id
  check := fun _ _ _ => none
  search := fun facts i =>
    match (lowerNodes (fun _ => true) true {} env.nodes).1.goals[i]? with
    | none => .nothing
    | some (known, goal) =>
      open Classical in if GoalAt.Valid F ⟨facts, known, goal⟩ then .proof else .nothing
  write := fun _ g => some ⟨toString g, []⟩
  cancelled := fun _ => false

theorem settingFor_good (F : Frame.{u}) (env : Env) (hv : GoalsValid F [] env) (order : Worklist → List String) :
    LoadedModule (VerifyDemo.settingFor F env).src (lowerNodes (fun _ => true) true {} env.nodes).2 ∧
    (∀ i f, (lowerNodes (fun _ => true) true {} env.nodes).1.facts[i]? = some f →
      (VerifyDemo.settingFor F env).src.fact i = f) ∧
    (∀ facts i known goal, (lowerNodes (fun _ => true) true {} env.nodes).1.goals[i]? = some (known, goal) →
      ((∃ c n, (VerifyDemo.settingFor F env).check facts i c = some n) ∨ (VerifyDemo.settingFor F env).search facts i = Vrf.Found.proof) →
      GoalAt.Valid F ⟨facts, known, goal⟩) ∧
    ∃ v, verifyModule (VerifyDemo.settingFor F env) .good [] order
      (lowerNodes (fun _ => true) true {} env.nodes).2 = .ok v ∧ v.good = true := by
  have hl : LoadedModule (VerifyDemo.settingFor F env).src (lowerNodes (fun _ => true) true {} env.nodes).2 := by
    refine ⟨?_, fun d m h => absurd h List.not_mem_nil, ?_, ?_⟩
    · rintro m (⟨d, hd, _⟩ | ⟨g, _, d, hd, _⟩) <;> cases hd
    · exact grows_nil rfl (fun _ => rfl) _
    · rw [(goalIds_lower _ _ true {}).1]
      exact List.nodup_range'
  have hfact : ∀ i f, (lowerNodes (fun _ => true) true {} env.nodes).1.facts[i]? = some f →
      (VerifyDemo.settingFor F env).src.fact i = f := by
    intro i f h
    simp only [VerifyDemo.settingFor, h, Option.getD_some]
  refine ⟨hl, hfact, ?_, ?_⟩
  · rintro facts i known goal h (⟨c, n, hc⟩ | hs)
    · cases hc
    · simp only [VerifyDemo.settingFor, h] at hs
      split at hs
      · assumption
      · cases hs
  · refine C55_found_is_good hl rfl rfl rfl (fun _ => rfl) [] order fun i hi facts hu => ⟨?_, rfl⟩
    obtain ⟨g1, g2, _⟩ := C49_visible_facts (fun _ => true) env.nodes
    rw [(goalIds_lower _ _ true {}).1, List.mem_range'_1] at hi
    have hi : i < (goalsAt [] env.nodes).length := by simpa using hi.2
    have hi0 := List.getElem?_eq_getElem hi
    obtain ⟨ids, q1, q2⟩ := g2 i _ hi0
    obtain ⟨mods, ids', u1, u2, u3, u4, _⟩ := hu
    rw [q1] at u3
    cases u3
    have hmods : mods = [] := List.eq_nil_iff_forall_not_mem.mpr fun m hm => by
      obtain ⟨d, hd, _⟩ := (u2 m).1 hm
      cases hd
    subst hmods
    rw [factsOf_visible hfact q2] at u4
    have hgoal : (lowerNodes (fun _ => true) true {} env.nodes).1.goals[i]? =
        some ((goalsAt [] env.nodes)[i].known, (goalsAt [] env.nodes)[i].goal) := by
      rw [g1, List.getElem?_map, hi0]; rfl
    simp only [VerifyDemo.settingFor, hgoal]
    refine if_pos fun C θ hs ha => ?_
    exact hv _ (List.getElem_mem hi) C θ hs fun f hf => ha f (u4.mem_iff.mpr (by simpa using hf))

end VerifyDemo

/-- The module of C49 with three goals: all hypotheses are met, and the module is good. -/
example (F : Frame.{u}) (order : Worklist → List String) :
    addBody {} EnvironmentDemo.module1 = some EnvironmentDemo.env4 ∧ ElaboratedBody F {} EnvironmentDemo.module1 ∧
    LoadedModule (VerifyDemo.settingFor F EnvironmentDemo.env4).src
      (lowerNodes (fun _ => true) true {} EnvironmentDemo.env4.nodes).2 ∧
    (goalsAt [] EnvironmentDemo.env4.nodes).length = 3 ∧
    ∃ v, verifyModule (VerifyDemo.settingFor F EnvironmentDemo.env4) .good [] order
      (lowerNodes (fun _ => true) true {} EnvironmentDemo.env4.nodes).2 = .ok v ∧ v.good = true := by
  obtain ⟨h1, _, _, h4⟩ := VerifyDemo.settingFor_good F EnvironmentDemo.env4 (EnvironmentDemo.valid1 F) order
  exact ⟨rfl, EnvironmentDemo.elab_module1 F, h1, rfl, h4⟩

end

end Acorn
