import Verif.Lemmas.VerifyModule
import Verif.Lemmas.Certificates
/-
Lemmas about the certificates that are used and stored when a module is verified.
-/
namespace Acorn.Vrf
open Spec

variable {Fact : Type} {S : Setting Fact}

/-- The removals of the accepted goals. -/
def removals (S : Setting Fact) (rs : List (Accepted Fact)) : List (String × Nat) :=
  rs.filterMap fun r => r.origin.map fun i => (S.name r.goal, i)

theorem removals_append (a b : List (Accepted Fact)) : removals S (a ++ b) = removals S a ++ removals S b := by
  simp [removals]

theorem worklistAfter_append (stored : List Cert) (a b : List (String × Nat)) :
    worklistAfter stored (a ++ b) = b.foldl (fun w r => w.remove r.1 r.2) (worklistAfter stored a) := by
  simp [worklistAfter]

theorem mem_getIndexes (stored : List Cert) (rem : List (String × Nat)) (name : String) (i : Nat) :
    i ∈ (worklistAfter stored rem).getIndexes name ↔ ∃ c, stored[i]? = some c ∧ (c.goal, i) ∉ rem ∧ c.goal = name := by
  rw [(worklistAfter_ok stored rem).idx, List.mem_map]
  constructor
  · rintro ⟨⟨c, j⟩, h, rfl⟩
    obtain ⟨h1, h2⟩ := List.mem_filter.mp h
    obtain ⟨h3, h4⟩ := List.mem_filter.mp h1
    refine ⟨c, ?_, by simpa using h4, by simpa using h2⟩
    exact List.mk_mem_zipIdx_iff_getElem?.mp h3
  · rintro ⟨c, h1, h2, h3⟩
    refine ⟨(c, i), List.mem_filter.mpr ⟨List.mem_filter.mpr ⟨?_, by simpa using h2⟩, by simpa using h3⟩, rfl⟩
    exact List.mk_mem_zipIdx_iff_getElem?.mpr h1

theorem worklistAfter_store (stored : List Cert) (rem : List (String × Nat)) :
    (worklistAfter stored rem).store = stored := (worklistAfter_ok stored rem).store

/-- The state after goals were accepted, for the given reasons. -/
structure After (S : Setting Fact) (stored : List Cert) (rs : List (Accepted Fact)) (st : Progress) : Prop where
  justified : ∀ r ∈ rs, r.Justified S stored
  once : (rs.filterMap Accepted.origin).Nodup
  certs : st.newCerts = rs.map Accepted.cert
  work : st.work = worklistAfter stored (removals S rs)

theorem tryStored_ok {stored : List Cert} {facts : List Fact} {goal : Nat} {work : Worklist} (hw : work.store = stored) :
    ∀ {is : List Nat} {i : Nat} {c' : Cert}, tryStored S facts goal work is = .ok (some (i, c')) →
      i ∈ is ∧ ∃ c n, stored[i]? = some c ∧ S.check facts goal c = some n ∧ c' = trimTo c n
  | [], i, c', h => by cases h
  | j :: is, i, c', h => by
    rw [tryStored, Worklist.getCert, hw] at h
    cases hj : stored[j]? with
    | none => rw [hj] at h; cases h
    | some c =>
      rw [hj] at h
      dsimp only at h
      cases hc : S.check facts goal c with
      | some n =>
        rw [hc] at h
        cases h
        exact ⟨List.mem_cons_self, c, n, hj, hc, rfl⟩
      | none =>
        rw [hc] at h
        dsimp only at h
        split at h
        · cases h
        · obtain ⟨h1, h2⟩ := tryStored_ok hw h
          exact ⟨List.mem_cons_of_mem _ h1, h2⟩

/-- What one goal does to the state when no certificate is given by hand: it is accepted for a good reason, or
the module is not good. -/
theorem verifyGoal_after {stored : List Cert} {rs : List (Accepted Fact)} {st st' : Progress} {facts : List Fact}
    {goal : Nat} (h : After S stored rs st) (ho : S.override = none) (e : verifyGoal S st facts goal = .ok st') :
    (∃ r : Accepted Fact, r.facts = facts ∧ r.goal = goal ∧ After S stored (rs ++ [r]) st' ∧ st'.status = st.status ∧
      st'.moduleGood = st.moduleGood ∧ st'.done = st.done + 1 ∧ st'.success = st.success + 1 ∧
      st'.verified = st.verified ++ [goal] ∧ st'.lineCount = st.lineCount) ∨
    (S.checkMode = false ∧ S.search facts goal ≠ .proof ∧ After S stored rs st' ∧ st'.status ≠ .good ∧
      st'.moduleGood = false ∧ st'.done = st.done + 1 ∧ st'.success = st.success ∧
      st'.verified = st.verified ∧ st'.lineCount = st.lineCount) := by
  unfold verifyGoal at e
  split at e
  · cases e
  rw [ho] at e
  dsimp only at e
  split at e
  · cases e
  · rename_i i c ht
    cases e
    have hs : st.work.store = stored := by rw [h.work]; exact worklistAfter_store _ _
    obtain ⟨hi, c0, n, h1, h2, h3⟩ := tryStored_ok hs ht
    have hi : i ∈ st.work.getIndexes (S.name goal) := by
      split at hi
      · cases hi
      · exact hi
    rw [h.work] at hi
    obtain ⟨c1, e1, e2, e3⟩ := (mem_getIndexes _ _ _ _).mp hi
    obtain rfl : c0 = c1 := by rw [h1] at e1; exact Option.some.inj e1
    refine .inl ⟨⟨facts, goal, some i, c⟩, rfl, rfl, ⟨fun r hr => ?_, ?_, ?_, ?_⟩, rfl, rfl, rfl, rfl, rfl, rfl⟩
    · rcases List.mem_append.mp hr with hr | hr
      · exact h.justified r hr
      · obtain rfl := List.mem_singleton.mp hr
        exact ⟨c0, n, h1, e3, h2, h3⟩
    · rw [List.filterMap_append]
      refine List.nodup_append.mpr ⟨h.once, by simp, ?_⟩
      intro a ha b hb
      have hb : b = i := by simpa using hb
      subst hb
      rintro rfl
      obtain ⟨r, hr, hro⟩ := List.mem_filterMap.mp ha
      have hj := h.justified r hr
      unfold Accepted.Justified at hj
      rw [hro] at hj
      obtain ⟨c2, _, f1, f2, _⟩ := hj
      obtain rfl : c0 = c2 := by rw [h1] at f1; exact Option.some.inj f1
      refine e2 (List.mem_filterMap.mpr ⟨r, hr, ?_⟩)
      rw [hro, ← f2]; rfl
    · simp [Progress.accept, h.certs]
    · rw [removals_append, worklistAfter_append, ← h.work]; rfl
  · rename_i ht
    split at e
    · cases e
    rename_i hm
    have hm : S.checkMode = false := by simpa using hm
    unfold searchGoal at e
    cases hsr : S.search facts goal with
    | proof =>
      rw [hsr] at e
      dsimp only at e
      split at e
      · cases e
      rename_i c hc
      cases e
      refine .inl ⟨⟨facts, goal, none, c⟩, rfl, rfl, ⟨fun r hr => ?_, ?_, ?_, ?_⟩, rfl, rfl, rfl, rfl, rfl, rfl⟩
      · rcases List.mem_append.mp hr with hr | hr
        · exact h.justified r hr
        · obtain rfl := List.mem_singleton.mp hr
          exact ⟨hm, hsr, hc⟩
      · rw [List.filterMap_append]
        simpa using h.once
      · simp [Progress.accept, h.certs]
      · rw [removals_append]
        simpa [removals, Progress.accept] using h.work
    | interrupted =>
      rw [hsr] at e
      cases e
      exact .inr ⟨hm, by simp, ⟨h.justified, h.once, h.certs, h.work⟩, by simp, rfl, rfl, rfl, rfl, rfl⟩
    | nothing =>
      rw [hsr] at e
      cases e
      refine .inr ⟨hm, by simp, ⟨h.justified, h.once, h.certs, h.work⟩, ?_, rfl, rfl, rfl, rfl, rfl⟩
      show st.status.warn ≠ .good
      cases st.status <;> simp [Status.warn]

/-- Goals in turn, without a filter: when all is good, all were accepted. -/
theorem inTurn_after {stored : List Cert} (ho : S.override = none) (hf : S.filter = none) :
    ∀ (goals : List (List Fact × Nat)) {rs : List (Accepted Fact)} {st st' : Progress}, After S stored rs st →
      S.stops st = false → inTurn S st goals = .ok st' →
      (st.moduleGood = false → st'.moduleGood = false) ∧ (st.status ≠ .good → st'.status ≠ .good) ∧
      (st.moduleGood = true → st.status = .good → (st'.status = .good ↔ st'.moduleGood = true)) ∧
      (st'.moduleGood = true → ∃ new : List (Accepted Fact), new.map (fun r => (r.facts, r.goal)) = goals ∧
        After S stored (rs ++ new) st' ∧ st'.done = st.done + goals.length ∧ st'.success = st.success + goals.length ∧
        st'.verified = st.verified ++ goals.map Prod.snd ∧ st'.status = st.status)
  | [], rs, st, st', h, _, e => by
    cases e
    exact ⟨id, id, fun h1 h2 => by rw [h1, h2]; simp, fun _ => ⟨[], rfl, by simpa using h, rfl, rfl, by simp, rfl⟩⟩
  | (facts, goal) :: goals, rs, st, st', h, hs0, e => by
    rw [inTurn] at e
    have ha : attempt S st facts goal = verifyGoal S st facts goal := by rw [attempt, hf]
    rw [ha] at e
    cases hv : verifyGoal S st facts goal with
    | error x => rw [hv] at e; cases e
    | ok st1 =>
      rw [hv] at e
      simp only [bind, Except.bind] at e
      rcases verifyGoal_after h ho hv with ⟨r, h1, h2, h3, h4, h5, h6, h7, h8, h9⟩ | ⟨_, _, h3, h4, h5, h6, h7, h8, h9⟩
      · have hs : S.stops st1 = false := by rw [← hs0, Setting.stops, Setting.stops, h4]
        rw [hs] at e
        obtain ⟨i1, i2, i3, i4⟩ := inTurn_after ho hf goals h3 hs e
        refine ⟨fun hx => i1 (by rw [h5]; exact hx), fun hx => i2 (by rw [h4]; exact hx),
          fun hx hy => i3 (by rw [h5]; exact hx) (by rw [h4]; exact hy), fun hg => ?_⟩
        obtain ⟨new, j1, j2, j3, j4, j5, j6⟩ := i4 hg
        refine ⟨r :: new, by simp [j1, h1, h2], by simpa using j2, ?_, ?_, ?_, by rw [j6, h4]⟩
        · rw [j3, h6, List.length_cons]; omega
        · rw [j4, h7, List.length_cons]; omega
        · rw [j5, h8]; simp
      · have hbad : st'.moduleGood = false ∧ st'.status ≠ .good := by
          cases hs : S.stops st1 with
          | true => rw [hs] at e; cases e; exact ⟨h5, h4⟩
          | false =>
            rw [hs] at e
            obtain ⟨i1, i2, _⟩ := inTurn_after ho hf goals h3 hs e
            exact ⟨i1 h5, i2 h4⟩
        refine ⟨fun _ => hbad.1, fun _ => hbad.2, fun _ _ => ⟨fun hx => absurd hx hbad.2, fun hx => ?_⟩, fun hx => ?_⟩
        · rw [hbad.1] at hx; cases hx
        · rw [hbad.1] at hx; cases hx

theorem after_start (status : Status) (stored : List Cert) : After S stored [] (.start status stored) :=
  ⟨(fun r hr => by cases hr), List.nodup_nil, rfl, rfl⟩

/-- The certificates that no accepted goal used, in the store. -/
theorem unused_of_after {stored : List Cert} {rs : List (Accepted Fact)} {st : Progress} (h : After S stored rs st) :
    unusedCerts stored (removals S rs) = stored.zipIdx.filter fun e => !(rs.filterMap Accepted.origin).contains e.2 := by
  unfold unusedCerts
  refine List.filter_congr fun e he => ?_
  obtain ⟨c, i⟩ := e
  have hi : stored[i]? = some c := List.mk_mem_zipIdx_iff_getElem?.mp he
  congr 1
  rw [Bool.eq_iff_iff, List.contains_iff_mem, List.contains_iff_mem]
  constructor
  · intro hm
    obtain ⟨r, hr, hm⟩ := List.mem_filterMap.mp hm
    obtain ⟨j, hj, hm⟩ := Option.map_eq_some_iff.mp hm
    have := congrArg Prod.snd hm
    dsimp only at this
    subst this
    exact List.mem_filterMap.mpr ⟨r, hr, hj⟩
  · intro hm
    obtain ⟨r, hr, hm⟩ := List.mem_filterMap.mp hm
    have hj := h.justified r hr
    unfold Accepted.Justified at hj
    rw [hm] at hj
    obtain ⟨c2, _, f1, f2, _⟩ := hj
    obtain rfl : c = c2 := by rw [hi] at f1; exact Option.some.inj f1
    exact List.mem_filterMap.mpr ⟨r, hr, by rw [hm, ← f2]; rfl⟩

/-! ### Check mode -/

/-- The indices of the certificates for a name that are left after `k` of them were used. -/
def leftFor (stored : List Cert) (name : String) (k : Nat) : List Nat :=
  ((stored.zipIdx.filter fun e => e.1.goal == name).map Prod.snd).drop k

/-- The worklist after these goals each used the first certificate left for its name. -/
def UsedFirst (S : Setting Fact) (stored : List Cert) (done : List (List Fact × Nat)) (w : Worklist) : Prop :=
  (∃ rem, w = worklistAfter stored rem) ∧ ∀ name, w.getIndexes name = leftFor stored name (countNamed S name done)

theorem getIndexes_remove (w : Worklist) (goal : String) (index : Nat) (g : String) :
    (w.remove goal index).getIndexes g =
      if g = goal then (w.getIndexes g).filter (fun i => i != index) else w.getIndexes g := by
  unfold Worklist.remove
  cases hg : w.indexes.get? goal with
  | none =>
    dsimp only
    split
    · rename_i e; subst e; simp [Worklist.getIndexes, hg]
    · rfl
  | some is =>
    dsimp only
    by_cases he : (is.filter fun i => i != index).isEmpty = true
    · rw [if_pos he]
      simp only [Worklist.getIndexes, AMap.get?_erase]
      split
      · rename_i e; subst e
        have : (is.filter fun i => i != index) = [] := by simpa using he
        rw [hg]
        simp [this]
      · rfl
    · rw [if_neg he]
      simp only [Worklist.getIndexes, AMap.get?_insert]
      split
      · rename_i e; subst e; simp [hg]
      · rfl

theorem usedFirst_new (stored : List Cert) : UsedFirst S stored [] (Worklist.new stored) :=
  ⟨⟨[], rfl⟩, fun name => by rw [(Worklist.new_ok stored).idx]; rfl⟩

theorem leftFor_sorted (stored : List Cert) (name : String) (k : Nat) : (leftFor stored name k).Pairwise (· < ·) := by
  refine List.Pairwise.drop ?_
  have h1 : (stored.zipIdx.map Prod.snd).Pairwise (· < ·) := by
    rw [List.zipIdx_map_snd]
    exact List.pairwise_lt_range'
  exact h1.sublist (List.filter_sublist.map _)

theorem storedFor_zipIdx (stored : List Cert) (name : String) :
    (stored.zipIdx.filter fun e => e.1.goal == name).map Prod.fst = storedFor stored name := by
  have : ∀ (l : List Cert) (n : Nat), ((l.zipIdx n).filter fun e => e.1.goal == name).map Prod.fst = l.filter fun c => c.goal == name := by
    intro l
    induction l with
    | nil => intro n; rfl
    | cons c l ih =>
      intro n
      rw [List.zipIdx_cons, List.filter_cons, List.filter_cons]
      split
      · rw [List.map_cons, ih]
      · exact ih _
  exact this stored 0

/-- The first certificate that is left for a name. -/
theorem leftFor_head (stored : List Cert) (name : String) (k : Nat) :
    match leftFor stored name k with
    | [] => (storedFor stored name)[k]? = none
    | i :: rest => ∃ c, stored[i]? = some c ∧ (storedFor stored name)[k]? = some c ∧
        rest = leftFor stored name (k + 1) ∧ ∀ j ∈ rest, j ≠ i := by
  have hs := leftFor_sorted stored name k
  generalize hl : leftFor stored name k = l at hs
  rw [leftFor, ← List.map_drop] at hl
  cases l with
  | nil =>
    dsimp only
    have : ((stored.zipIdx.filter fun e => e.1.goal == name).drop k) = [] := by simpa using hl
    rw [List.drop_eq_nil_iff] at this
    rw [← storedFor_zipIdx, List.getElem?_eq_none_iff, List.length_map]
    exact this
  | cons i rest =>
    dsimp only
    cases hd : (stored.zipIdx.filter fun e => e.1.goal == name).drop k with
    | nil => rw [hd] at hl; cases hl
    | cons e es =>
      rw [hd, List.map_cons] at hl
      injection hl with h1 h2
      have hk : (stored.zipIdx.filter fun e => e.1.goal == name)[k]? = some e := by
        have := congrArg (·[0]?) hd
        simpa using this
      have hm : e ∈ stored.zipIdx := (List.mem_filter.mp (List.mem_of_getElem? hk)).1
      obtain ⟨c, j⟩ := e
      refine ⟨c, ?_, ?_, ?_, fun j hj => ?_⟩
      · rw [← h1]; exact List.mk_mem_zipIdx_iff_getElem?.mp hm
      · rw [← storedFor_zipIdx, List.getElem?_map, hk]; rfl
      · rw [leftFor, ← List.map_drop, ← List.tail_drop, hd, ← h2]; rfl
      · exact (Nat.ne_of_lt ((List.pairwise_cons.mp hs).1 j hj)).symm

theorem countNamed_append (S : Setting Fact) (name : String) (a b : List (List Fact × Nat)) :
    countNamed S name (a ++ b) = countNamed S name a + countNamed S name b := by
  simp [countNamed]

theorem UsedFirst.remove {stored : List Cert} {done : List (List Fact × Nat)} {w : Worklist} (h : UsedFirst S stored done w)
    {facts : List Fact} {goal i : Nat} {rest : List Nat}
    (hl : leftFor stored (S.name goal) (countNamed S (S.name goal) done) = i :: rest) :
    UsedFirst S stored (done ++ [(facts, goal)]) (w.remove (S.name goal) i) := by
  obtain ⟨⟨rem, hw⟩, hi⟩ := h
  refine ⟨⟨rem ++ [(S.name goal, i)], by rw [worklistAfter_append, ← hw]; rfl⟩, fun name => ?_⟩
  rw [getIndexes_remove, countNamed_append, hi]
  have hh := leftFor_head stored (S.name goal) (countNamed S (S.name goal) done)
  rw [hl] at hh
  obtain ⟨c, _, _, h3, h4⟩ := hh
  by_cases hn : name = S.name goal
  · subst hn
    rw [if_pos rfl, hl]
    have : countNamed S (S.name goal) [(facts, goal)] = 1 := by simp [countNamed]
    rw [this, ← h3, List.filter_cons, if_neg (by simp)]
    exact List.filter_eq_self.mpr fun j hj => by simpa using h4 j hj
  · have : countNamed S name [(facts, goal)] = 0 := by
      have : (S.name goal == name) = false := beq_false_of_ne fun h => hn h.symm
      simp [countNamed, this]
    rw [if_neg hn, this]; rfl

/-- One goal in check mode. -/
theorem checkGoal (hm : S.checkMode = true) (hk : S.skipStore = false) (ho : S.override = none)
    {stored : List Cert} {done : List (List Fact × Nat)} {st : Progress} (h : UsedFirst S stored done st.work)
    {facts : List Fact} {goal : Nat} (hc : S.cancelled goal = false) :
    (∃ c n st', (storedFor stored (S.name goal))[countNamed S (S.name goal) done]? = some c ∧
      S.check facts goal c = some n ∧ verifyGoal S st facts goal = .ok st' ∧
      UsedFirst S stored (done ++ [(facts, goal)]) st'.work ∧ st'.newCerts = st.newCerts ++ [trimTo c n] ∧
      st'.status = st.status ∧ st'.moduleGood = st.moduleGood ∧ st'.done = st.done + 1 ∧
      st'.success = st.success + 1 ∧ st'.verified = st.verified ++ [goal]) ∨
    ((∀ c, (storedFor stored (S.name goal))[countNamed S (S.name goal) done]? = some c → S.check facts goal c = none) ∧
      ∃ e, verifyGoal S st facts goal = .error e) := by
  have hi := h.2 (S.name goal)
  have hh := leftFor_head stored (S.name goal) (countNamed S (S.name goal) done)
  obtain ⟨rem, hw⟩ := h.1
  have hst : st.work.store = stored := by rw [hw]; exact worklistAfter_store _ _
  unfold verifyGoal
  rw [hc, if_neg (by simp), ho, hk, hi, if_neg (by simp)]
  dsimp only
  cases hl : leftFor stored (S.name goal) (countNamed S (S.name goal) done) with
  | nil =>
    rw [hl] at hh
    refine .inr ⟨fun c hc => ?_, .noCertificate, ?_⟩
    · dsimp only at hh; rw [hh] at hc; cases hc
    · rw [tryStored]
      dsimp only
      rw [if_pos hm]
  | cons i rest =>
    rw [hl] at hh
    obtain ⟨c, h1, h2, _⟩ := hh
    rw [tryStored, Worklist.getCert, hst, h1]
    dsimp only
    cases hch : S.check facts goal c with
    | some n =>
      exact .inl ⟨c, n, _, h2, rfl.trans (by simpa using hch), rfl, h.remove hl, rfl, rfl, rfl, rfl, rfl, rfl⟩
    | none =>
      dsimp only
      rw [if_pos hm]
      refine .inr ⟨fun c' hc' => ?_, _, rfl⟩
      rw [h2] at hc'
      cases hc'
      exact hch

/-- The certificates, trimmed to what is used, that check mode takes for some goals. -/
inductive Takes (S : Setting Fact) (stored : List Cert) : List (List Fact × Nat) → List (List Fact × Nat) → List Cert → Prop
  | nil (done : List (List Fact × Nat)) : Takes S stored done [] []
  | cons {done : List (List Fact × Nat)} {facts : List Fact} {goal : Nat} {rest : List (List Fact × Nat)} {certs : List Cert}
      {c : Cert} {n : Nat} :
      (storedFor stored (S.name goal))[countNamed S (S.name goal) done]? = some c → S.check facts goal c = some n →
      Takes S stored (done ++ [(facts, goal)]) rest certs → Takes S stored done ((facts, goal) :: rest) (trimTo c n :: certs)

/-- Goals in turn in check mode: all is well, or a goal has no certificate that is accepted. -/
theorem inTurn_check (hm : S.checkMode = true) (hk : S.skipStore = false) (ho : S.override = none) (hf : S.filter = none)
    (hc : ∀ g, S.cancelled g = false) {stored : List Cert} :
    ∀ (goals done : List (List Fact × Nat)) (st : Progress), UsedFirst S stored done st.work → S.stops st = false →
    (∃ certs st', Takes S stored done goals certs ∧ inTurn S st goals = .ok st' ∧
      UsedFirst S stored (done ++ goals) st'.work ∧ st'.newCerts = st.newCerts ++ certs ∧
      st'.status = st.status ∧ st'.moduleGood = st.moduleGood ∧ st'.done = st.done + goals.length ∧
      st'.success = st.success + goals.length ∧ st'.verified = st.verified ++ goals.map Prod.snd) ∨
    ((∃ before facts goal after, goals = before ++ (facts, goal) :: after ∧
      ∀ c, (storedFor stored (S.name goal))[countNamed S (S.name goal) (done ++ before)]? = some c →
        S.check facts goal c = none) ∧ ∃ e, inTurn S st goals = .error e)
  | [], done, st, h, _ =>
    .inl ⟨[], st, .nil done, rfl, by simpa using h, by simp, rfl, rfl, rfl, rfl, by simp⟩
  | (facts, goal) :: goals, done, st, h, hs => by
    have ha : attempt S st facts goal = verifyGoal S st facts goal := by rw [attempt, hf]
    rcases checkGoal hm hk ho h (facts := facts) (hc goal) with
      ⟨c, n, st1, h1, h2, h3, h4, h5, h6, h7, h8, h9, h10⟩ | ⟨h1, e, h2⟩
    · have hs1 : S.stops st1 = false := by rw [← hs, Setting.stops, Setting.stops, h6]
      have hin : inTurn S st ((facts, goal) :: goals) = inTurn S st1 goals := by
        rw [inTurn, ha, h3]
        simp only [bind, Except.bind]
        rw [hs1]; rfl
      rcases inTurn_check hm hk ho hf hc goals (done ++ [(facts, goal)]) st1 h4 hs1 with
        ⟨certs, st', i1, i2, i3, i4, i5, i6, i7, i8, i9⟩ | ⟨⟨before, f, g, after, i1, i2⟩, e, i3⟩
      · refine .inl ⟨_, st', .cons h1 h2 i1, by rw [hin]; exact i2, by simpa using i3, by rw [i4, h5]; simp,
          by rw [i5, h6], by rw [i6, h7], ?_, ?_, ?_⟩
        · rw [i7, h8, List.length_cons]; omega
        · rw [i8, h9, List.length_cons]; omega
        · rw [i9, h10]; simp
      · refine .inr ⟨⟨(facts, goal) :: before, f, g, after, by rw [i1]; rfl, fun c hc => i2 c ?_⟩, e, by rw [hin]; exact i3⟩
        rw [← hc]; simp
    · refine .inr ⟨⟨[], facts, goal, goals, rfl, by simpa using h1⟩, e, ?_⟩
      rw [inTurn, ha, h2]; rfl

/-- What check mode takes, for all goals from the start. -/
theorem Takes.certified {stored : List Cert} : ∀ {done goals : List (List Fact × Nat)} {certs : List Cert},
    Takes S stored done goals certs → ∀ before facts goal after, goals = before ++ (facts, goal) :: after →
    ∃ c n, (storedFor stored (S.name goal))[countNamed S (S.name goal) (done ++ before)]? = some c ∧
      S.check facts goal c = some n ∧ certs[before.length]? = some (trimTo c n)
  | _, _, _, .nil _, before, facts, goal, after, e => by cases before <;> cases e
  | done, _, _, .cons (facts := f) (goal := g) (c := c) (n := n) h1 h2 h3, before, facts, goal, after, e => by
    cases before with
    | nil =>
      cases e
      exact ⟨c, n, by simpa using h1, h2, rfl⟩
    | cons p before =>
      cases e
      obtain ⟨c', n', j1, j2, j3⟩ := h3.certified before facts goal after rfl
      refine ⟨c', n', by rw [← j1]; simp, j2, ?_⟩
      rw [List.length_cons, List.getElem?_cons_succ]
      exact j3

theorem Takes.length {stored : List Cert} : ∀ {done goals : List (List Fact × Nat)} {certs : List Cert},
    Takes S stored done goals certs → certs.length = goals.length
  | _, _, _, .nil _ => rfl
  | _, _, _, .cons _ _ h => by simp [h.length]

/-! ### Certificates in the order of the goals -/

theorem storedFor_append (a b : List Cert) (name : String) :
    storedFor (a ++ b) name = storedFor a name ++ storedFor b name := by
  simp [storedFor]

theorem storedFor_length {certs : List Cert} : ∀ {goals : List (List Fact × Nat)},
    certs.map Cert.goal = goals.map (fun p => S.name p.2) → ∀ name, (storedFor certs name).length = countNamed S name goals := by
  intro goals h name
  have h1 : ∀ l : List Cert, (storedFor l name).length = ((l.map Cert.goal).filter (· == name)).length := by
    intro l
    induction l with
    | nil => rfl
    | cons c l ih =>
      simp only [storedFor, List.filter_cons, List.map_cons] at ih ⊢
      split <;> simp [ih]
  have h2 : ∀ l : List (List Fact × Nat), countNamed S name l = ((l.map fun p => S.name p.2).filter (· == name)).length := by
    intro l
    induction l with
    | nil => rfl
    | cons c l ih =>
      simp only [countNamed, List.filter_cons, List.map_cons] at ih ⊢
      split <;> simp [ih]
  rw [h1, h2, h]

/-- Certificates that are stored in the order of the goals, before any others. -/
theorem stored_in_order {certs rest : List Cert} {before after : List (List Fact × Nat)} {facts : List Fact} {goal : Nat}
    {c : Cert} (h : certs.map Cert.goal = (before ++ (facts, goal) :: after).map fun p => S.name p.2)
    (hc : certs[before.length]? = some c) :
    (storedFor (certs ++ rest) (S.name goal))[countNamed S (S.name goal) before]? = some c := by
  obtain ⟨hlt, hc⟩ := List.getElem?_eq_some_iff.mp hc
  have e : certs = certs.take before.length ++ c :: certs.drop (before.length + 1) := by
    rw [← hc, ← List.drop_eq_getElem_cons hlt, List.take_append_drop]
  have h1 : (certs.take before.length).map Cert.goal = before.map fun p => S.name p.2 := by
    rw [List.map_take, h, ← List.map_take, List.take_left']
    rfl
  have h2 : c.goal = S.name goal := by
    have := congrArg (·[before.length]?) h
    simp only [List.getElem?_map] at this
    rw [List.getElem?_eq_getElem hlt, hc, List.getElem?_append_right (Nat.le_refl _), Nat.sub_self] at this
    simpa using this
  rw [e, List.append_assoc, storedFor_append, List.getElem?_append_right (by rw [storedFor_length h1]; exact Nat.le_refl _),
    storedFor_length h1, Nat.sub_self, storedFor, List.cons_append, List.filter_cons, if_pos (by simp [h2])]
  rfl

/-! ### Verifying with a filter -/

/-- The state with another count of goals on the line. -/
def Progress.atLine (st : Progress) (n : Nat) : Progress := { st with lineCount := n }

theorem verifyGoal_line (S : Setting Fact) (st : Progress) (n : Nat) (facts : List Fact) (goal : Nat) :
    verifyGoal S (st.atLine n) facts goal = (verifyGoal S st facts goal).map (·.atLine n) := by
  unfold verifyGoal
  split
  · rfl
  · cases ho : S.override with
    | some c =>
      dsimp only
      split <;> rfl
    | none =>
      dsimp only
      have hw : (st.atLine n).work = st.work := rfl
      rw [hw]
      generalize tryStored S facts goal st.work (if S.skipStore = true then [] else st.work.getIndexes (S.name goal)) = r
      rcases r with e | _ | ⟨i, c⟩
      · rfl
      · dsimp only
        split
        · rfl
        · unfold searchGoal
          cases S.search facts goal with
          | proof =>
            dsimp only
            cases S.write facts goal <;> rfl
          | interrupted => rfl
          | nothing => rfl
      · rfl

/-- The same setting without a filter. -/
def Setting.unfiltered (S : Setting Fact) : Setting Fact := { S with filter := none }

theorem verifyGoal_unfiltered (S : Setting Fact) (st : Progress) (facts : List Fact) (goal : Nat) :
    verifyGoal S.unfiltered st facts goal = verifyGoal S st facts goal := by
  have ht : ∀ is, tryStored S.unfiltered facts goal st.work is = tryStored S facts goal st.work is := by
    intro is
    induction is with
    | nil => rfl
    | cons i is ih =>
      unfold tryStored
      rw [ih]
      rfl
  unfold verifyGoal
  rw [ht]
  rfl

theorem takes_wants (S : Setting Fact) (f : LineFilter) (before : List Nat) (goal count : Nat)
    (hc : ∀ l k, f = .line l k → count = onLine S l before) :
    (f.takes count (S.firstLine goal)).2 = f.wants S before goal ∧
    ∀ l k, f = .line l k → (f.takes count (S.firstLine goal)).1 = onLine S l (before ++ [goal]) := by
  cases f with
  | range a b => exact ⟨rfl, fun l k h => by cases h⟩
  | line l k =>
    have hc := hc l k rfl
    have hon : onLine S l (before ++ [goal]) = count + if S.firstLine goal = l then 1 else 0 := by
      rw [hc, onLine, onLine, List.filter_append, List.length_append]
      by_cases hg : S.firstLine goal = l
      · simp [hg]
      · simp [hg]
    refine ⟨?_, fun l' k' h => ?_⟩
    · simp only [LineFilter.takes]
      by_cases h1 : S.firstLine goal < l
      · cases k <;> simp [LineFilter.wants, h1, Nat.le_of_lt h1]
      · by_cases h2 : l < S.firstLine goal
        · have h3 : ¬ S.firstLine goal ≤ l := by omega
          have h4 : S.firstLine goal ≠ l := by omega
          cases k <;> simp [LineFilter.wants, h1, h2, h3, h4]
        · have h3 : S.firstLine goal = l := by omega
          rw [if_neg h1, if_neg h2]
          cases k <;> simp [LineFilter.wants, h3, hon]
    · cases h
      rw [hon]
      simp only [LineFilter.takes]
      by_cases h1 : S.firstLine goal < l
      · rw [if_pos h1, if_neg (by omega)]; rfl
      · by_cases h2 : l < S.firstLine goal
        · rw [if_neg h1, if_pos h2, if_neg (by omega)]; rfl
        · rw [if_neg h1, if_neg h2, if_pos (by omega)]

/-- With a filter, the goals it wants are verified in turn, and no others. -/
theorem inTurn_filter {f : LineFilter} (hf : S.filter = some f) : ∀ (goals : List (List Fact × Nat)) (before : List Nat)
    (st : Progress) (n : Nat), S.stops st = false → (∀ l k, f = .line l k → n = onLine S l before) →
    (inTurn S (st.atLine n) goals).map (·.atLine 0) =
      (inTurn S.unfiltered st (wanted S f before goals)).map (·.atLine 0)
  | [], before, st, n, _, _ => rfl
  | (facts, goal) :: goals, before, st, n, hs, hn => by
    obtain ⟨h1, h2⟩ := takes_wants S f before goal n hn
    rw [inTurn, attempt, hf]
    dsimp only
    show Except.map _ ((match f.takes n (S.firstLine goal) with
      | (n, false) => Except.ok { st.atLine n with lineCount := n }
      | (n, true) => verifyGoal S (st.atLine n) facts goal) >>= _) = _
    generalize hr : f.takes n (S.firstLine goal) = r at h1 h2
    obtain ⟨m, b⟩ := r
    dsimp only at h1 h2
    subst h1
    cases hw : f.wants S before goal with
    | false =>
      have hs2 : S.stops (st.atLine m) = false := hs
      rw [wanted, if_neg (by rw [hw]; simp)]
      show Except.map _ (if S.stops (st.atLine m) then pure (st.atLine m) else inTurn S (st.atLine m) goals) = _
      rw [hs2, if_neg (by simp)]
      exact inTurn_filter hf goals (before ++ [goal]) st m hs h2
    | true =>
      rw [wanted, if_pos hw, inTurn, attempt]
      show Except.map _ (verifyGoal S (st.atLine m) facts goal >>= _) =
        Except.map _ (verifyGoal S.unfiltered st facts goal >>= _)
      rw [verifyGoal_unfiltered, verifyGoal_line]
      cases hv : verifyGoal S st facts goal with
      | error e => rfl
      | ok st1 =>
        show Except.map _ (if S.stops (st1.atLine m) then pure (st1.atLine m) else inTurn S (st1.atLine m) goals) =
          Except.map _ (if S.unfiltered.stops st1 then pure st1 else _)
        have e1 : S.stops (st1.atLine m) = S.stops st1 := rfl
        have e2 : S.unfiltered.stops st1 = S.stops st1 := rfl
        rw [e1, e2]
        cases hst : S.stops st1 with
        | true => rfl
        | false =>
          rw [if_neg (by simp), if_neg (by simp)]
          exact inTurn_filter hf goals (before ++ [goal]) st1 m hst h2

/-! ### Verify mode -/

theorem tryStored_total (hm : S.checkMode = false) {facts : List Fact} {goal : Nat} {work : Worklist} :
    ∀ (is : List Nat), (∀ i ∈ is, (work.getCert i).isSome) → ∃ r, tryStored S facts goal work is = .ok r
  | [], _ => ⟨none, rfl⟩
  | i :: is, h => by
    obtain ⟨c, hc⟩ := Option.isSome_iff_exists.mp (h i List.mem_cons_self)
    rw [tryStored, hc]
    dsimp only
    split
    · exact ⟨_, rfl⟩
    · rw [if_neg (by rw [hm]; simp)]
      exact tryStored_total hm is fun j hj => h j (List.mem_cons_of_mem _ hj)

/-- In verify mode, a goal for which a proof is found and written down is accepted, whatever is stored. -/
theorem verifyGoal_found (hm : S.checkMode = false) (ho : S.override = none) {stored : List Cert}
    {rs : List (Accepted Fact)} {st : Progress} (h : After S stored rs st) {facts : List Fact} {goal : Nat}
    (hc : S.cancelled goal = false) (hp : S.search facts goal = .proof) (hw : (S.write facts goal).isSome) :
    ∃ st', verifyGoal S st facts goal = .ok st' := by
  unfold verifyGoal
  rw [hc, if_neg (by simp), ho]
  dsimp only
  have hv : ∀ i ∈ (if S.skipStore = true then [] else st.work.getIndexes (S.name goal)), (st.work.getCert i).isSome := by
    intro i hi
    split at hi
    · cases hi
    · rw [h.work] at hi
      obtain ⟨c, e, _⟩ := (mem_getIndexes _ _ _ _).mp hi
      rw [Worklist.getCert, h.work, worklistAfter_store, e]; rfl
  obtain ⟨r, hr⟩ := tryStored_total hm _ hv
  rw [hr]
  cases r with
  | some p => exact ⟨_, rfl⟩
  | none =>
    dsimp only
    obtain ⟨c, hcw⟩ := Option.isSome_iff_exists.mp hw
    rw [if_neg (by rw [hm]; simp), searchGoal, hp]
    dsimp only
    rw [hcw]
    exact ⟨_, rfl⟩

theorem inTurn_found (hm : S.checkMode = false) (ho : S.override = none) (hf : S.filter = none) {stored : List Cert} :
    ∀ (goals : List (List Fact × Nat)) {rs : List (Accepted Fact)} {st : Progress}, After S stored rs st →
    S.stops st = false → st.moduleGood = true →
    (∀ p ∈ goals, S.cancelled p.2 = false ∧ S.search p.1 p.2 = .proof ∧ (S.write p.1 p.2).isSome) →
    ∃ st', inTurn S st goals = .ok st' ∧ st'.moduleGood = true
  | [], rs, st, _, _, hg, _ => ⟨st, rfl, hg⟩
  | (facts, goal) :: goals, rs, st, h, hs, hg, hp => by
    obtain ⟨p1, p2, p3⟩ := hp _ List.mem_cons_self
    obtain ⟨st1, e⟩ := verifyGoal_found hm ho h p1 p2 p3
    rcases verifyGoal_after h ho e with ⟨r, _, _, h3, h4, h5, _⟩ | ⟨_, hno, _⟩
    · have hs1 : S.stops st1 = false := by rw [← hs, Setting.stops, Setting.stops, h4]
      obtain ⟨st', e2, h6⟩ := inTurn_found hm ho hf goals h3 hs1 (by rw [h5]; exact hg) fun p hq => hp p (List.mem_cons_of_mem _ hq)
      refine ⟨st', ?_, h6⟩
      rw [inTurn, attempt, hf]
      dsimp only
      rw [e]
      simp only [bind, Except.bind]
      rw [hs1]; exact e2
    · exact absurd p2 hno

/-! ### Check mode leaves nothing -/

theorem Takes.names {stored : List Cert} : ∀ {done goals : List (List Fact × Nat)} {certs : List Cert},
    Takes S stored done goals certs → certs.map Cert.goal = goals.map fun p => S.name p.2
  | _, _, _, .nil _ => rfl
  | _, _, _, .cons h _ h3 => by
    have := (List.mem_filter.mp (List.mem_of_getElem? h)).2
    simp only [List.map_cons, h3.names, List.cons.injEq, and_true]
    simpa [trimTo] using this

theorem nothing_left {certs : List Cert} {goals : List (List Fact × Nat)} {w : Worklist}
    (hn : certs.map Cert.goal = goals.map fun p => S.name p.2) (h : UsedFirst S certs goals w) (order : List String) :
    (∀ name, w.getIndexes name = []) ∧ w.iterUnused order = [] := by
  have h0 : ∀ name, w.getIndexes name = [] := by
    intro name
    rw [h.2, leftFor, List.drop_eq_nil_iff, ← storedFor_length hn, ← storedFor_zipIdx]
    simp
  refine ⟨h0, ?_⟩
  rw [Worklist.iterUnused, List.flatMap_eq_nil_iff]
  intro g _
  rw [h0]; rfl

end Acorn.Vrf
