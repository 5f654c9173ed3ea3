import Verif.Lemmas.ServerRuns
/-
What changes the build information, and what the editor shows of it.
-/
namespace Acorn.Serv

variable {S T C R : Type}

/-- The task marks this build as finished. -/
def Phase.finishes : Phase S T R → Option Nat
  | .failFinish e _ | .finishing e _ _ _ => some e
  | _ => none

/-- The ways in which an action changes the build information and what is published. -/
theorem act_info (ops : Ops S T C R) {s t : State S T C R} {a : Act R}
    (ha : s.act ops a = some t) :
    (t.info = s.info ∧ t.published = s.published) ∨
    (∃ i path e, a = .run i ∧ s.tasks[i]? = some (.saveQueue path e) ∧ t.info = .queued e ∧
      t.published = s.published) ∨
    (∃ i e r v targets token info ps, a = .run i ∧
      s.tasks[i]? = some (.reset e r v targets token) ∧
      s.info.reset e (ops.openUrls v) = some (info, ps) ∧ t.info = info ∧
      t.published = ps.reverse ++ s.published ∧
      t.tasks = s.tasks.set i (.building e r v targets token)) ∨
    (∃ i p e, a = .run i ∧ s.tasks[i]? = some p ∧ p.finishes = some e ∧
      t.info = s.info.finish e ∧ t.published = s.published) ∨
    ∃ i e r v targets token ev, a = .event i ev ∧
      s.tasks[i]? = some (.building e r v targets token) ∧
      t.info = (s.info.handleEvent e ev).1 ∧
      t.published = (s.info.handleEvent e ev).2.reverse ++ s.published ∧ t.tasks = s.tasks := by
  cases a with
  | save path text version => cases ha; exact .inl ⟨rfl, rfl⟩
  | close path => cases ha; exact .inl ⟨rfl, rfl⟩
  | run i =>
    simp only [State.act] at ha
    cases hp : s.tasks[i]? with
    | none => rw [hp] at ha; cases ha
    | some p =>
      rw [hp] at ha
      simp only [Option.bind_some] at ha
      cases p with
      | saveQueue path e =>
        simp only [State.step] at ha
        split at ha
        · cases ha; exact .inr (.inl ⟨i, path, e, rfl, hp, rfl, rfl⟩)
        · cases ha
      | reset e r v targets token =>
        simp only [State.step] at ha
        split at ha
        · cases ha; exact .inl ⟨rfl, rfl⟩
        · rename_i info ps hr
          cases ha
          exact .inr (.inr (.inl ⟨i, e, r, v, targets, token, info, ps, rfl, hp, hr, rfl, rfl, rfl⟩))
      | failFinish e r =>
        simp only [State.step, Option.some.injEq] at ha
        subst ha
        exact .inr (.inr (.inr (.inl ⟨i, _, e, rfl, hp, rfl, rfl, rfl⟩)))
      | finishing e r v x =>
        simp only [State.step, Option.some.injEq] at ha
        subst ha
        exact .inr (.inr (.inr (.inl ⟨i, _, e, rfl, hp, rfl, rfl, rfl⟩)))
      | _ =>
        simp only [State.step] at ha
        (try split at ha) <;>
        first
        | (cases ha; done)
        | (cases ha; exact .inl ⟨rfl, rfl⟩)
  | event i ev =>
    simp only [State.act] at ha
    split at ha
    · rename_i e r v targets token hp
      cases ha
      exact .inr (.inr (.inr (.inr ⟨i, e, r, v, targets, token, ev, rfl, hp, rfl, rfl, rfl⟩)))
    · cases ha
  | endBuild i result =>
    simp only [State.act] at ha
    split at ha
    · cases ha; exact .inl ⟨rfl, rfl⟩
    · cases ha

/-- The generation only grows. -/
theorem act_generation (ops : Ops S T C R) {s t : State S T C R} {a : Act R} (h : Inv s)
    (ha : s.act ops a = some t) (g : Nat) (hg : s.info.generation = some g) :
    ∃ g', t.info.generation = some g' ∧ g ≤ g' := by
  rcases act_info ops ha with ⟨k, _⟩ | ⟨i, path, e, _, hp, k, _⟩ |
    ⟨i, e, r, v, targets, token, info, ps, _, hp, hr, k, _⟩ | ⟨i, p, e, _, hp, hf, k, _⟩ |
    ⟨i, e, r, v, targets, token, ev, _, hp, k, _⟩
  · exact ⟨g, k ▸ hg, Nat.le_refl _⟩
  · exact ⟨e, by rw [k]; rfl, Nat.le_of_lt ((h.task i _ hp).wait e rfl rfl g hg)⟩
  · obtain ⟨h1, h2, _⟩ := reset_some hr
    exact ⟨g, by rw [k, h2, ← hg, h1], Nat.le_refl _⟩
  · exact ⟨g, by rw [k, finish_generation, hg], Nat.le_refl _⟩
  · exact ⟨g, by rw [k, (handleEvent_keeps _ _ _).1, hg], Nat.le_refl _⟩

/-! ### What is shown -/

theorem shown_cons (p : Publish) (ps : List Publish) (url : Url) :
    shown (p :: ps) url = if p.url = url then some (p.diagnostics, p.version) else shown ps url := by
  unfold shown
  rw [List.find?_cons]
  by_cases h : p.url = url <;> simp [h]

theorem lookup_filter_ne {β : Type} {x y : Url} (h : y ≠ x) (l : List (Url × β)) :
    (l.filter fun d => d.1 ≠ x).lookup y = l.lookup y := by
  induction l with
  | nil => rfl
  | cons d l ih =>
    by_cases hd : d.1 = x
    · rw [List.filter_cons_of_neg (by simpa using hd), ih, List.lookup_cons,
        beq_false_of_ne (show y ≠ d.1 from fun k => h (k.trans hd))]
    · rw [List.filter_cons_of_pos (by simpa using hd), List.lookup_cons, List.lookup_cons, ih]

theorem lookup_cons_self {β : Type} (x : Url) (d : β) (l : List (Url × β)) :
    ((x, d) :: l).lookup x = some d := by
  rw [List.lookup_cons]; simp

theorem lookup_cons_ne {β : Type} {x y : Url} (h : y ≠ x) (d : β) (l : List (Url × β)) :
    ((x, d) :: l).lookup y = l.lookup y := by
  rw [List.lookup_cons, beq_false_of_ne h]

theorem withDoc_self (b : Info) (url : Url) (f : DocInfo → DocInfo) :
    (b.withDoc url f).docs.lookup url = some (f ((b.docs.lookup url).getD (.new .none))) :=
  lookup_cons_self ..

theorem withDoc_ne (b : Info) {url x : Url} (h : x ≠ url) (f : DocInfo → DocInfo) :
    (b.withDoc url f).docs.lookup x = b.docs.lookup x := by
  unfold Info.withDoc
  rw [lookup_cons_ne h, lookup_filter_ne h]

/-- The documents after a reset. -/
def openedDocs (opened : List (Url × Int)) (docs : List (Url × DocInfo)) : List (Url × DocInfo) :=
  opened.foldl (fun docs o => (o.1, DocInfo.new (some o.2)) :: docs.filter fun d => d.1 ≠ o.1) docs

/-- What the last entry for a file says. -/
def lastOpen (opened : List (Url × Int)) (url : Url) : Option Int :=
  opened.foldl (fun x o => if o.1 = url then some o.2 else x) none

theorem lastOpen_from (opened : List (Url × Int)) (url : Url) (x : Option Int) :
    opened.foldl (fun x o => if o.1 = url then some o.2 else x) x =
      (lastOpen opened url).or x := by
  unfold lastOpen
  induction opened generalizing x with
  | nil => rfl
  | cons o opened ih =>
    simp only [List.foldl_cons]
    rw [ih, ih (if o.1 = url then some o.2 else none)]
    by_cases h : o.1 = url <;> simp [h, Option.or_assoc]

theorem lastOpen_cons (o : Url × Int) (opened : List (Url × Int)) (url : Url) :
    lastOpen (o :: opened) url =
      (lastOpen opened url).or (if o.1 = url then some o.2 else none) :=
  lastOpen_from opened url _

theorem openedDocs_lookup (opened : List (Url × Int)) (docs : List (Url × DocInfo)) (url : Url) :
    (openedDocs opened docs).lookup url =
      ((lastOpen opened url).map fun v => DocInfo.new (some v)).or (docs.lookup url) := by
  unfold openedDocs
  induction opened generalizing docs with
  | nil => rfl
  | cons o opened ih =>
    simp only [List.foldl_cons]
    rw [ih]
    rw [lastOpen_cons]
    by_cases h : o.1 = url
    · subst h
      rw [lookup_cons_self]
      simp only [if_true]
      cases lastOpen opened o.1 <;> rfl
    · rw [lookup_cons_ne (Ne.symm h), lookup_filter_ne (Ne.symm h), if_neg h, Option.or_none]

theorem shown_opened (opened : List (Url × Int)) (ps : List Publish) (url : Url) :
    shown ((opened.map fun o => (⟨o.1, [], some o.2⟩ : Publish)).reverse ++ ps) url =
      ((lastOpen opened url).map fun v => ([], some v)).or (shown ps url) := by
  induction opened generalizing ps with
  | nil => rfl
  | cons o opened ih =>
    rw [List.map_cons, List.reverse_cons, List.append_assoc, ih]
    rw [lastOpen_cons, List.singleton_append, shown_cons]
    by_cases h : o.1 = url
    · simp only [h, if_true]
      cases lastOpen opened url <;> rfl
    · simp only [h, if_false, Option.or_none]

theorem lastOpen_of_mem {opened : List (Url × Int)} (hn : (opened.map (·.1)).Nodup) {url : Url}
    {v : Int} (h : (url, v) ∈ opened) : lastOpen opened url = some v := by
  induction opened with
  | nil => cases h
  | cons o opened ih =>
    rw [lastOpen_cons]
    obtain ⟨h1, h2⟩ := List.nodup_cons.1 hn
    rcases List.mem_cons.1 h with rfl | h
    · have : lastOpen opened url = none := by
        cases hl : lastOpen opened url with
        | none => rfl
        | some w =>
          exfalso
          apply h1
          have key : ∀ l : List (Url × Int), lastOpen l url = some w → url ∈ l.map (·.1) := by
            intro l
            induction l with
            | nil => intro k; cases k
            | cons o l ihl =>
              intro k
              rw [lastOpen_cons] at k
              by_cases ho : o.1 = url
              · exact ho ▸ .head _
              · rw [if_neg ho, Option.or_none] at k
                exact .tail _ (ihl k)
          exact key opened hl
      rw [this]; simp
    · rw [ih h2 h]; rfl

theorem reset_eq {b b' : Info} {e : Nat} {o : List (Url × Int)} {ps : List Publish}
    (h : b.reset e o = some (b', ps)) :
    b' = { Info.queued e with docs := openedDocs o [] } ∧
    ps = (o.map fun o => (⟨o.1, [], some o.2⟩ : Publish)) ++
      ((b.docs.filter fun d => ((openedDocs o []).lookup d.1).isNone).map
        fun d => (⟨d.1, [], none⟩ : Publish)) := by
  unfold Info.reset at h
  split at h
  · cases h
  · cases h; exact ⟨rfl, rfl⟩

theorem shown_append_of_not (ps qs : List Publish) (url : Url) (h : ∀ p ∈ ps, p.url ≠ url) :
    shown (ps ++ qs) url = shown qs url := by
  induction ps with
  | nil => rfl
  | cons p ps ih =>
    rw [List.cons_append, shown_cons, if_neg (h p (.head _)), ih (fun q hq => h q (.tail _ hq))]

/-- What is shown after a reset for a file that is open. -/
theorem reset_shown {b b' : Info} {e : Nat} {o : List (Url × Int)} {ps : List Publish}
    (h : b.reset e o = some (b', ps)) (qs : List Publish) {url : Url} {v : Int}
    (hv : lastOpen o url = some v) :
    shown (ps.reverse ++ qs) url = some ([], some v) ∧
      b'.docs.lookup url = some (.new (some v)) := by
  obtain ⟨rfl, rfl⟩ := reset_eq h
  have hl : (openedDocs o []).lookup url = some (.new (some v)) := by
    rw [openedDocs_lookup, hv]; rfl
  refine ⟨?_, hl⟩
  rw [List.reverse_append, List.append_assoc, shown_append_of_not, shown_opened, hv]
  · rfl
  · intro p hp hu
    rw [List.mem_reverse, List.mem_map] at hp
    obtain ⟨d, hd, rfl⟩ := hp
    have := (List.mem_filter.1 hd).2
    simp only at hu
    rw [hu, hl] at this
    cases this

theorem verify_keeps (d : DocInfo) (a b : Nat) :
    (d.verify a b).version = d.version ∧ (d.verify a b).diagnostics = d.diagnostics := by
  unfold DocInfo.verify
  split <;> exact ⟨rfl, rfl⟩

/-- What an event does to the entry of a file, and to what is shown for it. -/
theorem handleDoc_doc (b : Info) (ev : Event) (url : Url) (qs : List Publish) {d : DocInfo}
    (hd : b.docs.lookup url = some d) (hs : shown qs url = some (d.diagnostics, d.version)) :
    ∃ d', (b.handleDoc ev).1.docs.lookup url = some d' ∧ d'.version = d.version ∧
      d'.diagnostics = d.diagnostics ++ reported [ev] url ∧
      shown ((b.handleDoc ev).2.reverse ++ qs) url = some (d'.diagnostics, d'.version) := by
  unfold Info.handleDoc
  cases hu : ev.url with
  | none => exact ⟨d, hd, rfl, by simp [reported, hu], hs⟩
  | some x =>
    by_cases hx : x = url
    · subst hx
      have step1 : ∃ b1 d1, b.handleVerified x ev.verified = b1 ∧ b1.docs.lookup x = some d1 ∧ d1.version = d.version ∧
          d1.diagnostics = d.diagnostics := by
        cases ev.verified with
        | none => exact ⟨b, d, rfl, hd, rfl, rfl⟩
        | some r =>
          refine ⟨_, _, rfl, withDoc_self .., ?_⟩
          rw [hd]
          exact verify_keeps ..
      obtain ⟨b1, d1, e1, e2, e3, e4⟩ := step1
      dsimp only
      rw [e1]
      cases hg : ev.diagnostic with
      | none =>
        exact ⟨d1, e2, e3, by simp [reported, hu, hg, e4], by rw [e3, e4]; exact hs⟩
      | some y =>
        refine ⟨d1.addDiagnostic y, by rw [withDoc_self, e2]; rfl, e3, ?_, ?_⟩
        · simp [DocInfo.addDiagnostic, reported, hu, hg, e4]
        · dsimp only
          rw [withDoc_self, e2]
          exact (shown_cons _ _ _).trans (if_pos rfl)
    · have hx' : url ≠ x := Ne.symm hx
      have step1 : ∃ b1, b.handleVerified x ev.verified = b1 ∧ b1.docs.lookup url = some d := by
        cases ev.verified with
        | none => exact ⟨b, rfl, hd⟩
        | some r => exact ⟨_, rfl, (withDoc_ne b hx' _).trans hd⟩
      obtain ⟨b1, e1, e2⟩ := step1
      have hr : reported [ev] url = [] := by
        simp [reported, hu, hx]
      dsimp only
      rw [e1, hr]
      cases ev.diagnostic with
      | none => exact ⟨d, e2, rfl, by simp, hs⟩
      | some y =>
        refine ⟨d, by rw [withDoc_ne _ hx']; exact e2, rfl, by simp, ?_⟩
        rw [shown_append_of_not]
        · exact hs
        · intro p hp
          rw [List.mem_reverse] at hp
          dsimp only at hp
          rw [withDoc_self] at hp
          simp only [Option.map_some, Option.toList_some, List.mem_singleton] at hp
          rw [hp]
          exact hx

theorem handleDoc_id (b : Info) (ev : Event) : (b.handleDoc ev).1.id = b.id := by
  unfold Info.handleDoc
  cases ev.url with
  | none => rfl
  | some url => cases ev.verified <;> cases ev.diagnostic <;> rfl

/-- The same for a whole event, if it is from the build that is shown. -/
theorem handleEvent_doc (b : Info) (g : Nat) (ev : Event) (url : Url) (qs : List Publish)
    {d : DocInfo} (hg : b.generation = some g) (hid : b.id = none ∨ b.id = some ev.buildId)
    (hd : b.docs.lookup url = some d) (hs : shown qs url = some (d.diagnostics, d.version)) :
    (b.handleEvent g ev).1.id = some ev.buildId ∧
    ∃ d', (b.handleEvent g ev).1.docs.lookup url = some d' ∧ d'.version = d.version ∧
      d'.diagnostics = d.diagnostics ++ reported [ev] url ∧
      shown ((b.handleEvent g ev).2.reverse ++ qs) url = some (d'.diagnostics, d'.version) := by
  unfold Info.handleEvent
  rw [if_neg (by simp [hg]), if_neg (by rcases hid with h | h <;> simp [h])]
  refine ⟨?_, ?_⟩
  · rw [handleDoc_id]
    cases ev.progress <;> rfl
  · refine handleDoc_doc _ ev url qs ?_ hs
    cases ev.progress <;> exact hd

/-! ### A whole build -/

/-- The task has got past the start of its build. -/
def Phase.late : Phase S T R → Bool
  | .building _ _ _ _ _ | .finishing _ _ _ _ => true
  | .cacheCheck _ _ _ | .cacheCancel _ _ _ | .cacheMutate _ _ _ => true
  | .done | .skipped => true
  | _ => false

theorem step_late (ops : Ops S T C R) {s t : State S T C R} {i : Nat} {p : Phase S T R}
    (hp : s.tasks[i]? = some p) (hl : p.late = true) (hst : s.step ops i p = some t) :
    ∃ q, t.tasks[i]? = some q ∧ q.late = true ∧
      (q.saved = p.saved ∨ q.saved = none ∧ ∃ e, p.saved = some e ∧ t.info = s.info.finish e) := by
  have self : ∀ p', (s.tasks.set i p')[i]? = some p' := by
    intro p'
    rw [List.getElem?_set_self', hp]
    rfl
  cases p with
  | finishing e r v x =>
    simp only [State.step, Option.some.injEq] at hst
    subst hst
    exact ⟨_, self _, rfl, .inr ⟨rfl, e, rfl, rfl⟩⟩
  | cacheCheck r v x =>
    simp only [State.step, Option.some.injEq] at hst
    subst hst
    exact ⟨_, self _, by split <;> rfl, .inl (by split <;> rfl)⟩
  | cacheCancel r v x =>
    simp only [State.step, Option.some.injEq] at hst
    subst hst
    exact ⟨_, self _, rfl, .inl rfl⟩
  | cacheMutate r v x =>
    simp only [State.step] at hst
    split at hst <;>
    · cases hst
      exact ⟨_, self _, rfl, .inl rfl⟩
  | building e r v x y => simp only [State.step] at hst; cases hst
  | done => simp only [State.step] at hst; cases hst
  | skipped => simp only [State.step] at hst; cases hst
  | _ => cases hl

/-- Tasks are never removed. -/
theorem act_still (ops : Ops S T C R) {s t : State S T C R} {a : Act R}
    (ha : s.act ops a = some t) {i : Nat} {p : Phase S T R} (hp : s.tasks[i]? = some p) :
    ∃ q, t.tasks[i]? = some q := by
  have app : ∀ x : Phase S T R, ∃ q, (s.tasks ++ [x])[i]? = some q := by
    intro x
    refine ⟨p, ?_⟩
    rw [List.getElem?_append_left (List.getElem?_eq_some_iff.1 hp).1]
    exact hp
  have st : ∀ (k : Nat) x, ∃ q, (s.tasks.set k x)[i]? = some q := by
    intro k x
    have : i < (s.tasks.set k x).length := by
      rw [List.length_set]; exact (List.getElem?_eq_some_iff.1 hp).1
    exact ⟨_, List.getElem?_eq_getElem this⟩
  cases a with
  | save path text version => cases ha; exact app _
  | close path => cases ha; exact app _
  | run k =>
    simp only [State.act] at ha
    cases hk : s.tasks[k]? with
    | none => rw [hk] at ha; cases ha
    | some x =>
      rw [hk] at ha
      simp only [Option.bind_some] at ha
      cases x <;> simp only [State.step] at ha <;> (try split at ha) <;>
        first
        | cases ha; done
        | (cases ha; exact st _ _)
  | event k ev =>
    simp only [State.act] at ha
    split at ha
    · cases ha; exact ⟨p, hp⟩
    · cases ha
  | endBuild k x =>
    simp only [State.act] at ha
    split at ha
    · cases ha; exact st _ _
    · cases ha

theorem act_late (ops : Ops S T C R) {s t : State S T C R} {a : Act R}
    (ha : s.act ops a = some t) {i : Nat} {p : Phase S T R} (hp : s.tasks[i]? = some p)
    (hl : p.late = true) : ∃ q, t.tasks[i]? = some q ∧ q.late = true ∧
      (q.saved = p.saved ∨ q.saved = none ∧ ∃ e, p.saved = some e ∧ t.info = s.info.finish e) := by
  obtain ⟨q, hq⟩ := act_still ops ha hp
  rcases act_task ops ha hq with k | k | ⟨p', hp', hst⟩ | ⟨e, r, v, targets, token, x, hb, _, _, rfl⟩
  · rw [hp] at k; cases k; exact ⟨p, hq, hl, .inl rfl⟩
  · -- a new task, or one that has ended
    by_cases hqe : q = p
    · exact ⟨q, hq, hqe ▸ hl, .inl (by rw [hqe])⟩
    · cases a with
      | save path text version =>
        cases ha
        rw [List.getElem?_append_left (List.getElem?_eq_some_iff.1 hp).1, hp] at hq
        cases hq; exact absurd rfl hqe
      | close path =>
        cases ha
        rw [List.getElem?_append_left (List.getElem?_eq_some_iff.1 hp).1, hp] at hq
        cases hq; exact absurd rfl hqe
      | run k =>
        simp only [State.act] at ha
        cases hk : s.tasks[k]? with
        | none => rw [hk] at ha; cases ha
        | some x =>
          rw [hk] at ha
          simp only [Option.bind_some] at ha
          by_cases hki : i = k
          · subst hki
            rw [hp] at hk
            cases hk
            exact step_late ops hp hl ha
          · have : ∃ p', t.tasks = s.tasks.set k p' := by
              cases x <;> simp only [State.step] at ha <;> (try split at ha) <;>
                first
                | cases ha; done
                | (cases ha; exact ⟨_, rfl⟩)
            obtain ⟨p', h⟩ := this
            rw [h, List.getElem?_set_ne (Ne.symm hki), hp] at hq
            cases hq; exact absurd rfl hqe
      | event k ev =>
        simp only [State.act] at ha
        split at ha
        · cases ha
          have hq' : s.tasks[i]? = some q := hq
          rw [hp] at hq'
          cases hq'; exact absurd rfl hqe
        · cases ha
      | endBuild k x =>
        simp only [State.act] at ha
        split at ha
        · cases ha
          rcases set_get hq with ⟨_, rfl⟩ | ⟨_, k⟩
          · cases k
          · rw [hp] at k
            cases k; exact absurd rfl hqe
        · cases ha
  · rw [hp] at hp'; cases hp'
    exact step_late ops hp hl hst
  · rw [hp] at hb; cases hb
    exact ⟨_, hq, rfl, .inl rfl⟩

theorem RunsBy.runs {ops : Ops S T C R} {s t : State S T C R} {as : List (Act R)}
    (h : RunsBy ops s as t) : Runs ops s t := by
  induction h with
  | nil => exact .refl
  | snoc _ ha ih => exact .step ih ha

theorem sent_snoc (i : Nat) (as : List (Act R)) (a : Act R) :
    sent i (as ++ [a]) = sent i as ++ sent i [a] := by
  simp [sent, List.filterMap_append]

theorem reported_append (xs ys : List Event) (url : Url) :
    reported (xs ++ ys) url = reported xs url ++ reported ys url := by
  simp [reported, List.filterMap_append]

/-- During a build the editor shows what the builder has reported, until another build is queued. -/
theorem shows_build {ops : Ops S T C R} {s t : State S T C R} {as : List (Act R)} (h : Inv s)
    (hr : RunsBy ops s as t) {i e : Nat} {p : Phase S T R} (hp : s.tasks[i]? = some p)
    (hl : p.late = true) (hps : p.saved = some e) (hg : s.info.generation = some e)
    (hid : s.info.id = none) {url : Url} {v : Option Int}
    (hd : s.info.docs.lookup url = some (.new v)) (hs : shown s.published url = some ([], v))
    {b : Nat} (hb : ∀ ev ∈ sent i as, ev.buildId = b) :
    ∃ q, t.tasks[i]? = some q ∧ q.late = true ∧
    ((∃ g, t.info.generation = some g ∧ e < g) ∨
      t.info.generation = some e ∧ (t.info.id = none ∨ t.info.id = some b) ∧
      (q.saved = some e ∨ q.saved = none ∧ t.info.finished = true) ∧
      ∃ d, t.info.docs.lookup url = some d ∧ d.version = v ∧
        d.diagnostics = reported (sent i as) url ∧
        shown t.published url = some (d.diagnostics, d.version)) := by
  induction hr with
  | nil => exact ⟨p, hp, hl, .inr ⟨hg, .inl hid, .inl hps, .new v, hd, rfl, rfl, hs⟩⟩
  | @snoc t t' as a hr ha ih =>
    have hb' : ∀ ev ∈ sent i as, ev.buildId = b := fun ev hev =>
      hb ev (by rw [sent_snoc]; exact List.mem_append.2 (.inl hev))
    obtain ⟨q, hq, hql, hi⟩ := ih hb'
    have ht : Inv t := inv_runs h hr.runs
    obtain ⟨q', hq', hql', hsv⟩ := act_late ops ha hq hql
    refine ⟨q', hq', hql', ?_⟩
    rcases hi with ⟨g, hg1, hg2⟩ | ⟨hg1, hid1, hfin, d, hd1, hd2, hd3, hd4⟩
    · obtain ⟨g', k1, k2⟩ := act_generation ops ht ha g hg1
      exact .inl ⟨g', k1, Nat.lt_of_lt_of_le hg2 k2⟩
    · -- a task that stands for this save is this task
      have mine : ∀ (j : Nat) x, t.tasks[j]? = some x → x.saved = some e → j = i := by
        intro j x hj hx
        rcases hfin with hf | ⟨_, hf⟩
        · apply Classical.byContradiction
          intro hji
          exact (ht.differ i j q x hq hj (Ne.symm hji)).saved e hf hx
        · exact absurd hx ((ht.task j x hj).fin hf e hg1)
      have fin' : (t.info.finished = true → t'.info.finished = true) →
          q'.saved = some e ∨ q'.saved = none ∧ t'.info.finished = true := by
        intro hk
        rcases hfin with hf | ⟨hn, hf⟩
        · rcases hsv with k | ⟨k0, x, k1, k2⟩
          · exact .inl (k.trans hf)
          · rw [hf] at k1
            cases k1
            refine .inr ⟨k0, ?_⟩
            rw [k2]
            unfold Info.finish
            rw [if_neg (by simp [hg1])]
        · rcases hsv with k | ⟨k0, x, k1, k2⟩
          · exact .inr ⟨k.trans hn, hk hf⟩
          · exact .inr ⟨k0, hk hf⟩
      -- an action that is not an event of this task
      have quiet : sent i [a] = [] → t'.info.generation = t.info.generation →
          t'.info.id = t.info.id → t'.info.docs = t.info.docs →
          (t.info.finished = true → t'.info.finished = true) → t'.published = t.published →
          t'.info.generation = some e ∧ (t'.info.id = none ∨ t'.info.id = some b) ∧
          (q'.saved = some e ∨ q'.saved = none ∧ t'.info.finished = true) ∧
          ∃ d, t'.info.docs.lookup url = some d ∧ d.version = v ∧
            d.diagnostics = reported (sent i (as ++ [a])) url ∧
            shown t'.published url = some (d.diagnostics, d.version) := by
        intro k1 k2 k3 k4 k5 k6
        refine ⟨k2.trans hg1, by rw [k3]; exact hid1, fin' k5, d, by rw [k4]; exact hd1, hd2, ?_,
          by rw [k6]; exact hd4⟩
        rw [sent_snoc, k1, List.append_nil]
        exact hd3
      have quiet' : (∀ j ev, a ≠ .event j ev) → sent i [a] = [] := by
        intro k
        cases a with
        | event j ev => exact absurd rfl (k j ev)
        | _ => rfl
      by_cases hev : ∃ j ev, a = .event j ev
      · obtain ⟨j, ev, rfl⟩ := hev
        right
        have ha' := ha
        simp only [State.act] at ha
        split at ha
        · rename_i e' r v' targets token hj
          cases ha
          obtain ⟨k1, k2⟩ := handleEvent_keeps t.info e' ev
          by_cases he : e' = e
          · subst he
            have hji := mine j _ hj rfl
            subst hji
            have hsent : sent j (as ++ [Act.event j ev]) = sent j as ++ [ev] := by
              rw [sent_snoc]; simp [sent]
            have hbe : ev.buildId = b := hb ev (by rw [hsent]; simp)
            obtain ⟨m1, d', m2, m3, m4, m5⟩ := handleEvent_doc t.info e' ev url t.published hg1
              (by rw [hbe]; exact hid1) hd1 hd4
            refine ⟨k1.trans hg1, .inr (by rw [← hbe]; exact m1), fin' (fun k => k2.trans k), d', m2,
              m3.trans hd2, ?_, m5⟩
            rw [hsent, reported_append, ← hd3]
            exact m4
          · have hh : t.info.handleEvent e' ev = (t.info, []) := by
              unfold Info.handleEvent
              rw [if_pos (by rw [hg1]; intro k; cases k; exact he rfl)]
            have hji : j ≠ i := by
              intro hji
              subst hji
              rw [hq] at hj
              cases hj
              rcases hfin with hf | ⟨hf, _⟩
              · cases hf; exact he rfl
              · cases hf
            refine quiet (by simp [sent, hji]) ?_ ?_ ?_ ?_ ?_ <;>
              simp only [State.publish, hh] <;> first | rfl | exact id
        · cases ha
      · have ns : sent i [a] = [] := quiet' (fun j ev k => hev ⟨j, ev, k⟩)
        rcases act_info ops ha with ⟨k1, k2⟩ | ⟨j, path, x, _, hj, k, _⟩ |
          ⟨j, e', r, v', targets, token, info, ps, hj', hj, hrs, k, _⟩ |
          ⟨j, x, e', hj', hj, hf, k1, k2⟩ | ⟨j, e', r, v', targets, token, ev, hj', hj, k1, k2, _⟩
        · exact .inr (quiet ns (by rw [k1]) (by rw [k1]) (by rw [k1]) (by rw [k1]; exact id) k2)
        · exact .inl ⟨x, by rw [k]; rfl, (ht.task j _ hj).wait x rfl rfl e hg1⟩
        · -- the build is not started again
          obtain ⟨h1, h2, _⟩ := reset_some hrs
          rw [hg1] at h1
          cases h1
          have hji := mine j _ hj rfl
          subst hji
          rw [hq] at hj
          cases hj
          cases hql
        · refine .inr (quiet ns (by rw [k1, finish_generation]) ?_ (by rw [k1, finish_docs]) ?_ k2)
          · rw [k1]; unfold Info.finish; split <;> rfl
          · rw [k1]; unfold Info.finish; intro k; split <;> first | exact k | rfl
        · exact absurd ⟨j, ev, hj'⟩ hev

end Acorn.Serv
