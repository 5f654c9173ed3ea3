import Verif.Lemmas.ServerShown
/-
The newest build goes on to its end.
-/
namespace Acorn.Serv

variable {S T C R : Type}

theorem reset_of_generation {b : Info} {e : Nat} (o : List (Url × Int))
    (h : b.generation = some e) : ∃ b' ps, b.reset e o = some (b', ps) := by
  unfold Info.reset
  rw [if_neg (by simp [h])]
  exact ⟨_, _, rfl⟩

/-- The build information is still that of the newest save when its task comes to reset it. -/
theorem newest_generation {s : State S T C R} (h : Inv s) {i e r : Nat} {v : S} {targets : T}
    {token : Nat} (hp : s.tasks[i]? = some (.reset e r v targets token)) (hr : s.epoch = r) :
    s.info.generation = some e := by
  have o := h.task i _ hp
  obtain ⟨g, hg, hle⟩ := o.gen e rfl rfl
  have h1 := h.genLe g hg
  have h2 : r = e + 1 := o.next e r rfl rfl
  have h3 : g ≠ r := fun k => o.other r rfl (k ▸ hg)
  have : g = e := by omega
  rw [← this]; exact hg

/-- A measure of what the task still has to do. -/
def Phase.left (n : Nat) : Phase S T R → Nat
  | .saveQueue _ _ => 20 + n
  | .reloadCheck _ _ => 19
  | .reloadCancel _ _ => 18
  | .reloadMutate _ _ => 17
  | .view _ _ _ => 16
  | .reset _ _ _ _ _ => 15
  | .building _ _ _ _ _ => 14
  | .finishing _ _ _ _ => 13
  | .cacheCheck _ _ _ => 12
  | .cacheCancel _ _ _ => 11
  | .cacheMutate _ _ _ => 10
  | .failFinish _ _ => 9
  | .failCheck _ => 8
  | .failCancel _ => 7
  | .failMutate _ => 6
  | _ => 0

/-- The own step of the task of the newest build. -/
theorem newest_step (ops : Ops S T C R) {s t : State S T C R} (h : Inv s) {i : Nat}
    {p : Phase S T R} (hp : s.tasks[i]? = some p) (ha : p.awaits = some s.epoch)
    (hst : s.step ops i p = some t) :
    ∃ q, t.tasks[i]? = some q ∧ (q.awaits = some t.epoch ∨ q = .done) ∧
      ∀ n m, q.left n < p.left m := by
  have self : ∀ p', (s.tasks.set i p')[i]? = some p' := by
    intro p'
    rw [List.getElem?_set_self', hp]
    rfl
  cases p with
  | saveQueue path e =>
    simp only [State.step] at hst
    split at hst
    · cases hst; exact ⟨_, self _, .inl ha, fun n m => by simp only [Phase.left]; omega⟩
    · cases hst
  | reloadCheck path e =>
    have he : s.epoch = e := by cases ha; rfl
    simp only [State.step, Option.some.injEq] at hst
    subst hst
    rw [if_neg (by simp [he])]
    exact ⟨_, self _, .inl ha, fun n m => by simp [Phase.left]⟩
  | reloadCancel path e =>
    simp only [State.step, Option.some.injEq] at hst
    subst hst
    exact ⟨_, self _, .inl ha, fun n m => by simp [Phase.left]⟩
  | reloadMutate path e =>
    have he : s.epoch = e := by cases ha; rfl
    simp only [State.step] at hst
    rw [if_neg (by simp [he])] at hst
    cases hst
    refine ⟨_, self _, ?_, ?_⟩
    · cases (ops.reload s.proj path).2 <;> exact .inl rfl
    · cases (ops.reload s.proj path).2 <;> intro n m <;> simp [Phase.left]
  | failFinish e r =>
    simp only [State.step, Option.some.injEq] at hst
    subst hst
    exact ⟨_, self _, .inl ha, fun n m => by simp [Phase.left]⟩
  | failCheck r =>
    have he : s.epoch = r := by cases ha; rfl
    simp only [State.step, Option.some.injEq] at hst
    subst hst
    rw [if_neg (by simp [he])]
    exact ⟨_, self _, .inl ha, fun n m => by simp [Phase.left]⟩
  | failCancel r =>
    simp only [State.step, Option.some.injEq] at hst
    subst hst
    exact ⟨_, self _, .inl ha, fun n m => by simp [Phase.left]⟩
  | failMutate r =>
    have he : s.epoch = r := by cases ha; rfl
    simp only [State.step] at hst
    rw [if_neg (by simp [he])] at hst
    cases hst
    exact ⟨_, self _, .inr rfl, fun n m => by simp [Phase.left]⟩
  | view e r targets =>
    have he : s.epoch = r := by cases ha; rfl
    simp only [State.step, Option.some.injEq] at hst
    subst hst
    rw [if_neg (by simp [he])]
    exact ⟨_, self _, .inl ha, fun n m => by simp [Phase.left]⟩
  | reset e r v targets token =>
    have he : s.epoch = r := by cases ha; rfl
    obtain ⟨b', ps, hrs⟩ := reset_of_generation (ops.openUrls v) (newest_generation h hp he)
    simp only [State.step] at hst
    rw [hrs] at hst
    cases hst
    exact ⟨_, self _, .inl ha, fun n m => by simp [Phase.left]⟩
  | building e r v targets token => simp only [State.step] at hst; cases hst
  | finishing e r v x =>
    simp only [State.step, Option.some.injEq] at hst
    subst hst
    exact ⟨_, self _, .inl ha, fun n m => by simp [Phase.left]⟩
  | cacheCheck r v x =>
    have he : s.epoch = r := by cases ha; rfl
    simp only [State.step, Option.some.injEq] at hst
    subst hst
    rw [if_neg (by simp [he])]
    exact ⟨_, self _, .inl ha, fun n m => by simp [Phase.left]⟩
  | cacheCancel r v x =>
    simp only [State.step, Option.some.injEq] at hst
    subst hst
    exact ⟨_, self _, .inl ha, fun n m => by simp [Phase.left]⟩
  | cacheMutate r v x =>
    have he : s.epoch = r := by cases ha; rfl
    simp only [State.step] at hst
    rw [if_neg (by simp [he])] at hst
    cases hst
    exact ⟨_, self _, .inr rfl, fun n m => by simp [Phase.left]⟩
  | _ => cases ha

/-- A step of another task, unless it is an edit, does not change the project. -/
theorem step_other (ops : Ops S T C R) {s t : State S T C R} {j : Nat}
    {q : Phase S T R} (ha : q.awaits ≠ some s.epoch) (he : q.edits = false)
    (hst : s.step ops j q = some t) :
    t.epoch = s.epoch ∧ t.proj = s.proj ∧ t.cache = s.cache ∧ t.isBuilding = s.isBuilding ∧
      ∃ q', t.tasks = s.tasks.set j q' := by
  cases q with
  | saveMutate path text version => cases he
  | closeMutate path => cases he
  | reloadMutate path e =>
    simp only [State.step] at hst
    rw [if_pos (fun k => ha (by rw [k]; rfl))] at hst
    cases hst
    exact ⟨rfl, rfl, rfl, rfl, _, rfl⟩
  | failMutate r =>
    simp only [State.step] at hst
    rw [if_pos (fun k => ha (by rw [k]; rfl))] at hst
    cases hst
    exact ⟨rfl, rfl, rfl, rfl, _, rfl⟩
  | cacheMutate r v x =>
    simp only [State.step] at hst
    rw [if_pos (fun k => ha (by rw [k]; rfl))] at hst
    cases hst
    exact ⟨rfl, rfl, rfl, rfl, _, rfl⟩
  | _ =>
    simp only [State.step] at hst
    (try split at hst) <;>
    first
    | (cases hst; done)
    | (cases hst; exact ⟨rfl, rfl, rfl, rfl, _, rfl⟩)

/-- As long as nothing is edited, the task of the newest build stays the one that may go on. -/
theorem newest_kept (ops : Ops S T C R) {s t : State S T C R} {a : Act R} (h : Inv s) {i : Nat}
    {p : Phase S T R} (hp : s.tasks[i]? = some p) (hp' : p.awaits = some s.epoch)
    (ha : s.act ops a = some t)
    (he : ∀ j q, a = .run j → s.tasks[j]? = some q → q.edits = false) :
    ∃ q, t.tasks[i]? = some q ∧ (q.awaits = some t.epoch ∨ q = .done) := by
  have app : ∀ x : Phase S T R, (s.tasks ++ [x])[i]? = some p := by
    intro x
    rw [List.getElem?_append_left (List.getElem?_eq_some_iff.1 hp).1]
    exact hp
  cases a with
  | save path text version => cases ha; exact ⟨p, app _, .inl hp'⟩
  | close path => cases ha; exact ⟨p, app _, .inl hp'⟩
  | run j =>
    simp only [State.act] at ha
    cases hj : s.tasks[j]? with
    | none => rw [hj] at ha; cases ha
    | some q =>
      rw [hj] at ha
      simp only [Option.bind_some] at ha
      by_cases hij : i = j
      · subst hij
        rw [hp] at hj
        cases hj
        obtain ⟨q, k1, k2, _⟩ := newest_step ops h hp hp' ha
        exact ⟨q, k1, k2⟩
      · obtain ⟨k1, _, _, _, q', k2⟩ := step_other ops ((h.differ i j p q hp hj hij).awaits _ hp')
          (he j q rfl hj) ha
        refine ⟨p, ?_, .inl (by rw [k1]; exact hp')⟩
        rw [k2, List.getElem?_set_ne (Ne.symm hij)]
        exact hp
  | event j ev =>
    simp only [State.act] at ha
    split at ha
    · cases ha; exact ⟨p, hp, .inl hp'⟩
    · cases ha
  | endBuild j x =>
    simp only [State.act] at ha
    split at ha
    · rename_i e r v targets token hj
      cases ha
      by_cases hij : i = j
      · subst hij
        rw [hp] at hj
        cases hj
        refine ⟨.finishing e r v x, ?_, .inl hp'⟩
        show (s.tasks.set i _)[i]? = _
        rw [List.getElem?_set_self', hp]
        rfl
      · refine ⟨p, ?_, .inl hp'⟩
        show (s.tasks.set j _)[i]? = _
        rw [List.getElem?_set_ne (Ne.symm hij)]
        exact hp
    · cases ha

/-- Some action brings the newest build forward. -/
theorem newest_progress (ops : Ops S T C R) {s : State S T C R} (h : Inv s) {i : Nat}
    {p : Phase S T R} (hp : s.tasks[i]? = some p) (hp' : p.awaits = some s.epoch) :
    ∃ a t q, s.act ops a = some t ∧ (∀ j q, a = .run j → s.tasks[j]? = some q → q.edits = false) ∧
      t.tasks[i]? = some q ∧ (q.awaits = some t.epoch ∨ q = .done) ∧
      q.left t.waiting.length < p.left s.waiting.length := by
  have self : ∀ t, s.step ops i p = some t → p.edits = false →
      ∃ a t q, s.act ops a = some t ∧
        (∀ j q, a = .run j → s.tasks[j]? = some q → q.edits = false) ∧
        t.tasks[i]? = some q ∧ (q.awaits = some t.epoch ∨ q = .done) ∧
        q.left t.waiting.length < p.left s.waiting.length := by
    intro t ht hpe
    obtain ⟨q, k1, k2, k3⟩ := newest_step ops h hp hp' ht
    refine ⟨.run i, t, q, ?_, fun j q hj hq => ?_, k1, k2, k3 _ _⟩
    · simp only [State.act]
      rw [hp]
      exact ht
    · cases hj
      rw [hp] at hq
      cases hq
      exact hpe
  cases p with
  | saveQueue path e =>
    obtain ⟨l, h1, h2, h3, h4⟩ := h.queue
    have hm := h4 i path e hp
    cases l with
    | nil => cases hm
    | cons x l =>
      have hw : s.waiting.head? = some x.1 := by rw [h1]; rfl
      by_cases hx : x.1 = i
      · refine self ({ s with info := .queued e, waiting := s.waiting.tail }.goto i
          (.reloadCheck path e)) ?_ rfl
        simp only [State.step]
        rw [if_pos (by rw [hw, hx])]
      · have hk := h3 x (.head _)
        have hst : s.step ops x.1 (.saveQueue x.2.1 x.2.2) =
            some ({ s with info := .queued x.2.2, waiting := s.waiting.tail }.goto x.1
              (.reloadCheck x.2.1 x.2.2)) := by
          simp only [State.step]
          rw [if_pos hw]
        refine ⟨.run x.1, { s with info := .queued x.2.2, waiting := s.waiting.tail }.goto x.1
          (.reloadCheck x.2.1 x.2.2), .saveQueue path e, ?_, fun j q hj hq => ?_, ?_, .inl hp', ?_⟩
        · simp only [State.act]
          rw [hk]
          exact hst
        · cases hj
          rw [hk] at hq
          cases hq
          rfl
        · show (s.tasks.set x.1 _)[i]? = _
          rw [List.getElem?_set_ne hx]
          exact hp
        · show 20 + s.waiting.tail.length < 20 + s.waiting.length
          rw [h1]
          simp
  | building e r v targets token =>
    refine ⟨.endBuild i none, s.goto i (.finishing e r v none), .finishing e r v none, ?_,
      fun j q hj => (by cases hj), ?_, .inl hp', by simp [Phase.left]⟩
    · simp only [State.act]
      rw [hp]
    · show (s.tasks.set i _)[i]? = _
      rw [List.getElem?_set_self', hp]
      rfl
  | reloadMutate path e =>
    have he : s.epoch = e := by cases hp'; rfl
    exact self _ (by simp only [State.step]; rw [if_neg (by simp [he])]) rfl
  | failMutate r =>
    have he : s.epoch = r := by cases hp'; rfl
    exact self _ (by simp only [State.step]; rw [if_neg (by simp [he])]) rfl
  | cacheMutate r v x =>
    have he : s.epoch = r := by cases hp'; rfl
    exact self _ (by simp only [State.step]; rw [if_neg (by simp [he])]) rfl
  | reset e r v targets token =>
    have he : s.epoch = r := by cases hp'; rfl
    obtain ⟨b', ps, hrs⟩ := reset_of_generation (ops.openUrls v) (newest_generation h hp he)
    exact self _ (by simp only [State.step]; rw [hrs]) rfl
  | _ => first | (cases hp'; done) | exact self _ rfl rfl

theorem newest_finishes (ops : Ops S T C R) (n : Nat) {s : State S T C R} (h : Inv s) {i : Nat}
    {p : Phase S T R} (hp : s.tasks[i]? = some p) (hp' : p.awaits = some s.epoch)
    (hn : p.left s.waiting.length ≤ n) :
    ∃ t, Runs ops s t ∧ t.tasks[i]? = some .done := by
  induction n generalizing s p with
  | zero =>
    obtain ⟨_, _, _, _, _, _, _, k⟩ := newest_progress ops h hp hp'
    omega
  | succ n ih =>
    obtain ⟨a, t, q, ha, _, hq, hqa, hlt⟩ := newest_progress ops h hp hp'
    rcases hqa with hqa | rfl
    · obtain ⟨t', hr, hd⟩ := ih (inv_act ops h ha) hq hqa (by omega)
      exact ⟨t', (Runs.step .refl ha).trans hr, hd⟩
    · exact ⟨t, .step .refl ha, hq⟩

/-! ### The end of a build -/

/-- The task has marked its build as finished and only has to report to the project. -/
def Phase.closing : Phase S T R → Option Nat
  | .failCheck r | .failCancel r | .failMutate r => some r
  | .cacheCheck r _ _ | .cacheCancel r _ _ | .cacheMutate r _ _ => some r
  | _ => none

/-- If a task has marked its build as finished and no newer build has been announced, then the
announced build is finished. -/
def Marked (s : State S T C R) : Prop :=
  ∀ (i : Nat) p r, s.tasks[i]? = some p → p.closing = some r →
    ∃ g, s.info.generation = some g ∧ r ≤ g + 1 ∧ (g + 1 = r → s.info.finished = true)

theorem closing_step (ops : Ops S T C R) {s t : State S T C R} {i : Nat} {p q : Phase S T R}
    (hp : s.tasks[i]? = some p) (hst : s.step ops i p = some t) (hq : t.tasks[i]? = some q)
    {r : Nat} (hr : q.closing = some r) :
    p.closing = some r ∨ ∃ e, p.saved = some e ∧ p.reloaded = some r ∧ p.isQueueing = false ∧
      t.info = s.info.finish e := by
  have self : ∀ p', t.tasks = s.tasks.set i p' → q = p' := by
    intro p' h
    rw [h, List.getElem?_set_self', hp] at hq
    exact (Option.some.inj hq).symm
  cases p with
  | finishing e r' v x =>
    simp only [State.step, Option.some.injEq] at hst
    subst hst
    have := self _ rfl
    subst this
    cases hr
    exact .inr ⟨e, rfl, rfl, rfl, rfl⟩
  | failFinish e r' =>
    simp only [State.step, Option.some.injEq] at hst
    subst hst
    have := self _ rfl
    subst this
    cases hr
    exact .inr ⟨e, rfl, rfl, rfl, rfl⟩
  | reloadMutate path e =>
    simp only [State.step] at hst
    split at hst
    · cases hst
      have := self _ rfl
      subst this
      cases hr
    · cases hst
      have := self _ rfl
      subst this
      cases hx : (ops.reload s.proj path).2 with
      | none => rw [hx] at hr; cases hr
      | some targets => rw [hx] at hr; cases hr
  | failCheck r' =>
    simp only [State.step, Option.some.injEq] at hst
    subst hst
    have := self _ rfl
    subst this
    split at hr
    · cases hr
    · exact .inl hr
  | cacheCheck r' v x =>
    simp only [State.step, Option.some.injEq] at hst
    subst hst
    have := self _ rfl
    subst this
    split at hr
    · cases hr
    · exact .inl hr
  | failCancel r' =>
    simp only [State.step, Option.some.injEq] at hst
    subst hst
    have := self _ rfl
    subst this
    exact .inl hr
  | cacheCancel r' v x =>
    simp only [State.step, Option.some.injEq] at hst
    subst hst
    have := self _ rfl
    subst this
    exact .inl hr
  | _ =>
    simp only [State.step] at hst
    (try split at hst) <;>
    first
    | (cases hst; done)
    | (cases hst
       have := self _ rfl
       subst this
       first
       | (cases hr; done)
       | (split at hr <;> cases hr))

theorem marked_act (ops : Ops S T C R) {s t : State S T C R} {a : Act R} (h : Inv s)
    (hm : Marked s) (ha : s.act ops a = some t) : Marked t := by
  -- what was marked before stays marked
  have old : ∀ r, (∃ g, s.info.generation = some g ∧ r ≤ g + 1 ∧
      (g + 1 = r → s.info.finished = true)) →
      ∃ g, t.info.generation = some g ∧ r ≤ g + 1 ∧ (g + 1 = r → t.info.finished = true) := by
    rintro r ⟨g, hg, hle, hf⟩
    rcases act_info ops ha with ⟨k, _⟩ | ⟨i, path, e, _, hp, k, _⟩ |
      ⟨i, e, r', v, targets, token, info, ps, _, hp, hr, k, _⟩ | ⟨i, p, e, _, hp, _, k, _⟩ |
      ⟨i, e, r', v, targets, token, ev, _, hp, k, _⟩
    · exact ⟨g, by rw [k]; exact hg, hle, by rw [k]; exact hf⟩
    · have := (h.task i _ hp).wait e rfl rfl g hg
      exact ⟨e, by rw [k]; rfl, by omega, fun k' => by omega⟩
    · obtain ⟨h1, h2, _⟩ := reset_some hr
      rw [hg] at h1
      cases h1
      refine ⟨g, by rw [k, h2], hle, fun k' => ?_⟩
      exact absurd rfl ((h.task i _ hp).fin (hf k') g hg)
    · refine ⟨g, by rw [k, finish_generation, hg], hle, fun k' => ?_⟩
      rw [k]
      unfold Info.finish
      split
      · exact hf k'
      · rfl
    · obtain ⟨k1, k2⟩ := handleEvent_keeps s.info e ev
      exact ⟨g, by rw [k, k1, hg], hle, fun k' => by rw [k, k2]; exact hf k'⟩
  intro i q r hq hr
  rcases act_task ops ha hq with k | k | ⟨p, hp, hst⟩ | ⟨e, r', v, targets, token, x, _, _, _, rfl⟩
  · exact old r (hm i q r k hr)
  · cases q <;> first | (cases k; done) | (cases hr; done)
  · rcases closing_step ops hp hst hq hr with k | ⟨e, k1, k2, k3, k4⟩
    · exact old r (hm i p r hp k)
    · have o := h.task i p hp
      obtain ⟨g, hg, hle⟩ := o.gen e k1 k3
      have hre := o.next e r k1 k2
      refine ⟨g, by rw [k4, finish_generation, hg], by omega, fun k' => ?_⟩
      have : g = e := by omega
      rw [k4]
      unfold Info.finish
      rw [if_neg (by rw [hg, this]; simp)]
  · cases hr

theorem marked_runs {ops : Ops S T C R} {s t : State S T C R} (h : Inv s) (hm : Marked s)
    (hr : Runs ops s t) : Marked t := by
  induction hr with
  | refl => exact hm
  | step hr ha ih => exact marked_act ops (inv_runs h hr) ih ha

theorem marked_start (proj : S) (cache : C) : Marked (State.start proj cache : State S T C R) := by
  intro i p r h
  simp [State.start] at h

/-- The last step of the newest build. -/
theorem done_step (ops : Ops S T C R) {s t : State S T C R} {i : Nat} {p : Phase S T R}
    (hp : s.tasks[i]? = some p) (ha : p.awaits = some s.epoch) (hst : s.step ops i p = some t)
    (hd : t.tasks[i]? = some .done) :
    p.closing = some s.epoch ∧ t.isBuilding = false ∧ t.info = s.info ∧ t.proj = s.proj ∧
      t.epoch = s.epoch + 1 ∧ ∀ v x, p.brings = some (v, some x) → t.cache = ops.record s.cache x := by
  have self : ∀ p', t.tasks = s.tasks.set i p' → .done = p' := by
    intro p' h
    rw [h, List.getElem?_set_self', hp] at hd
    exact (Option.some.inj hd).symm
  cases p with
  | failMutate r =>
    have he : s.epoch = r := by cases ha; rfl
    simp only [State.step] at hst
    rw [if_neg (by simp [he])] at hst
    cases hst
    exact ⟨ha, rfl, rfl, rfl, rfl, fun v x k => by cases k⟩
  | cacheMutate r v x =>
    have he : s.epoch = r := by cases ha; rfl
    simp only [State.step] at hst
    rw [if_neg (by simp [he])] at hst
    cases hst
    exact ⟨ha, rfl, rfl, rfl, rfl, fun v x k => by cases k; rfl⟩
  | reloadMutate path e =>
    simp only [State.step] at hst
    split at hst
    · cases hst; have := self _ rfl; cases this
    · cases hst
      have := self _ rfl
      cases hx : (ops.reload s.proj path).2 with
      | none => rw [hx] at this; cases this
      | some targets => rw [hx] at this; cases this
  | _ =>
    first
    | (cases ha; done)
    | (simp only [State.step] at hst
       (try split at hst) <;>
       first
       | (cases hst; done)
       | (cases hst
          have := self _ rfl
          first
          | (cases this; done)
          | (split at this <;> cases this)))

/-- A task keeps the result that it brings until it ends. -/
theorem brings_act (ops : Ops S T C R) {s t : State S T C R} {a : Act R}
    (ha : s.act ops a = some t) {i : Nat} {p : Phase S T R} (hp : s.tasks[i]? = some p)
    {y : S × Option R} (hy : p.brings = some y ∨ p.ended = true) :
    ∃ q, t.tasks[i]? = some q ∧ (q.brings = some y ∨ q.ended = true) := by
  have hl : p.late = true := by
    cases p <;> first | rfl | (rcases hy with k | k <;> cases k)
  obtain ⟨q, hq, hql, _⟩ := act_late ops ha hp hl
  refine ⟨q, hq, ?_⟩
  rcases act_task ops ha hq with k | k | ⟨p', hp', hst⟩ | ⟨e, r', v, targets, token, x, k, _, _, rfl⟩
  · rw [hp] at k; cases k; exact hy
  · right
    cases q <;> first | (cases k; done) | (cases hql; done) | rfl
  · rw [hp] at hp'
    cases hp'
    have self : ∀ p', t.tasks = s.tasks.set i p' → q = p' := by
      intro p' h
      rw [h, List.getElem?_set_self', hp] at hq
      exact (Option.some.inj hq).symm
    cases p with
    | finishing e r v x =>
      simp only [State.step, Option.some.injEq] at hst
      subst hst
      have := self _ rfl
      subst this
      exact .inl (hy.resolve_right (fun k => by cases k))
    | cacheCheck r v x =>
      simp only [State.step, Option.some.injEq] at hst
      subst hst
      have := self _ rfl
      subst this
      split
      · exact .inr rfl
      · exact .inl (hy.resolve_right (fun k => by cases k))
    | cacheCancel r v x =>
      simp only [State.step, Option.some.injEq] at hst
      subst hst
      have := self _ rfl
      subst this
      exact .inl (hy.resolve_right (fun k => by cases k))
    | cacheMutate r v x =>
      simp only [State.step] at hst
      split at hst <;>
      · cases hst
        have := self _ rfl
        subst this
        exact .inr rfl
    | building e r v x y => simp only [State.step] at hst; cases hst
    | done => simp only [State.step] at hst; cases hst
    | skipped => simp only [State.step] at hst; cases hst
    | _ => cases hl
  · rw [hp] at k
    cases k
    rcases hy with k | k <;> cases k

theorem brings_runs {ops : Ops S T C R} {s t : State S T C R} (hr : Runs ops s t) {i : Nat}
    {p : Phase S T R} (hp : s.tasks[i]? = some p) {y : S × Option R} (hy : p.brings = some y) :
    ∃ q, t.tasks[i]? = some q ∧ (q.brings = some y ∨ q.ended = true) := by
  induction hr with
  | refl => exact ⟨p, hp, .inl hy⟩
  | step _ ha ih =>
    obtain ⟨q, hq, hy'⟩ := ih
    exact brings_act ops ha hq hy'

end Acorn.Serv
