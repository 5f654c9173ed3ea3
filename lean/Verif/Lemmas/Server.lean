import Verif.Spec.Server
/-
Invariants of the language server.
-/
namespace Acorn.Serv

variable {S T C R : Type}

/-- The project state that a task has built or is building. -/
def Phase.snapshot : Phase S T R → Option S
  | .reset _ _ v _ _ | .building _ _ v _ _ | .finishing _ _ v _ => some v
  | .cacheCheck _ v _ | .cacheCancel _ v _ | .cacheMutate _ v _ => some v
  | _ => none

/-- The reload of the task is done; the epoch it made. -/
def Phase.reloaded : Phase S T R → Option Nat
  | .failFinish _ r | .failCheck r | .failCancel r | .failMutate r => some r
  | .view _ r _ | .reset _ r _ _ _ | .building _ r _ _ _ | .finishing _ r _ _ => some r
  | .cacheCheck r _ _ | .cacheCancel r _ _ | .cacheMutate r _ _ => some r
  | _ => none

theorem Phase.awaits_of_reloaded {p : Phase S T R} {r : Nat} (h : p.reloaded = some r) :
    p.awaits = some r := by
  cases p <;> simp_all [Phase.reloaded, Phase.awaits]

/-- What holds of one task, given the project, the epoch, the flag and the build information. -/
structure TaskOk (proj : S) (epoch : Nat) (flag : Bool) (info : Info) (p : Phase S T R) : Prop where
  le : ∀ x, p.awaits = some x → x ≤ epoch
  savedLe : ∀ e, p.saved = some e → e ≤ epoch
  snap : ∀ v, p.snapshot = some v → p.awaits = some epoch → v = proj
  flag : flag = false → p.awaits ≠ some epoch
  gen : ∀ e, p.saved = some e → p.isQueueing = false → ∃ g, info.generation = some g ∧ e ≤ g
  wait : ∀ e, p.saved = some e → p.isQueueing = true → ∀ g, info.generation = some g → g < e
  other : ∀ r, p.reloaded = some r → info.generation ≠ some r
  fin : info.finished = true → ∀ g, info.generation = some g → p.saved ≠ some g
  next : ∀ e r, p.saved = some e → p.reloaded = some r → r = e + 1

/-- Two tasks wait for different epochs and stand for different saves. -/
structure Differ (p q : Phase S T R) : Prop where
  awaits : ∀ x, p.awaits = some x → q.awaits ≠ some x
  saved : ∀ x, p.saved = some x → q.saved ≠ some x

theorem Differ.symm {p q : Phase S T R} (h : Differ p q) : Differ q p :=
  ⟨fun x a b => h.awaits x b a, fun x a b => h.saved x b a⟩

/-- The save handlers that wait for the lock, in order of their epochs. -/
def Queue (s : State S T C R) : Prop :=
  ∃ l : List (Nat × Path × Nat), s.waiting = l.map (·.1) ∧
    l.Pairwise (fun a b => a.2.2 < b.2.2) ∧
    (∀ x ∈ l, s.tasks[x.1]? = some (.saveQueue x.2.1 x.2.2)) ∧
    ∀ (i : Nat) path e, s.tasks[i]? = some (.saveQueue path e) → (i, path, e) ∈ l

/-- The invariant of the server. -/
structure Inv (s : State S T C R) : Prop where
  task : ∀ (i : Nat) p, s.tasks[i]? = some p → TaskOk s.proj s.epoch s.isBuilding s.info p
  differ : ∀ (i j : Nat) p q, s.tasks[i]? = some p → s.tasks[j]? = some q → i ≠ j → Differ p q
  queue : Queue s
  genLe : ∀ g, s.info.generation = some g → g ≤ s.epoch

theorem TaskOk.quiet {proj : S} {epoch : Nat} {flag : Bool} {info : Info} {p : Phase S T R}
    (h1 : p.awaits = none) (h2 : p.saved = none) : TaskOk proj epoch flag info p := by
  have h3 : p.reloaded = none := by
    cases h : p.reloaded with
    | none => rfl
    | some r => rw [Phase.awaits_of_reloaded h] at h1; cases h1
  constructor <;> intros <;> simp_all

theorem Differ.quiet {p q : Phase S T R} (h1 : p.awaits = none) (h2 : p.saved = none) :
    Differ p q := by
  constructor <;> intros <;> simp_all

/-- Another task is not disturbed by a mutation. -/
theorem TaskOk.advance {proj proj' : S} {epoch : Nat} {flag flag' : Bool} {info : Info}
    {p : Phase S T R} (h : TaskOk proj epoch flag info p) :
    TaskOk proj' (epoch + 1) flag' info p := by
  have no : p.awaits ≠ some (epoch + 1) := fun k => by have := h.le _ k; omega
  exact ⟨fun x k => Nat.le_succ_of_le (h.le x k), fun e k => Nat.le_succ_of_le (h.savedLe e k),
    fun v _ k => absurd k no, fun _ => no, h.gen, h.wait, h.other, h.fin, h.next⟩

theorem TaskOk.info {proj : S} {epoch : Nat} {flag : Bool} {info info' : Info}
    {p : Phase S T R} (h : TaskOk proj epoch flag info p) (hg : info'.generation = info.generation)
    (hf : info'.finished = true → ∀ g, info.generation = some g → p.saved ≠ some g) :
    TaskOk proj epoch flag info' p := by
  refine ⟨h.le, h.savedLe, h.snap, h.flag, ?_, ?_, ?_, ?_, h.next⟩
  · rw [hg]; exact h.gen
  · rw [hg]; exact h.wait
  · rw [hg]; exact h.other
  · rw [hg]; exact hf

/-! ### What the operations on the build information keep -/

theorem finish_generation (b : Info) (e : Nat) : (b.finish e).generation = b.generation := by
  unfold Info.finish; split <;> rfl

theorem finish_docs (b : Info) (e : Nat) : (b.finish e).docs = b.docs := by
  unfold Info.finish; split <;> rfl

theorem finish_finished {b : Info} {e : Nat} (h : (b.finish e).finished = true) :
    b.finished = true ∨ b.generation = some e := by
  unfold Info.finish at h
  split at h
  · exact .inl h
  · rename_i k; exact .inr (Classical.not_not.1 k)

theorem reset_some {b b' : Info} {e : Nat} {o : List (Url × Int)} {ps : List Publish}
    (h : b.reset e o = some (b', ps)) :
    b.generation = some e ∧ b'.generation = some e ∧ b'.finished = false := by
  unfold Info.reset at h
  split at h
  · cases h
  · rename_i k
    cases h
    exact ⟨Classical.not_not.1 k, rfl, rfl⟩

theorem handleDoc_keeps (b : Info) (ev : Event) :
    (b.handleDoc ev).1.generation = b.generation ∧ (b.handleDoc ev).1.finished = b.finished := by
  unfold Info.handleDoc
  cases ev.url with
  | none => exact ⟨rfl, rfl⟩
  | some url =>
    cases ev.verified <;> cases ev.diagnostic <;> exact ⟨rfl, rfl⟩

theorem handleEvent_keeps (b : Info) (e : Nat) (ev : Event) :
    (b.handleEvent e ev).1.generation = b.generation ∧
      (b.handleEvent e ev).1.finished = b.finished := by
  unfold Info.handleEvent
  split
  · exact ⟨rfl, rfl⟩
  · split
    · exact ⟨rfl, rfl⟩
    · cases ev.progress with
      | none => simp only; exact handleDoc_keeps _ ev
      | some x => obtain ⟨d, t⟩ := x; simp only; exact handleDoc_keeps _ ev

/-! ### Replacing one task -/

theorem set_get {α : Type} {l : List α} {i j : Nat} {p q : α} (h : (l.set i p)[j]? = some q) :
    (j = i ∧ q = p) ∨ (j ≠ i ∧ l[j]? = some q) := by
  by_cases e : j = i
  · subst e
    rw [List.getElem?_set_self'] at h
    cases hl : l[j]? with
    | none => rw [hl] at h; cases h
    | some x => rw [hl] at h; cases h; exact .inl ⟨rfl, rfl⟩
  · rw [List.getElem?_set_ne (Ne.symm e)] at h
    exact .inr ⟨e, h⟩

/-- The queue, when a task that does not wait in it goes on to a phase in which it does not either. -/
theorem Queue.goto {s t : State S T C R} {i : Nat} {p p' : Phase S T R} (h : Queue s)
    (ht : t.tasks = s.tasks.set i p') (hw : t.waiting = s.waiting) (hp : s.tasks[i]? = some p)
    (hq : p.isQueueing = false) (hq' : p'.isQueueing = false) : Queue t := by
  obtain ⟨l, h1, h2, h3, h4⟩ := h
  refine ⟨l, by rw [hw, h1], h2, fun x hx => ?_, fun j path e hj => ?_⟩
  · have k := h3 x hx
    by_cases e : x.1 = i
    · rw [e, hp] at k; cases k; cases hq
    · rw [ht, List.getElem?_set_ne (Ne.symm e)]; exact k
  · rw [ht] at hj
    rcases set_get hj with ⟨_, k⟩ | ⟨_, k⟩
    · rw [← k] at hq'; cases hq'
    · exact h4 j path e k

/-- Replacing one task by another and changing the rest of the state, when every other task does not
mind and the new phase stands for no other epochs than the old one. -/
theorem Inv.goto {s t : State S T C R} {i : Nat} {p p' : Phase S T R} (h : Inv s)
    (hp : s.tasks[i]? = some p) (ht : t.tasks = s.tasks.set i p') (hw : t.waiting = s.waiting)
    (hq : p.isQueueing = false) (hq' : p'.isQueueing = false)
    (hok : TaskOk t.proj t.epoch t.isBuilding t.info p')
    (hrest : ∀ (j : Nat) q, j ≠ i → s.tasks[j]? = some q →
      TaskOk t.proj t.epoch t.isBuilding t.info q)
    (ha : ∀ x, p'.awaits = some x → p.awaits = some x ∨ s.epoch < x)
    (hs : ∀ x, p'.saved = some x → p.saved = some x ∨ s.epoch < x)
    (hg : ∀ g, t.info.generation = some g → g ≤ t.epoch) : Inv t := by
  have dif : ∀ (j : Nat) q, j ≠ i → s.tasks[j]? = some q → Differ p' q := by
    intro j q hj hq
    have d := h.differ i j p q hp hq (Ne.symm hj)
    refine ⟨fun x k => ?_, fun x k => ?_⟩
    · rcases ha x k with k | k
      · exact d.awaits x k
      · intro k'; have := (h.task j q hq).le x k'; omega
    · rcases hs x k with k | k
      · exact d.saved x k
      · intro k'; have := (h.task j q hq).savedLe x k'; omega
  refine ⟨fun j q hj => ?_, fun j k a b hj hk hne => ?_, h.queue.goto ht hw hp hq hq', hg⟩
  · rw [ht] at hj
    rcases set_get hj with ⟨_, rfl⟩ | ⟨hne, hj⟩
    · exact hok
    · exact hrest j q hne hj
  · rw [ht] at hj hk
    rcases set_get hj with ⟨e1, e2⟩ | ⟨h1, hj'⟩
    · rcases set_get hk with ⟨e3, e4⟩ | ⟨h2, hk'⟩
      · exact absurd (e1.trans e3.symm) hne
      · rw [e2]; exact dif k b h2 hk'
    · rcases set_get hk with ⟨e3, e4⟩ | ⟨h2, hk'⟩
      · rw [e4]; exact (dif j a h1 hj').symm
      · exact h.differ j k a b hj' hk' hne

/-- A task that only looks, or leaves. -/
theorem Inv.look {s t : State S T C R} {i : Nat} {p p' : Phase S T R} (h : Inv s)
    (hp : s.tasks[i]? = some p) (ht : t.tasks = s.tasks.set i p') (hw : t.waiting = s.waiting)
    (hq : p.isQueueing = false) (hq' : p'.isQueueing = false)
    (e1 : t.proj = s.proj) (e2 : t.epoch = s.epoch) (e3 : t.isBuilding = s.isBuilding)
    (e4 : t.info = s.info) (hok : TaskOk s.proj s.epoch s.isBuilding s.info p')
    (ha : ∀ x, p'.awaits = some x → p.awaits = some x)
    (hs : ∀ x, p'.saved = some x → p.saved = some x) : Inv t :=
  h.goto hp ht hw hq hq' (by rw [e1, e2, e3, e4]; exact hok)
    (fun j q _ hj => by rw [e1, e2, e3, e4]; exact h.task j q hj)
    (fun x k => .inl (ha x k)) (fun x k => .inl (hs x k)) (by rw [e2, e4]; exact h.genLe)

/-- A task that changes the project. -/
theorem Inv.mutate {s t : State S T C R} {i : Nat} {p p' : Phase S T R} (h : Inv s)
    (hp : s.tasks[i]? = some p) (ht : t.tasks = s.tasks.set i p') (hw : t.waiting = s.waiting)
    (hq : p.isQueueing = false) (hq' : p'.isQueueing = false)
    (e2 : t.epoch = s.epoch + 1) (e4 : t.info = s.info)
    (hok : TaskOk t.proj (s.epoch + 1) t.isBuilding s.info p')
    (ha : ∀ x, p'.awaits = some x → p.awaits = some x ∨ s.epoch < x)
    (hs : ∀ x, p'.saved = some x → p.saved = some x ∨ s.epoch < x) : Inv t :=
  h.goto hp ht hw hq hq' (by rw [e2, e4]; exact hok)
    (fun j q _ hj => by rw [e2, e4]; exact (h.task j q hj).advance) ha hs
    (by rw [e2, e4]; exact fun g k => Nat.le_succ_of_le (h.genLe g k))

/-- The end of a task. -/
theorem Inv.leave {s : State S T C R} {i : Nat} {p p' : Phase S T R} (h : Inv s)
    (hp : s.tasks[i]? = some p) (hq : p.isQueueing = false)
    (h1 : p'.awaits = none) (h2 : p'.saved = none) (h3 : p'.isQueueing = false) :
    Inv (s.goto i p') :=
  h.look hp rfl rfl hq h3 rfl rfl rfl rfl (.quiet h1 h2) (by simp [h1]) (by simp [h2])

/-- A task goes on to a phase that says the same about it. -/
theorem Inv.same {s t : State S T C R} {i : Nat} {p p' : Phase S T R} (h : Inv s)
    (hp : s.tasks[i]? = some p) (ht : t.tasks = s.tasks.set i p') (hw : t.waiting = s.waiting)
    (e1 : t.proj = s.proj) (e2 : t.epoch = s.epoch) (e3 : t.isBuilding = s.isBuilding)
    (e4 : t.info = s.info) (k1 : p'.awaits = p.awaits) (k2 : p'.saved = p.saved)
    (k3 : p'.snapshot = p.snapshot) (k4 : p'.reloaded = p.reloaded)
    (hq : p.isQueueing = false) (hq' : p'.isQueueing = false) : Inv t := by
  have o := h.task i p hp
  refine h.look hp ht hw hq hq' e1 e2 e3 e4 ?_ (by simp [k1]) (by simp [k2])
  exact ⟨by rw [k1]; exact o.le, by rw [k2]; exact o.savedLe, by rw [k1, k3]; exact o.snap,
    by rw [k1]; exact o.flag, by rw [k2]; exact fun x a _ => o.gen x a hq, fun x _ k => (by rw [hq'] at k; cases k),
    by rw [k4]; exact o.other, by rw [k2]; exact o.fin, by rw [k2, k4]; exact o.next⟩

/-- A task marks its build as finished and goes on. -/
theorem Inv.finishes {s : State S T C R} {i : Nat} {p p' : Phase S T R} {e : Nat} (h : Inv s)
    (hp : s.tasks[i]? = some p) (hq : p.isQueueing = false)
    (k1 : p'.awaits = p.awaits) (k2 : p'.saved = none) (k3 : p'.snapshot = p.snapshot)
    (k4 : p'.reloaded = p.reloaded) (hq' : p'.isQueueing = false)
    (hs : p.saved = some e) :
    Inv ({ s with info := s.info.finish e }.goto i p') := by
  have o := h.task i p hp
  refine h.goto hp rfl rfl hq hq' ?_ (fun j q hj hjq => ?_) (fun x k => .inl (k1 ▸ k))
    (fun x k => by rw [k2] at k; cases k) (fun g k => h.genLe g (finish_generation _ _ ▸ k))
  · show TaskOk s.proj s.epoch s.isBuilding (s.info.finish e) p'
    exact ⟨by rw [k1]; exact o.le, by simp [k2], by rw [k1, k3]; exact o.snap,
      by rw [k1]; exact o.flag, by simp [k2], by simp [k2],
      by rw [k4, finish_generation]; exact o.other, by simp [k2], by simp [k2]⟩
  · show TaskOk s.proj s.epoch s.isBuilding (s.info.finish e) q
    have oq := h.task j q hjq
    refine oq.info (finish_generation _ _) (fun hf g hg => ?_)
    rcases finish_finished hf with hf | hf
    · exact oq.fin hf g hg
    · rw [hg] at hf
      cases hf
      exact (h.differ i j p q hp hjq (Ne.symm hj)).saved _ hs

theorem inv_step (ops : Ops S T C R) {s t : State S T C R} {i : Nat} {p : Phase S T R}
    (h : Inv s) (hp : s.tasks[i]? = some p) (hst : s.step ops i p = some t) : Inv t := by
  have o := h.task i p hp
  cases p with
  | saveRead path text version =>
    simp only [State.step, Option.some.injEq] at hst
    subst hst
    split <;> exact h.leave hp rfl rfl rfl rfl
  | saveCancel path text version =>
    simp only [State.step, Option.some.injEq] at hst
    subst hst
    exact h.same hp rfl rfl rfl rfl rfl rfl rfl rfl rfl rfl rfl rfl
  | saveMutate path text version =>
    simp only [State.step, Option.some.injEq] at hst
    subst hst
    have new : ∀ (j : Nat) q, s.tasks[j]? = some q →
        Differ (.saveQueue path (s.epoch + 1) : Phase S T R) q := by
      intro j q hj
      have oq := h.task j q hj
      refine ⟨fun x k k' => ?_, fun x k k' => ?_⟩
      · cases k; have := oq.le _ k'; omega
      · cases k; have := oq.savedLe _ k'; omega
    refine ⟨fun j q hj => ?_, fun j k a b hj hk hne => ?_, ?_, fun g k => ?_⟩
    · rcases set_get hj with ⟨_, rfl⟩ | ⟨hne, hj⟩
      · refine ⟨fun x k => ?_, fun x k => ?_, fun v k => ?_, fun k => ?_, fun x _ k => ?_,
          fun x k _ g hg => ?_, fun r k => ?_, fun _ g hg k => ?_, fun x r _ k => ?_⟩
        · cases k; exact Nat.le_refl _
        · cases k; exact Nat.le_refl _
        · cases k
        · cases k
        · cases k
        · cases k; exact Nat.lt_succ_of_le (h.genLe g hg)
        · cases k
        · cases k
          have := h.genLe _ hg
          simp only [State.advance] at this
          omega
        · cases k
      · exact (h.task j q hj).advance
    · rcases set_get hj with ⟨e1, e2⟩ | ⟨h1, hj'⟩
      · rcases set_get hk with ⟨e3, e4⟩ | ⟨h2, hk'⟩
        · exact absurd (e1.trans e3.symm) hne
        · rw [e2]; exact new k b hk'
      · rcases set_get hk with ⟨e3, e4⟩ | ⟨h2, hk'⟩
        · rw [e4]; exact (new j a hj').symm
        · exact h.differ j k a b hj' hk' hne
    · obtain ⟨l, h1, h2, h3, h4⟩ := h.queue
      refine ⟨l ++ [(i, path, s.epoch + 1)], ?_, ?_, fun x hx => ?_, fun j path' e hj => ?_⟩
      · show s.waiting ++ [i] = _
        rw [h1]; simp
      · rw [List.pairwise_append]
        refine ⟨h2, List.pairwise_singleton _ _, fun a ha b hb => ?_⟩
        rw [List.mem_singleton.1 hb]
        exact Nat.lt_succ_of_le ((h.task _ _ (h3 a ha)).le _ rfl)
      · show (s.tasks.set i _)[x.1]? = _
        rcases List.mem_append.1 hx with hx | hx
        · have k := h3 x hx
          have : x.1 ≠ i := fun e => by rw [e, hp] at k; cases k
          rw [List.getElem?_set_ne (Ne.symm this)]
          exact k
        · rw [List.mem_singleton.1 hx]
          show (s.tasks.set i _)[i]? = _
          rw [List.getElem?_set_self', hp]
          rfl
      · rcases set_get hj with ⟨rfl, k⟩ | ⟨_, k⟩
        · cases k; exact List.mem_append.2 (.inr (.head _))
        · exact List.mem_append.2 (.inl (h4 j path' e k))
    · exact Nat.le_succ_of_le (h.genLe g k)
  | saveQueue path e =>
    simp only [State.step] at hst
    split at hst
    · rename_i hw
      cases hst
      obtain ⟨l, h1, h2, h3, h4⟩ := h.queue
      -- the head of the queue is this task
      cases l with
      | nil => rw [h1] at hw; cases hw
      | cons x l =>
        rw [h1] at hw
        simp only [List.map_cons, List.head?_cons, Option.some.injEq] at hw
        have hx := h3 x (.head _)
        rw [hw, hp] at hx
        have hx2 : x.2.2 = e := by cases hx; rfl
        obtain ⟨hlt, h2'⟩ := List.pairwise_cons.1 h2
        refine ⟨fun j q hj => ?_, fun j k a b hj hk hne => ?_, ?_, fun g k => ?_⟩
        · rcases set_get hj with ⟨_, rfl⟩ | ⟨hne, hj⟩
          · refine ⟨o.le, o.savedLe, fun v k => (by cases k), o.flag, fun x k _ => ⟨e, rfl, ?_⟩,
              fun x _ k => (by cases k), fun r k => (by cases k), fun k => (by cases k),
              fun x r _ k => (by cases k)⟩
            cases k; exact Nat.le_refl _
          · have oq := h.task j q hj
            refine ⟨oq.le, oq.savedLe, oq.snap, oq.flag, fun x k k' => ?_, fun x k k' g hg => ?_,
              fun r k hg => ?_, fun k => (by cases k), oq.next⟩
            · obtain ⟨g, hg, hle⟩ := oq.gen x k k'
              exact ⟨e, rfl, Nat.le_of_lt (Nat.lt_of_le_of_lt hle (o.wait e rfl rfl g hg))⟩
            · cases hg
              cases q with
              | saveQueue path' e' =>
                have hm := h4 j path' e' hj
                cases k
                rcases List.mem_cons.1 hm with hm | hm
                · rw [← hm] at hw; exact absurd hw hne
                · have := hlt _ hm
                  rw [hx2] at this
                  exact this
              | _ => cases k'
            · cases hg
              exact (h.differ i j _ q hp hj (Ne.symm hne)).awaits e rfl
                (Phase.awaits_of_reloaded k)
        · have same : Differ (.reloadCheck path e : Phase S T R) = Differ (.saveQueue path e) := by
            funext q
            apply propext
            exact ⟨fun d => ⟨d.awaits, d.saved⟩, fun d => ⟨d.awaits, d.saved⟩⟩
          rcases set_get hj with ⟨e1, e2⟩ | ⟨h1, hj'⟩
          · rcases set_get hk with ⟨e3, e4⟩ | ⟨h2, hk'⟩
            · exact absurd (e1.trans e3.symm) hne
            · rw [e2, same]; exact h.differ i k _ b hp hk' (Ne.symm h2)
          · rcases set_get hk with ⟨e3, e4⟩ | ⟨h2, hk'⟩
            · rw [e4]
              apply Differ.symm
              rw [same]; exact h.differ i j _ a hp hj' (Ne.symm h1)
            · exact h.differ j k a b hj' hk' hne
        · refine ⟨l, ?_, h2', fun y hy => ?_, fun j path' e' hj => ?_⟩
          · show s.waiting.tail = _
            rw [h1]; rfl
          · have k := h3 y (.tail _ hy)
            have : y.1 ≠ i := by
              intro e1
              rw [e1, hp] at k
              have := hlt y hy
              cases k
              omega
            show (s.tasks.set i _)[y.1]? = _
            rw [List.getElem?_set_ne (Ne.symm this)]
            exact k
          · rcases set_get hj with ⟨_, k⟩ | ⟨hne, k⟩
            · cases k
            · rcases List.mem_cons.1 (h4 j path' e' k) with hm | hm
              · rw [← hm] at hw; exact absurd hw hne
              · exact hm
        · cases k; exact o.le e rfl
    · cases hst
  | reloadCheck path e =>
    simp only [State.step, Option.some.injEq] at hst
    subst hst
    split
    · exact h.leave hp rfl rfl rfl rfl
    · exact h.same hp rfl rfl rfl rfl rfl rfl rfl rfl rfl rfl rfl rfl
  | reloadCancel path e =>
    simp only [State.step, Option.some.injEq] at hst
    subst hst
    exact h.same hp rfl rfl rfl rfl rfl rfl rfl rfl rfl rfl rfl rfl
  | reloadMutate path e =>
    simp only [State.step] at hst
    split at hst
    · cases hst; exact h.leave hp rfl rfl rfl rfl
    · rename_i he
      have he := Classical.not_not.1 he
      cases hst
      obtain ⟨g, hg, hle⟩ := o.gen e rfl rfl
      have hfl : s.isBuilding ≠ false := fun k => o.flag k (by rw [he]; rfl)
      have key : ∀ p' : Phase S T R, p'.awaits = some (s.epoch + 1) → p'.saved = some e →
          p'.snapshot = none → p'.reloaded = some (s.epoch + 1) → p'.isQueueing = false →
          Inv ({ s with proj := (ops.reload s.proj path).1 }.advance.goto i p') := by
        intro p' k1 k2 k3 k4 k5
        refine h.mutate hp rfl rfl rfl k5 rfl rfl ?_ (fun x k => .inr ?_) (fun x k => .inl ?_)
        · refine ⟨fun x k => ?_, fun x k => ?_, by simp [k3], fun k => absurd k hfl, fun x k _ => ?_,
            by simp [k5], fun r k k' => ?_, fun hf g' hg' k => ?_, fun x r k k' => ?_⟩
          · rw [k1] at k; cases k; exact Nat.le_refl _
          · rw [k2] at k; cases k; omega
          · rw [k2] at k; cases k; exact ⟨g, hg, hle⟩
          · rw [k4] at k; cases k; have := h.genLe _ k'; omega
          · rw [k2] at k; exact o.fin hf g' hg' k
          · rw [k2] at k; rw [k4] at k'; cases k; cases k'; rw [he]
        · rw [k1] at k; cases k; exact Nat.lt_succ_self _
        · rw [k2] at k; exact k
      cases (ops.reload s.proj path).2 with
      | some targets => exact key _ rfl rfl rfl rfl rfl
      | none => exact key _ rfl rfl rfl rfl rfl
  | failFinish e r =>
    simp only [State.step, Option.some.injEq] at hst
    subst hst
    exact h.finishes hp rfl rfl rfl rfl rfl rfl rfl
  | failCheck r =>
    simp only [State.step, Option.some.injEq] at hst
    subst hst
    split
    · exact h.leave hp rfl rfl rfl rfl
    · exact h.same hp rfl rfl rfl rfl rfl rfl rfl rfl rfl rfl rfl rfl
  | failCancel r =>
    simp only [State.step, Option.some.injEq] at hst
    subst hst
    exact h.same hp rfl rfl rfl rfl rfl rfl rfl rfl rfl rfl rfl rfl
  | failMutate r =>
    simp only [State.step] at hst
    split at hst
    · cases hst; exact h.leave hp rfl rfl rfl rfl
    · cases hst
      exact h.mutate hp rfl rfl rfl rfl rfl rfl (.quiet rfl rfl) (fun x k => by cases k)
        (fun x k => by cases k)
  | view e r targets =>
    simp only [State.step, Option.some.injEq] at hst
    subst hst
    split
    · exact h.leave hp rfl rfl rfl rfl
    · refine h.look hp rfl rfl rfl rfl rfl rfl rfl rfl ?_ (fun x k => k) (fun x k => k)
      exact ⟨o.le, o.savedLe, fun v k _ => by cases k; rfl, o.flag, o.gen, o.wait, o.other, o.fin,
        o.next⟩
  | reset e r v targets token =>
    simp only [State.step] at hst
    split at hst
    · cases hst; exact h.leave hp rfl rfl rfl rfl
    · rename_i info ps hr
      cases hst
      obtain ⟨hg, hg', hf⟩ := reset_some hr
      have hgg : info.generation = s.info.generation := by rw [hg, hg']
      refine h.goto hp rfl rfl rfl rfl ?_ (fun j q _ hj => ?_) (fun x k => .inl k) (fun x k => .inl k)
        (fun g k => h.genLe g (hgg ▸ k))
      · have o' := o.info hgg (fun k => by rw [show info.finished = true from k] at hf; cases hf)
        exact ⟨o'.le, o'.savedLe, o'.snap, o'.flag, o'.gen, o'.wait, o'.other, o'.fin, o'.next⟩
      · exact (h.task j q hj).info hgg (fun k => by rw [show info.finished = true from k] at hf; cases hf)
  | building e r v targets token => simp only [State.step] at hst; cases hst
  | finishing e r v result =>
    simp only [State.step, Option.some.injEq] at hst
    subst hst
    exact h.finishes hp rfl rfl rfl rfl rfl rfl rfl
  | cacheCheck r v result =>
    simp only [State.step, Option.some.injEq] at hst
    subst hst
    split
    · exact h.leave hp rfl rfl rfl rfl
    · exact h.same hp rfl rfl rfl rfl rfl rfl rfl rfl rfl rfl rfl rfl
  | cacheCancel r v result =>
    simp only [State.step, Option.some.injEq] at hst
    subst hst
    exact h.same hp rfl rfl rfl rfl rfl rfl rfl rfl rfl rfl rfl rfl
  | cacheMutate r v result =>
    simp only [State.step] at hst
    split at hst
    · cases hst; exact h.leave hp rfl rfl rfl rfl
    · cases hst
      exact h.mutate hp rfl rfl rfl rfl rfl rfl (.quiet rfl rfl) (fun x k => by cases k)
        (fun x k => by cases k)
  | closeCancel path =>
    simp only [State.step, Option.some.injEq] at hst
    subst hst
    exact h.same hp rfl rfl rfl rfl rfl rfl rfl rfl rfl rfl rfl rfl
  | closeMutate path =>
    simp only [State.step, Option.some.injEq] at hst
    subst hst
    exact h.mutate hp rfl rfl rfl rfl rfl rfl (.quiet rfl rfl) (fun x k => by cases k)
      (fun x k => by cases k)
  | done => simp only [State.step] at hst; cases hst
  | skipped => simp only [State.step] at hst; cases hst

theorem Inv.spawn {s : State S T C R} {p : Phase S T R} (h : Inv s) (h1 : p.awaits = none)
    (h2 : p.saved = none) (h3 : p.isQueueing = false) :
    Inv { s with tasks := s.tasks ++ [p] } := by
  have get : ∀ (j : Nat) q, (s.tasks ++ [p])[j]? = some q → s.tasks[j]? = some q ∨ q = p := by
    intro j q hj
    rcases List.mem_append.1 (List.mem_of_getElem? hj) with k | k
    · by_cases hl : j < s.tasks.length
      · rw [List.getElem?_append_left hl] at hj; exact .inl hj
      · rw [List.getElem?_append_right (Nat.le_of_not_lt hl)] at hj
        exact .inr (List.mem_singleton.1 (List.mem_of_getElem? hj))
    · exact .inr (List.mem_singleton.1 k)
  have lt : ∀ (j : Nat) q, s.tasks[j]? = some q → (s.tasks ++ [p])[j]? = some q := by
    intro j q hj
    rw [List.getElem?_append_left]
    · exact hj
    · exact (List.getElem?_eq_some_iff.1 hj).1
  refine ⟨fun j q hj => ?_, fun j k a b hj hk hne => ?_, ?_, h.genLe⟩
  · rcases get j q hj with k | rfl
    · exact h.task j q k
    · exact .quiet h1 h2
  · rcases get j a hj with k1 | rfl
    · rcases get k b hk with k2 | rfl
      · exact h.differ j k a b k1 k2 hne
      · exact (Differ.quiet h1 h2).symm
    · exact Differ.quiet h1 h2
  · obtain ⟨l, e1, e2, e3, e4⟩ := h.queue
    refine ⟨l, e1, e2, fun x hx => lt _ _ (e3 x hx), fun j path e hj => ?_⟩
    rcases get j _ hj with k | k
    · exact e4 j path e k
    · rw [← k] at h3; cases h3

theorem inv_act (ops : Ops S T C R) {s t : State S T C R} {a : Act R} (h : Inv s)
    (ha : s.act ops a = some t) : Inv t := by
  cases a with
  | save path text version => cases ha; exact h.spawn rfl rfl rfl
  | close path => cases ha; exact h.spawn rfl rfl rfl
  | run i =>
    simp only [State.act] at ha
    cases hp : s.tasks[i]? with
    | none => rw [hp] at ha; cases ha
    | some p => rw [hp] at ha; exact inv_step ops h hp ha
  | event i ev =>
    simp only [State.act] at ha
    split at ha
    · rename_i e r v targets token hp
      cases ha
      obtain ⟨k1, k2⟩ := handleEvent_keeps s.info e ev
      refine ⟨fun j q hj => ?_, h.differ, h.queue, fun g k => h.genLe g (k1 ▸ k)⟩
      exact (h.task j q hj).info k1 (fun k g hg => (h.task j q hj).fin (k2 ▸ k) g hg)
    · cases ha
  | endBuild i result =>
    simp only [State.act] at ha
    split at ha
    · rename_i e r v targets token hp
      cases ha
      exact h.same hp rfl rfl rfl rfl rfl rfl rfl rfl rfl rfl rfl rfl
    · cases ha

theorem inv_start (proj : S) (cache : C) : Inv (State.start proj cache : State S T C R) := by
  refine ⟨fun i p h => by simp [State.start] at h, fun i j p q h => by simp [State.start] at h,
    ⟨[], rfl, List.Pairwise.nil, fun x hx => (by cases hx), fun i path e h => by
      simp [State.start] at h⟩, fun g k => by cases k⟩

theorem inv_runs {ops : Ops S T C R} {s t : State S T C R} (h : Inv s) (hr : Runs ops s t) :
    Inv t := by
  induction hr with
  | refl => exact h
  | step _ ha ih => exact inv_act ops ih ha

end Acorn.Serv
