import Verif.Lemmas.Server
/-
Where the work of a background task comes from, and what the editor shows.
-/
namespace Acorn.Serv

variable {S T C R : Type}

theorem Runs.trans {ops : Ops S T C R} {a b c : State S T C R} (h1 : Runs ops a b)
    (h2 : Runs ops b c) : Runs ops a c := by
  induction h2 with
  | refl => exact h1
  | step _ ha ih => exact .step ih ha

/-- How an action changes the project: not at all, or with a new epoch. -/
theorem act_proj (ops : Ops S T C R) {s t : State S T C R} {a : Act R}
    (ha : s.act ops a = some t) :
    (t.proj = s.proj ∧ t.epoch = s.epoch) ∨ t.epoch = s.epoch + 1 := by
  cases a with
  | save path text version => cases ha; exact .inl ⟨rfl, rfl⟩
  | close path => cases ha; exact .inl ⟨rfl, rfl⟩
  | run i =>
    simp only [State.act] at ha
    cases hp : s.tasks[i]? with
    | none => rw [hp] at ha; cases ha
    | some p =>
      rw [hp] at ha
      simp only [Option.bind_some] at ha
      cases p <;> simp only [State.step] at ha <;> (try split at ha) <;>
        first
        | cases ha; done
        | (cases ha; exact .inl ⟨rfl, rfl⟩)
        | (cases ha; exact .inr rfl)
  | event i ev =>
    simp only [State.act] at ha
    split at ha
    · cases ha; exact .inl ⟨rfl, rfl⟩
    · cases ha
  | endBuild i result =>
    simp only [State.act] at ha
    split at ha
    · cases ha; exact .inl ⟨rfl, rfl⟩
    · cases ha

/-- What an action does to the phase of a task: nothing, or the task is new, or it moves by itself, or
its build ends. -/
theorem act_task (ops : Ops S T C R) {s t : State S T C R} {a : Act R}
    (ha : s.act ops a = some t) {j : Nat} {q : Phase S T R} (hj : t.tasks[j]? = some q) :
    s.tasks[j]? = some q ∨ q.awaits = none ∨
      (∃ p, s.tasks[j]? = some p ∧ s.step ops j p = some t) ∨
      ∃ e r v targets token result, s.tasks[j]? = some (.building e r v targets token) ∧
        a = .endBuild j result ∧ t = s.goto j (.finishing e r v result) ∧
        q = .finishing e r v result := by
  have app : ∀ p : Phase S T R, (s.tasks ++ [p])[j]? = some q →
      s.tasks[j]? = some q ∨ q = p := by
    intro p hj
    by_cases hl : j < s.tasks.length
    · rw [List.getElem?_append_left hl] at hj; exact .inl hj
    · rw [List.getElem?_append_right (Nat.le_of_not_lt hl)] at hj
      exact .inr (List.mem_singleton.1 (List.mem_of_getElem? hj))
  cases a with
  | save path text version =>
    cases ha
    rcases app _ hj with k | rfl
    · exact .inl k
    · exact .inr (.inl rfl)
  | close path =>
    cases ha
    rcases app _ hj with k | rfl
    · exact .inl k
    · exact .inr (.inl rfl)
  | run i =>
    simp only [State.act] at ha
    cases hp : s.tasks[i]? with
    | none => rw [hp] at ha; cases ha
    | some p =>
      rw [hp] at ha
      simp only [Option.bind_some] at ha
      by_cases hij : j = i
      · rw [hij]; exact .inr (.inr (.inl ⟨p, hp, ha⟩))
      · left
        have : ∃ p', t.tasks = s.tasks.set i p' := by
          cases p <;> simp only [State.step] at ha <;> (try split at ha) <;>
            first
            | cases ha; done
            | (cases ha; exact ⟨_, rfl⟩)
        obtain ⟨p', h⟩ := this
        rw [h, List.getElem?_set_ne (Ne.symm hij)] at hj
        exact hj
  | event i ev =>
    simp only [State.act] at ha
    split at ha
    · cases ha; exact .inl hj
    · cases ha
  | endBuild i result =>
    simp only [State.act] at ha
    split at ha
    · rename_i e r v targets token hp
      cases ha
      rcases set_get hj with ⟨rfl, rfl⟩ | ⟨_, k⟩
      · exact .inr (.inr (.inr ⟨e, r, v, targets, token, result, hp, rfl, rfl, rfl⟩))
      · exact .inl k
    · cases ha

/-- The phase fits to a save that made the project `u`, of the file `path`, with epoch `e`. -/
def Follows (ops : Ops S T C R) (u : S) (path : Path) (e : Nat) (proj : S) (epoch : Nat) :
    Phase S T R → Prop
  | .saveQueue path' e' | .reloadCheck path' e' | .reloadCancel path' e'
  | .reloadMutate path' e' => path' = path ∧ e' = e ∧ (epoch = e → proj = u)
  | .view e' r targets =>
    e' = e ∧ (ops.reload u path).2 = some targets ∧ (epoch = r → proj = (ops.reload u path).1)
  | .reset e' _ v targets _ | .building e' _ v targets _ =>
    e' = e ∧ ops.reload u path = (v, some targets)
  | .finishing e' _ v _ => e' = e ∧ v = (ops.reload u path).1
  | .cacheCheck _ v _ | .cacheCancel _ v _ | .cacheMutate _ v _ => v = (ops.reload u path).1
  | _ => True

theorem Follows.later {ops : Ops S T C R} {u : S} {path : Path} {e : Nat} {proj proj' : S}
    {epoch epoch' : Nat} {p : Phase S T R} (h : Follows ops u path e proj epoch p)
    (hle : ∀ x, p.awaits = some x → x ≤ epoch)
    (hc : (proj' = proj ∧ epoch' = epoch) ∨ epoch' = epoch + 1) :
    Follows ops u path e proj' epoch' p := by
  rcases hc with ⟨rfl, rfl⟩ | rfl
  · exact h
  · cases p
    case saveQueue | reloadCheck | reloadCancel | reloadMutate =>
      obtain ⟨h1, h2, h3⟩ := h
      refine ⟨h1, h2, fun k => ?_⟩
      have := hle _ rfl
      omega
    case view =>
      obtain ⟨h1, h2, h3⟩ := h
      refine ⟨h1, h2, fun k => ?_⟩
      have := hle _ rfl
      omega
    all_goals exact h

/-- The save that a background task comes from. -/
def Origin (ops : Ops S T C R) (s0 s : State S T C R) (i : Nat) (p : Phase S T R) : Prop :=
  ∃ (b : State S T C R) (path : Path) (text : String) (version : Int), Runs ops s0 b ∧
    Runs ops b s ∧ b.tasks[i]? = some (.saveMutate path text version) ∧
    Follows ops (ops.update b.proj path text version) path (b.epoch + 1) s.proj s.epoch p

theorem origin_runs {ops : Ops S T C R} {s0 s : State S T C R} (h0 : Inv s0)
    (hq : ∀ p ∈ s0.tasks, p.awaits = none) (hr : Runs ops s0 s) :
    ∀ (i : Nat) p, s.tasks[i]? = some p → p.awaits ≠ none → Origin ops s0 s i p := by
  induction hr with
  | refl => exact fun i p hp hne => absurd (hq p (List.mem_of_getElem? hp)) hne
  | @step s t a hr ha ih =>
    intro i q hq' hne
    have hinv : Inv s := inv_runs h0 hr
    have one : Runs ops s t := .step .refl ha
    have keep : ∀ p, s.tasks[i]? = some p → p.awaits ≠ none →
        (∀ u path e, Follows ops u path e s.proj s.epoch p →
          Follows ops u path e t.proj t.epoch q) → Origin ops s0 t i q := by
      intro p hp hpa hf
      obtain ⟨b, path, text, version, h1, h2, h3, h4⟩ := ih i p hp hpa
      exact ⟨b, path, text, version, h1, h2.trans one, h3, hf _ _ _ h4⟩
    rcases act_task ops ha hq' with k | k | ⟨p, hp, hst⟩ | ⟨e, r, v, targets, token, res, hp, rfl, rfl, rfl⟩
    · exact keep q k hne (fun u path e h => h.later (hinv.task i q k).le (act_proj ops ha))
    · exact absurd k hne
    · have self : ∀ p', t.tasks = s.tasks.set i p' → q = p' := by
        intro p' h
        rw [h, List.getElem?_set_self', hp] at hq'
        exact (Option.some.inj hq').symm
      have o := hinv.task i p hp
      cases p with
      | saveRead path text version =>
        simp only [State.step, Option.some.injEq] at hst
        subst hst
        have := self _ rfl
        subst this
        split at hne <;> exact absurd rfl hne
      | saveCancel path text version =>
        simp only [State.step, Option.some.injEq] at hst
        subst hst
        have := self _ rfl
        subst this
        exact absurd rfl hne
      | saveMutate path text version =>
        simp only [State.step, Option.some.injEq] at hst
        subst hst
        have := self _ rfl
        subst this
        exact ⟨s, path, text, version, hr, one, hp, rfl, rfl, fun _ => rfl⟩
      | saveQueue path e =>
        simp only [State.step] at hst
        split at hst
        · cases hst
          have := self _ rfl
          subst this
          exact keep _ hp (fun k => by cases k) (fun u path' e' h => h)
        · cases hst
      | reloadCheck path e =>
        simp only [State.step, Option.some.injEq] at hst
        subst hst
        have := self _ rfl
        subst this
        refine keep _ hp (fun k => by cases k) (fun u path' e' h => ?_)
        split
        · trivial
        · exact h
      | reloadCancel path e =>
        simp only [State.step, Option.some.injEq] at hst
        subst hst
        have := self _ rfl
        subst this
        exact keep _ hp (fun k => by cases k) (fun u path' e' h => h)
      | reloadMutate path e =>
        simp only [State.step] at hst
        split at hst
        · cases hst
          have := self _ rfl
          subst this
          exact absurd rfl hne
        · rename_i he
          have he := Classical.not_not.1 he
          cases hst
          have := self _ rfl
          subst this
          refine keep _ hp (fun k => by cases k) (fun u path' e' h => ?_)
          obtain ⟨h1, h2, h3⟩ := h
          have hu := h3 (he.trans h2)
          subst h1
          rw [← hu]
          cases hx : (ops.reload s.proj path).2 with
          | none => trivial
          | some targets => exact ⟨h2, hx, fun _ => rfl⟩
      | failFinish e r =>
        simp only [State.step, Option.some.injEq] at hst
        subst hst
        have := self _ rfl
        subst this
        exact keep _ hp (fun k => by cases k) (fun u path' e' h => trivial)
      | failCheck r =>
        simp only [State.step, Option.some.injEq] at hst
        subst hst
        have := self _ rfl
        subst this
        refine keep _ hp (fun k => by cases k) (fun u path' e' h => ?_)
        split <;> trivial
      | failCancel r =>
        simp only [State.step, Option.some.injEq] at hst
        subst hst
        have := self _ rfl
        subst this
        exact keep _ hp (fun k => by cases k) (fun u path' e' h => trivial)
      | failMutate r =>
        simp only [State.step] at hst
        split at hst <;>
        · cases hst
          have := self _ rfl
          subst this
          exact absurd rfl hne
      | view e r targets =>
        simp only [State.step, Option.some.injEq] at hst
        subst hst
        have := self _ rfl
        subst this
        refine keep _ hp (fun k => by cases k) (fun u path' e' h => ?_)
        split
        · trivial
        · rename_i he
          have he := Classical.not_not.1 he
          obtain ⟨h1, h2, h3⟩ := h
          refine ⟨h1, ?_⟩
          show ops.reload u path' = (s.proj, some targets)
          rw [h3 he, ← h2]
      | reset e r v targets token =>
        simp only [State.step] at hst
        split at hst
        · cases hst
          have := self _ rfl
          subst this
          exact absurd rfl hne
        · cases hst
          have := self _ rfl
          subst this
          exact keep _ hp (fun k => by cases k) (fun u path' e' h => h)
      | building e r v targets token => simp only [State.step] at hst; cases hst
      | finishing e r v result =>
        simp only [State.step, Option.some.injEq] at hst
        subst hst
        have := self _ rfl
        subst this
        exact keep _ hp (fun k => by cases k) (fun u path' e' h => h.2)
      | cacheCheck r v result =>
        simp only [State.step, Option.some.injEq] at hst
        subst hst
        have := self _ rfl
        subst this
        refine keep _ hp (fun k => by cases k) (fun u path' e' h => ?_)
        split
        · trivial
        · exact h
      | cacheCancel r v result =>
        simp only [State.step, Option.some.injEq] at hst
        subst hst
        have := self _ rfl
        subst this
        exact keep _ hp (fun k => by cases k) (fun u path' e' h => h)
      | cacheMutate r v result =>
        simp only [State.step] at hst
        split at hst <;>
        · cases hst
          have := self _ rfl
          subst this
          exact absurd rfl hne
      | closeCancel path =>
        simp only [State.step, Option.some.injEq] at hst
        subst hst
        have := self _ rfl
        subst this
        exact absurd rfl hne
      | closeMutate path =>
        simp only [State.step, Option.some.injEq] at hst
        subst hst
        have := self _ rfl
        subst this
        exact absurd rfl hne
      | done => simp only [State.step] at hst; cases hst
      | skipped => simp only [State.step] at hst; cases hst
    · exact keep _ hp (fun k => by cases k)
        (fun u path' e' h => ⟨h.1, by rw [h.2]⟩)

/-- The result that a task brings back is one that the builder gave for the state of the project that
the task built. -/
def Built (ops : Ops S T C R) (s0 s : State S T C R) (i : Nat) (v : S) (result : Option R) : Prop :=
  ∃ (b : State S T C R) (e r : Nat) (targets : T) (token : Nat), Runs ops s0 b ∧
    b.tasks[i]? = some (.building e r v targets token) ∧
    Runs ops (b.goto i (.finishing e r v result)) s

def Phase.brings : Phase S T R → Option (S × Option R)
  | .finishing _ _ v x | .cacheCheck _ v x | .cacheCancel _ v x | .cacheMutate _ v x => some (v, x)
  | _ => none

theorem built_runs {ops : Ops S T C R} {s0 s : State S T C R}
    (hq : ∀ p ∈ s0.tasks, p.brings = none) (hr : Runs ops s0 s) :
    ∀ (i : Nat) p, s.tasks[i]? = some p → ∀ v x, p.brings = some (v, x) → Built ops s0 s i v x := by
  induction hr with
  | refl =>
    intro i p hp v x hb
    rw [hq p (List.mem_of_getElem? hp)] at hb
    cases hb
  | @step s t a hr ha ih =>
    intro i q hq' v x hb
    have one : Runs ops s t := .step .refl ha
    have keep : ∀ p, s.tasks[i]? = some p → p.brings = some (v, x) → Built ops s0 t i v x := by
      intro p hp hpa
      obtain ⟨b, e, r, targets, token, h1, h2, h3⟩ := ih i p hp v x hpa
      exact ⟨b, e, r, targets, token, h1, h2, h3.trans one⟩
    rcases act_task ops ha hq' with k | k | ⟨p, hp, hst⟩ | ⟨e, r, v', targets, token, res, hp, rfl, rfl, rfl⟩
    · exact keep q k hb
    · cases q <;> first | (cases k; done) | (cases hb; done)
    · have self : ∀ p', t.tasks = s.tasks.set i p' → q = p' := by
        intro p' h
        rw [h, List.getElem?_set_self', hp] at hq'
        exact (Option.some.inj hq').symm
      cases p with
      | finishing e r v result =>
        simp only [State.step, Option.some.injEq] at hst
        subst hst
        have := self _ rfl
        subst this
        exact keep _ hp hb
      | cacheCheck r v result =>
        simp only [State.step, Option.some.injEq] at hst
        subst hst
        have := self _ rfl
        subst this
        split at hb
        · cases hb
        · exact keep _ hp hb
      | cacheCancel r v result =>
        simp only [State.step, Option.some.injEq] at hst
        subst hst
        have := self _ rfl
        subst this
        exact keep _ hp hb
      | reloadMutate path e =>
        simp only [State.step] at hst
        split at hst
        · cases hst
          have := self _ rfl
          subst this
          cases hb
        · cases hst
          have := self _ rfl
          subst this
          cases hx : (ops.reload s.proj path).2 with
          | none => rw [hx] at hb; cases hb
          | some targets => rw [hx] at hb; cases hb
      | _ =>
        simp only [State.step] at hst
        (try split at hst) <;>
        first
        | (cases hst; done)
        | (cases hst
           have := self _ rfl
           subst this
           first
           | (cases hb; done)
           | (split at hb <;> cases hb))
    · cases hb
      exact ⟨s, e, r, targets, token, hr, hp, .refl⟩

end Acorn.Serv
