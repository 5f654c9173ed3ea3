import Verif.Lemmas.PackagedLibrary

/-
Lemmas for C62: what holds of every process while several of them run, and while they run in turn.
-/

namespace Acorn.Packaged

/-- Complete, and recognized as complete. -/
def Fine (A : Archive) (t : Node) : Prop := Installed A t ∧ accepted A t = true

/-- The process has the whole library in its temporary directory. -/
def Packed (A : Archive) (v : View) : Prop := ∃ u, v.mine = some u ∧ Fine A u

/-- The library is in place. -/
def Placed (A : Archive) (v : View) : Prop := ∃ t, v.target = some t ∧ Fine A t

theorem fine_not_replaceable {A : Archive} {t : Node} (h : accepted A t = true) : replaceable (some t) = false := by
  match t with
  | .file _ => rfl
  | .dir .nil => simp [accepted, layoutOk, fileAt, nodeAt, Entries.child] at h
  | .dir (.cons _ _ _) => rfl

/-- What a process knows of its own temporary directory. -/
def Own (A : Archive) (v : View) : Prop :=
  match v.pc with
  | .verify => v.mine = some A.tree
  | .metaOpen => v.mine = some A.tree ∧ layoutOk A.tree = true
  | .metaWrite => ∃ s u, v.mine = some u ∧ writeAt metaPath s A.tree = some u ∧ layoutOk A.tree = true
  | .seeTarget | .installLayout | .installMeta | .clearTarget | .rename => Packed A v
  | _ => True

theorem own_act {A : Archive} (hr : Spec.Reads A) {c : Choice} {v : View} (h : Own A v) : Own A (act A c v) := by
  obtain ⟨pc, mine, target⟩ := v
  cases pc
  case unpack => cases c <;> first | trivial | rfl
  case verify =>
    simp only [Own] at h
    subst h
    cases c <;> simp only [act, looking, Option.any_some] <;> try first | rfl | trivial
    split
    · rename_i hl
      exact ⟨rfl, hl⟩
    · trivial
  case metaOpen =>
    simp only [Own] at h
    obtain ⟨rfl, hl⟩ := h
    cases c <;> simp only [act, openMeta, Option.bind_some] <;> try first | exact ⟨rfl, hl⟩ | trivial
    cases hw : writeAt metaPath "" A.tree with
    | none => trivial
    | some t => exact ⟨_, _, rfl, hw, hl⟩
  case metaWrite =>
    simp only [Own] at h
    obtain ⟨s, u, rfl, hw, hl⟩ := h
    cases c <;> simp only [act, writeMeta, Option.bind_some] <;> try first | exact ⟨_, _, rfl, hw, hl⟩ | trivial
    · rw [writeAt_again hw]
      cases hw2 : writeAt metaPath (metaText A) A.tree with
      | none => trivial
      | some t => exact ⟨t, rfl, hw2, installed_accepted hr hw2 hl⟩
    · rename_i s'
      rw [writeAt_again hw]
      cases hw2 : writeAt metaPath s' A.tree with
      | none => exact ⟨_, _, rfl, hw, hl⟩
      | some t => exact ⟨_, _, rfl, hw2, hl⟩
  case makeTemp => cases c <;> cases mine <;> trivial
  case clearTarget => cases target <;> cases c <;> first | exact h | trivial
  case rename =>
    simp only [Own, Packed] at h
    obtain ⟨u, rfl, hu⟩ := h
    cases c <;> simp only [act, install] <;> try first | exact ⟨u, rfl, hu⟩ | trivial
    split <;> trivial
  case ready => trivial
  case failed => trivial
  all_goals
    cases c <;> simp only [act, looking, trying, dropMine, removing] <;> (try split) <;> first | exact h | trivial

/-! ### Several processes at once -/

/-- What a process knows of the shared directory, when nothing but complete libraries are put there. -/
def Shared (A : Archive) (v : View) : Prop :=
  match v.pc with
  | .installLayout | .installMeta | .dropTemp | .tidy | .ready => Placed A v
  | .clearTarget => False
  | _ => True

/-- The shared directory is not there, or it is complete. -/
def Clean (A : Archive) (target : Option Node) : Prop := ∀ t, target = some t → Fine A t

theorem shared_act {A : Archive} {c : Choice} {v : View} (hc : c ≠ .unread) (ht : Clean A v.target) (ho : Own A v)
    (hs : Shared A v) :
    Shared A (act A c v) ∧ Clean A (act A c v).target ∧ (∀ t, v.target = some t → (act A c v).target = some t) := by
  obtain ⟨pc, mine, target⟩ := v
  cases pc
  case clearTarget => exact hs.elim
  case rename =>
    simp only [Own, Packed] at ho
    obtain ⟨u, rfl, hu⟩ := ho
    cases c <;> simp only [act, install, openMeta, writeMeta] <;> try exact ⟨trivial, ht, fun _ h => h⟩
    cases target with
    | none =>
      refine ⟨⟨u, rfl, hu⟩, fun t e => ?_, fun t e => by cases e⟩
      cases e; exact hu
    | some t =>
      have := fine_not_replaceable (ht t rfl).2
      simp only [this]
      exact ⟨trivial, ht, fun _ h => h⟩
  case seeTarget =>
    cases c <;> simp only [act, looking] <;> try exact ⟨trivial, ht, fun _ h => h⟩
    cases target with
    | none => exact ⟨trivial, ht, fun _ h => h⟩
    | some t => exact ⟨⟨t, rfl, ht t rfl⟩, ht, fun _ h => h⟩
  case installLayout =>
    obtain ⟨t, e, hf⟩ := hs
    cases e
    have hl : layoutOk t = true := ((Bool.and_eq_true _ _).mp hf.2).1
    cases c <;> simp only [act, looking, Option.any_some, hl, if_true] <;>
      first | exact absurd rfl hc | exact ⟨⟨t, rfl, hf⟩, ht, fun _ h => h⟩
  case installMeta =>
    obtain ⟨t, e, hf⟩ := hs
    cases e
    have hl : metaOk A t = true := ((Bool.and_eq_true _ _).mp hf.2).2
    cases c <;> simp only [act, looking, Option.any_some, hl, if_true] <;>
      first | exact absurd rfl hc | exact ⟨⟨t, rfl, hf⟩, ht, fun _ h => h⟩
  case dropTemp =>
    obtain ⟨t, e, hf⟩ := hs
    cases e
    cases c <;> simp only [act, dropMine, clearOld, removing] <;>
      first | exact ⟨⟨t, rfl, hf⟩, ht, fun _ h => h⟩ | exact ⟨trivial, ht, fun _ h => h⟩
  case tidy =>
    obtain ⟨t, e, hf⟩ := hs
    cases e
    cases c <;> simp only [act, dropMine, clearOld, removing] <;> exact ⟨⟨t, rfl, hf⟩, ht, fun _ h => h⟩
  case ready => exact ⟨hs, ht, fun _ h => h⟩
  case startMeta =>
    cases c <;> simp only [act, looking] <;> try exact ⟨trivial, ht, fun _ h => h⟩
    cases target with
    | none => exact ⟨trivial, ht, fun _ h => h⟩
    | some t => split <;> first | exact ⟨trivial, ht, fun _ h => h⟩ | exact ⟨⟨t, rfl, ht t rfl⟩, ht, fun _ h => h⟩
  case againMeta =>
    cases c <;> simp only [act, looking] <;> try exact ⟨trivial, ht, fun _ h => h⟩
    cases target with
    | none => exact ⟨trivial, ht, fun _ h => h⟩
    | some t => split <;> first | exact ⟨trivial, ht, fun _ h => h⟩ | exact ⟨⟨t, rfl, ht t rfl⟩, ht, fun _ h => h⟩
  case metaOpen =>
    cases c <;> simp only [act, install, openMeta, writeMeta] <;> try exact ⟨trivial, ht, fun _ h => h⟩
    split <;> exact ⟨trivial, ht, fun _ h => h⟩
  case metaWrite =>
    cases c <;> simp only [act, install, openMeta, writeMeta] <;> try exact ⟨trivial, ht, fun _ h => h⟩
    all_goals split <;> exact ⟨trivial, ht, fun _ h => h⟩
  case makeTemp => cases c <;> cases mine <;> exact ⟨trivial, ht, fun _ h => h⟩
  case unpack => cases c <;> exact ⟨trivial, ht, fun _ h => h⟩
  all_goals
    cases c <;> simp only [act, looking, trying, dropMine, removing] <;> (try split) <;> exact ⟨trivial, ht, fun _ h => h⟩

/-- What holds of the world while several processes run. -/
structure Together (A : Archive) (w : World) : Prop where
  clean : Clean A w.target
  own : ∀ i, Own A (w.view i)
  shared : ∀ i, Shared A (w.view i)

theorem placed_mono {A : Archive} {v v' : View} (h : Placed A v) (e : ∀ t, v.target = some t → v'.target = some t) :
    Placed A v' := by
  obtain ⟨t, h1, h2⟩ := h
  exact ⟨t, e t h1, h2⟩

theorem shared_other {A : Archive} {pc : Pc} {m : Option Node} {x y : Option Node}
    (e : ∀ t, x = some t → y = some t) (h : Shared A ⟨pc, m, x⟩) : Shared A ⟨pc, m, y⟩ := by
  cases pc <;> simp only [Shared] at h ⊢ <;> exact placed_mono h e

theorem own_other {A : Archive} {pc : Pc} {m : Option Node} {x y : Option Node} (h : Own A ⟨pc, m, x⟩) :
    Own A ⟨pc, m, y⟩ := by
  cases pc <;> exact h

theorem step_target {A : Archive} {w : World} {e : Nat × Choice} :
    (w.step A e).target = (act A e.2 (w.view e.1)).target := rfl

theorem view_step_self {A : Archive} {w : World} {i : Nat} {c : Choice} :
    (w.step A (i, c)).view i = act A c (w.view i) := by
  simp [World.step, World.view]

theorem view_step_other {A : Archive} {w : World} {i j : Nat} {c : Choice} (h : j ≠ i) :
    (w.step A (i, c)).view j = ⟨w.pcs j, w.temps j, (act A c (w.view i)).target⟩ := by
  simp [World.step, World.view, h]

theorem together_step {A : Archive} (hr : Spec.Reads A) {w : World} {e : Nat × Choice} (hc : e.2 ≠ .unread)
    (h : Together A w) : Together A (w.step A e) ∧ (∀ t, w.target = some t → (w.step A e).target = some t) := by
  obtain ⟨i, c⟩ := e
  obtain ⟨h1, h2, h3⟩ := shared_act (v := w.view i) hc h.clean (h.own i) (h.shared i)
  refine ⟨⟨h2, fun j => ?_, fun j => ?_⟩, h3⟩
  · by_cases hj : j = i
    · subst hj
      rw [view_step_self]
      exact own_act hr (h.own j)
    · rw [view_step_other hj]
      exact own_other (h.own j)
  · by_cases hj : j = i
    · subst hj
      rw [view_step_self]
      exact h1
    · rw [view_step_other hj]
      exact shared_other h3 (h.shared j)

theorem together_run {A : Archive} (hr : Spec.Reads A) {es : List (Nat × Choice)} {w : World}
    (hc : Spec.Readable es) (h : Together A w) :
    Together A (w.run A es) ∧ (∀ t, w.target = some t → (w.run A es).target = some t) := by
  induction es generalizing w with
  | nil => exact ⟨h, fun _ h => h⟩
  | cons e es ih =>
    obtain ⟨h1, h2⟩ := together_step hr (hc e List.mem_cons_self) h
    obtain ⟨h3, h4⟩ := ih (w := w.step A e) (fun x hx => hc x (List.mem_cons_of_mem _ hx)) h1
    exact ⟨h3, fun t ht => h4 t (h2 t ht)⟩

theorem together_first {A : Archive} (temps : Nat → Option Node) : Together A (.first none temps) :=
  ⟨(fun _ e => by cases e), fun _ => trivial, fun _ => trivial⟩

/-! ### One process after another -/

/-- Whatever would be recognized is complete. -/
def Honest (A : Archive) (target : Option Node) : Prop := ∀ t, target = some t → accepted A t = true → Installed A t

/-- What a process knows of the shared directory, when no other process runs. -/
def Alone (A : Archive) (v : View) : Prop :=
  match v.pc with
  | .startMeta | .installMeta | .againMeta => ∀ t, v.target = some t → layoutOk t = true
  | .clearTarget => ∀ t, v.target = some t → accepted A t = false
  | .dropTemp | .tidy | .ready => Placed A v
  | _ => True

theorem alone_act {A : Archive} {c : Choice} {v : View} (hc : c ≠ .unread) (ht : Honest A v.target) (ho : Own A v)
    (hs : Alone A v) :
    Alone A (act A c v) ∧ Honest A (act A c v).target ∧
      (∀ t, v.target = some t → accepted A t = true → (act A c v).target = some t) := by
  obtain ⟨pc, mine, target⟩ := v
  have keep : ∀ {t}, target = some t → accepted A t = true → target = some t := fun h _ => h
  cases pc
  case clearTarget =>
    simp only [Alone] at hs
    cases target with
    | none => exact ⟨trivial, ht, fun _ h _ => h⟩
    | some t =>
      have hn := hs t rfl
      have kk : ∀ (y : Option Node) (t' : Node), some t = some t' → accepted A t' = true → y = some t' := by
        intro y t' e ha
        cases e
        rw [hn] at ha; cases ha
      cases c <;> simp only [act, dropMine, clearOld, removing] <;> try first | exact ⟨trivial, ht, kk _⟩ | exact ⟨hs, ht, kk _⟩
      · exact ⟨trivial, (fun _ e => by cases e), kk _⟩
      · rename_i k
        refine ⟨fun t' e => ?_, fun t' e ha => ?_, kk _⟩
        · cases e
          cases hb : accepted A (t.prune k []) with
          | false => rfl
          | true => rw [accepted_prune hb] at hn; cases hn
        · cases e
          rw [accepted_prune ha] at hn; cases hn
  case rename =>
    simp only [Own, Packed] at ho
    obtain ⟨u, rfl, hu⟩ := ho
    cases c <;> simp only [act, install, openMeta, writeMeta] <;> try exact ⟨trivial, ht, fun _ h _ => h⟩
    split
    · rename_i hrep
      refine ⟨⟨u, rfl, hu⟩, fun t e _ => ?_, fun t e ha => ?_⟩
      · cases e; exact hu.1
      · subst e
        rw [fine_not_replaceable ha] at hrep; cases hrep
    · exact ⟨trivial, ht, fun _ h _ => h⟩
  case start =>
    cases c <;> simp only [act, looking] <;> try exact ⟨trivial, ht, fun _ h _ => h⟩
    split
    · rename_i h
      exact ⟨fun t e => by dsimp only at e; subst e; simpa using h, ht, fun _ h _ => h⟩
    · exact ⟨trivial, ht, fun _ h _ => h⟩
  case againLayout =>
    cases c <;> simp only [act, looking] <;> try exact ⟨trivial, ht, fun _ h _ => h⟩
    split
    · rename_i h
      exact ⟨fun t e => by dsimp only at e; subst e; simpa using h, ht, fun _ h _ => h⟩
    · exact ⟨trivial, ht, fun _ h _ => h⟩
  case installLayout =>
    cases c <;> simp only [act, looking] <;> try exact ⟨trivial, ht, fun _ h _ => h⟩
    · split
      · rename_i h
        exact ⟨fun t e => by dsimp only at e; subst e; simpa using h, ht, fun _ h _ => h⟩
      · rename_i h
        refine ⟨fun t e => ?_, ht, fun _ h _ => h⟩
        dsimp only at e
        subst e
        simp only [Option.any_some, Bool.not_eq_true] at h
        simp [accepted, h]
    · exact absurd rfl hc
  case startMeta =>
    simp only [Alone] at hs
    cases c <;> simp only [act, looking] <;> try first | exact ⟨trivial, ht, fun _ h _ => h⟩ | exact ⟨hs, ht, fun _ h _ => h⟩
    cases target with
    | none => exact ⟨trivial, ht, fun _ h _ => h⟩
    | some t =>
      split
      · rename_i h
        have ha : accepted A t = true := by
          simp only [Option.any_some] at h
          simp [accepted, h, hs t rfl]
        exact ⟨⟨t, rfl, ht t rfl ha, ha⟩, ht, fun _ h _ => h⟩
      · exact ⟨trivial, ht, fun _ h _ => h⟩
  case againMeta =>
    simp only [Alone] at hs
    cases c <;> simp only [act, looking] <;> try first | exact ⟨trivial, ht, fun _ h _ => h⟩ | exact ⟨hs, ht, fun _ h _ => h⟩
    cases target with
    | none => exact ⟨trivial, ht, fun _ h _ => h⟩
    | some t =>
      split
      · rename_i h
        have ha : accepted A t = true := by
          simp only [Option.any_some] at h
          simp [accepted, h, hs t rfl]
        exact ⟨⟨t, rfl, ht t rfl ha, ha⟩, ht, fun _ h _ => h⟩
      · exact ⟨trivial, ht, fun _ h _ => h⟩
  case installMeta =>
    simp only [Alone] at hs
    cases c <;> simp only [act, looking] <;> try first | exact absurd rfl hc | exact ⟨hs, ht, fun _ h _ => h⟩
    cases target with
    | none => exact ⟨(fun _ e => by cases e), ht, fun _ h _ => h⟩
    | some t =>
      split
      · rename_i h
        have ha : accepted A t = true := by
          simp only [Option.any_some] at h
          simp [accepted, h, hs t rfl]
        exact ⟨⟨t, rfl, ht t rfl ha, ha⟩, ht, fun _ h _ => h⟩
      · rename_i h
        refine ⟨fun t' e => ?_, ht, fun _ h _ => h⟩
        cases e
        simp only [Option.any_some, Bool.not_eq_true] at h
        simp [accepted, h]
  case dropTemp =>
    obtain ⟨t, e, hf⟩ := hs
    cases e
    cases c <;> simp only [act, dropMine, clearOld, removing] <;>
      first | exact ⟨⟨t, rfl, hf⟩, ht, fun _ h _ => h⟩ | exact ⟨trivial, ht, fun _ h _ => h⟩
  case tidy =>
    obtain ⟨t, e, hf⟩ := hs
    cases e
    cases c <;> simp only [act, dropMine, clearOld, removing] <;> exact ⟨⟨t, rfl, hf⟩, ht, fun _ h _ => h⟩
  case ready => exact ⟨hs, ht, fun _ h _ => h⟩
  case metaOpen =>
    cases c <;> simp only [act, install, openMeta, writeMeta] <;> try exact ⟨trivial, ht, fun _ h _ => h⟩
    split <;> exact ⟨trivial, ht, fun _ h _ => h⟩
  case metaWrite =>
    cases c <;> simp only [act, install, openMeta, writeMeta] <;> try exact ⟨trivial, ht, fun _ h _ => h⟩
    all_goals split <;> exact ⟨trivial, ht, fun _ h _ => h⟩
  case makeTemp => cases c <;> cases mine <;> exact ⟨trivial, ht, fun _ h _ => h⟩
  case unpack => cases c <;> exact ⟨trivial, ht, fun _ h _ => h⟩
  all_goals
    cases c <;> simp only [act, looking, trying, dropMine, removing] <;> (try split) <;> exact ⟨trivial, ht, fun _ h _ => h⟩

/-- What holds between two processes that run in turn. -/
structure Between (A : Archive) (w : World) : Prop where
  honest : Honest A w.target
  ready : ∀ i, w.pcs i = .ready → ∃ t, w.target = some t ∧ Fine A t

/-- One process, from its start to its end or until it is killed. -/
theorem between_block {A : Archive} (hr : Spec.Reads A) {i : Nat} {cs : List Choice} {w : World}
    (hc : ∀ c ∈ cs, c ≠ .unread) (h : Between A w) (ho : Own A (w.view i)) (ha : Alone A (w.view i)) :
    Between A (w.run A (cs.map fun c => (i, c))) ∧
      (∀ j, j ≠ i → (w.run A (cs.map fun c => (i, c))).pcs j = w.pcs j) := by
  induction cs generalizing w with
  | nil => exact ⟨h, fun _ _ => rfl⟩
  | cons c cs ih =>
    obtain ⟨h1, h2, h3⟩ := alone_act (v := w.view i) (hc c List.mem_cons_self) h.honest ho ha
    have hb : Between A (w.step A (i, c)) := by
      refine ⟨h2, fun j hj => ?_⟩
      by_cases hji : j = i
      · subst hji
        have hv : (act A c (w.view j)).pc = .ready := by
          rw [← view_step_self]; exact hj
        have hp : Placed A (act A c (w.view j)) := by
          generalize act A c (w.view j) = v at h1 hv
          obtain ⟨pc, m, t⟩ := v
          subst hv
          exact h1
        exact hp
      · have : w.pcs j = .ready := by simpa [World.step, hji] using hj
        obtain ⟨t, e, hf⟩ := h.ready j this
        exact ⟨t, h3 t e hf.2, hf⟩
    obtain ⟨h4, h5⟩ := ih (w := w.step A (i, c)) (fun x hx => hc x (List.mem_cons_of_mem _ hx)) hb
      (by rw [view_step_self]; exact own_act hr ho) (by rw [view_step_self]; exact h1)
    refine ⟨h4, fun j hj => (h5 j hj).trans ?_⟩
    simp [World.step, hj]

theorem run_append {A : Archive} {w : World} {es fs : List (Nat × Choice)} :
    w.run A (es ++ fs) = (w.run A es).run A fs := by
  simp [World.run, List.foldl_append]

theorem between_turns {A : Archive} (hr : Spec.Reads A) {bs : List (Nat × List Choice)} {w : World}
    (hc : ∀ b ∈ bs, ∀ c ∈ b.2, c ≠ .unread) (hn : (bs.map (·.1)).Nodup) (h : Between A w)
    (hs : ∀ b ∈ bs, w.pcs b.1 = .start) : Between A (w.run A (Spec.InTurn bs)) := by
  induction bs generalizing w with
  | nil => exact h
  | cons b bs ih =>
    rw [List.map_cons, List.nodup_cons] at hn
    have hst := hs b List.mem_cons_self
    have ho : Own A (w.view b.1) := by simp [Own, World.view, hst]
    have ha : Alone A (w.view b.1) := by simp [Alone, World.view, hst]
    obtain ⟨h1, h2⟩ := between_block hr (hc b List.mem_cons_self) h ho ha
    have e : Spec.InTurn (b :: bs) = b.2.map (fun c => (b.1, c)) ++ Spec.InTurn bs := by
      simp [Spec.InTurn]
    rw [e, run_append]
    refine ih (fun x hx => hc x (List.mem_cons_of_mem _ hx)) hn.2 h1 fun x hx => ?_
    rw [h2 x.1 fun e => hn.1 (e ▸ List.mem_map_of_mem hx)]
    exact hs x (List.mem_cons_of_mem _ hx)

end Acorn.Packaged
