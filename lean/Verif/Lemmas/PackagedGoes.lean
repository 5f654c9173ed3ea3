import Verif.Lemmas.PackagedRuns

/-
Lemmas for C62: a process that nothing disturbs comes to its end.
-/

namespace Acorn.Packaged

/-- The same process, several times. -/
def goes (A : Archive) : Nat → View → View
  | 0, v => v
  | n + 1, v => goes A n (act A .go v)

theorem view_goes {A : Archive} {n i : Nat} {w : World} :
    (w.run A (List.replicate n (i, .go))).view i = goes A n (w.view i) := by
  induction n generalizing w with
  | zero => rfl
  | succ n ih =>
    have : (w.run A (List.replicate (n + 1) (i, .go))) = (w.step A (i, .go)).run A (List.replicate n (i, .go)) := by
      simp [World.run, List.replicate_succ]
    rw [this, ih, view_step_self]
    rfl

theorem goes_add {A : Archive} {m n : Nat} {v : View} : goes A (m + n) v = goes A n (goes A m v) := by
  induction m generalizing v with
  | zero => rw [Nat.zero_add]; rfl
  | succ m ih => rw [Nat.succ_add]; exact ih

theorem goes_ready {A : Archive} {n : Nat} {m t : Option Node} : goes A n ⟨.ready, m, t⟩ = ⟨.ready, m, t⟩ := by
  induction n with
  | zero => rfl
  | succ n ih => exact ih

/-- From the temporary directory to the shared one. -/
theorem goes_rename {A : Archive} {n : Nat} {u : Node} {t : Option Node} (h : replaceable t = true) :
    goes A (n + 1) ⟨.rename, some u, t⟩ = ⟨.ready, none, some u⟩ := by
  simp only [goes, act, install, h, if_true, goes_ready]

theorem goes_seeTarget {A : Archive} {u : Node} {t : Option Node} (ht : ∀ x, t = some x → accepted A x = false) :
    goes A 5 ⟨.seeTarget, some u, t⟩ = ⟨.ready, none, some u⟩ := by
  cases t with
  | none => exact goes_rename (n := 3) rfl
  | some t =>
    have ha := ht t rfl
    simp only [accepted, Bool.and_eq_false_iff] at ha
    have e1 : goes A 5 ⟨.seeTarget, some u, some t⟩ = goes A 4 ⟨.installLayout, some u, some t⟩ := rfl
    have e2 : ∀ n, goes A (n + 2) ⟨.clearTarget, some u, some t⟩ = ⟨.ready, none, some u⟩ := fun n =>
      goes_rename (n := n) (t := none) rfl
    rw [e1]
    cases hl : layoutOk t with
    | false =>
      have : goes A 4 ⟨.installLayout, some u, some t⟩ = goes A 3 ⟨.clearTarget, some u, some t⟩ := by
        simp only [goes, act, looking, Option.any_some, hl]; rfl
      rw [this]; exact e2 1
    | true =>
      have hm : metaOk A t = false := by simpa [hl] using ha
      have : goes A 4 ⟨.installLayout, some u, some t⟩ = goes A 2 ⟨.clearTarget, some u, some t⟩ := by
        simp only [goes, act, looking, Option.any_some, hl, hm]; rfl
      rw [this]; exact e2 0

/-- Filling the temporary directory. -/
theorem goes_makeTemp {A : Archive} {n : Nat} {u : Node} {t : Option Node} (hl : layoutOk A.tree = true)
    (hu : Installed A u) : ∃ n', goes A (n + 5) ⟨.makeTemp, none, t⟩ = goes A n' ⟨.seeTarget, some u, t⟩ ∧ n' = n := by
  have hw : ∃ x, writeAt metaPath "" A.tree = some x ∧ writeAt metaPath (metaText A) x = some u := by
    have hu' := hu
    unfold Installed at hu
    cases hx : writeAt metaPath "" A.tree with
    | some x => exact ⟨x, rfl, by rw [writeAt_again hx]; exact hu⟩
    | none =>
      exfalso
      have := writeAt_again (s' := "") hu
      rw [hx] at this
      have h2 : ∀ (p : List String) (s s' : String) (t u : Node), writeAt p s t = some u → writeAt p s' t ≠ none := by
        intro p
        induction p with
        | nil => intro s s' t u h; cases t <;> simp [writeAt] at h ⊢
        | cons c p ih =>
          intro s s' t u h
          cases t with
          | file _ => simp [writeAt] at h
          | dir es =>
            simp only [writeAt] at h ⊢
            cases hc : es.child c with
            | some t =>
              simp only [hc, Option.map_eq_some_iff] at h
              obtain ⟨u', h1, -⟩ := h
              simp only [ne_eq, Option.map_eq_none_iff]
              exact ih s s' t u' h1
            | none =>
              simp only [hc] at h ⊢
              split at h
              · rename_i hp; simp [hp]
              · cases h
      exact h2 _ _ "" _ _ hu hx
  obtain ⟨x, h1, h2⟩ := hw
  refine ⟨n, ?_, rfl⟩
  rw [Nat.add_comm n 5, goes_add]
  congr 1
  simp only [goes, act, makeTempDir, extract, looking, Option.any_some, hl, if_true, openMeta, writeMeta,
    Option.bind_some, h1, h2]

theorem goes_makeRoot {A : Archive} {u : Node} {m t : Option Node} (hl : layoutOk A.tree = true)
    (hu : Installed A u) (ht : ∀ x, t = some x → accepted A x = false) :
    goes A 13 ⟨.makeRoot, m, t⟩ = ⟨.ready, none, some u⟩ := by
  cases m with
  | none =>
    have e : goes A 13 ⟨.makeRoot, none, t⟩ = goes A (6 + 5) ⟨.makeTemp, none, t⟩ := rfl
    obtain ⟨n', h1, rfl⟩ := goes_makeTemp (n := 6) (t := t) hl hu
    rw [e, h1, goes_add (m := 5) (n := 1), goes_seeTarget ht]
    rfl
  | some m =>
    have e : goes A 13 ⟨.makeRoot, some m, t⟩ = goes A (5 + 5) ⟨.makeTemp, none, t⟩ := rfl
    obtain ⟨n', h1, rfl⟩ := goes_makeTemp (n := 5) (t := t) hl hu
    rw [e, h1, goes_seeTarget ht]

theorem goes_start {A : Archive} {u : Node} {m t : Option Node} (hl : layoutOk A.tree = true)
    (hu : Installed A u) :
    goes A 15 ⟨.start, m, t⟩ = ⟨.ready, none, some u⟩ ∧ (∀ x, t = some x → accepted A x = false) ∨
      goes A 15 ⟨.start, m, t⟩ = ⟨.ready, m, t⟩ ∧ ∃ x, t = some x ∧ accepted A x = true := by
  cases t with
  | none =>
    refine .inl ⟨?_, fun _ e => by cases e⟩
    have e : goes A 15 ⟨.start, m, none⟩ = goes A (13 + 1) ⟨.makeRoot, m, none⟩ := rfl
    rw [e, goes_add, goes_makeRoot hl hu (fun _ e => by cases e)]
    rfl
  | some t =>
    cases ha : accepted A t with
    | true =>
      have h' := ha
      simp only [accepted, Bool.and_eq_true] at h'
      refine .inr ⟨?_, t, rfl, ha⟩
      simp only [goes, act, looking, Option.any_some, h'.1, h'.2, if_true]
    | false =>
      have ht : ∀ x, some t = some x → accepted A x = false := fun x e => by cases e; exact ha
      refine .inl ⟨?_, ht⟩
      simp only [accepted, Bool.and_eq_false_iff] at ha
      cases hlt : layoutOk t with
      | false =>
        have e : goes A 15 ⟨.start, m, some t⟩ = goes A (13 + 1) ⟨.makeRoot, m, some t⟩ := by
          rw [show (15 : Nat) = 1 + 14 from rfl, goes_add]
          simp only [goes, act, looking, Option.any_some, hlt]; rfl
        rw [e, goes_add, goes_makeRoot hl hu ht]; rfl
      | true =>
        have hm : metaOk A t = false := by simpa [hlt] using ha
        have e : goes A 15 ⟨.start, m, some t⟩ = goes A 13 ⟨.makeRoot, m, some t⟩ := by
          rw [show (15 : Nat) = 2 + 13 from rfl, goes_add]
          simp only [goes, act, looking, Option.any_some, hlt, hm]; rfl
        rw [e, goes_makeRoot hl hu ht]

/-! ### What is left behind -/

/-- Before it is made and after the end there is no temporary directory. -/
def Swept (v : View) : Prop :=
  match v.pc with
  | .start | .startMeta | .makeRoot | .seeTemp | .makeTemp | .ready | .failed => v.mine = none
  | _ => True

theorem swept_act {A : Archive} {c : Choice} {v : View} (hc : c ≠ .fail) (h : Swept v) :
    Swept (act A c v) := by
  obtain ⟨pc, mine, target⟩ := v
  cases pc
  case makeTemp =>
    simp only [Swept] at h
    subst h
    cases c <;> first | trivial | rfl | exact absurd rfl hc
  case unpack => cases c <;> first | trivial | rfl
  case metaOpen =>
    cases c <;> simp only [act, openMeta] <;> (try split) <;> trivial
  case metaWrite =>
    cases c <;> simp only [act, writeMeta] <;> (try split) <;> trivial
  case clearTarget => cases target <;> cases c <;> trivial
  case rename =>
    cases c <;> simp only [act, install] <;> try trivial
    split
    · split <;> first | rfl | trivial
    · trivial
  case ready => exact h
  case failed => exact h
  all_goals
    cases c <;> simp only [act, looking, trying, dropMine, removing] <;> (try split) <;>
      first | exact h | rfl | trivial | exact absurd rfl hc

theorem swept_run {A : Archive} {es : List (Nat × Choice)} {w : World} (hc : ∀ e ∈ es, e.2 ≠ .fail)
    (h : ∀ i, Swept (w.view i)) : ∀ i, Swept ((w.run A es).view i) := by
  induction es generalizing w with
  | nil => exact h
  | cons e es ih =>
    obtain ⟨j, c⟩ := e
    have hce := hc (j, c) List.mem_cons_self
    refine ih (w := w.step A (j, c)) (fun x hx => hc x (List.mem_cons_of_mem _ hx)) fun i => ?_
    by_cases hj : i = j
    · subst hj
      rw [view_step_self]
      exact swept_act hce (h i)
    · rw [view_step_other hj]
      have := h i
      simp only [World.view] at this
      cases hp : w.pcs i <;> simp only [Swept, hp] at this ⊢ <;> exact this

end Acorn.Packaged
