import Verif.Lemmas.ParallelEnd
import Verif.Spec.ReloadTargets
/-
Lemmas about the two closures.
-/
namespace Acorn.Proj

variable {E I σ : Type}

theorem pushNew_spec (xs : List Mod) : ∀ (s : List Mod × List Mod), s.1.Nodup → s.2.Nodup →
    (∀ x ∈ s.2, x ∈ s.1) →
    ∃ new : List Mod, (pushNew xs s).1 = new ++ s.1 ∧ (pushNew xs s).2 = new ++ s.2 ∧
      (new ++ s.1).Nodup ∧ (∀ x ∈ new, x ∈ xs) ∧ ∀ x ∈ xs, x ∈ new ++ s.1 := by
  induction xs with
  | nil => intro s h1 _ _; exact ⟨[], rfl, rfl, h1, by simp, by simp⟩
  | cons a xs ih =>
    intro s h1 h2 h3
    unfold pushNew
    by_cases ha : a ∈ s.1
    · simp only [ha, if_true]
      obtain ⟨new, e1, e2, e3, e4, e5⟩ := ih s h1 h2 h3
      refine ⟨new, e1, e2, e3, fun x hx => .tail _ (e4 x hx), fun x hx => ?_⟩
      rcases List.mem_cons.1 hx with rfl | hx
      · exact List.mem_append.2 (.inr ha)
      · exact e5 x hx
    · simp only [ha, if_false]
      obtain ⟨new, e1, e2, e3, e4, e5⟩ := ih (a :: s.1, a :: s.2) (List.nodup_cons.2 ⟨ha, h1⟩)
        (List.nodup_cons.2 ⟨fun h => ha (h3 a h), h2⟩)
        (fun x hx => by
          rcases List.mem_cons.1 hx with rfl | hx
          · exact .head _
          · exact .tail _ (h3 x hx))
      refine ⟨new ++ [a], by simp [e1], by simp [e2], by simpa using e3, fun x hx => ?_,
        fun x hx => ?_⟩
      · rcases List.mem_append.1 hx with hx | hx
        · exact .tail _ (e4 x hx)
        · rw [List.mem_singleton.1 hx]; exact .head _
      · rcases List.mem_cons.1 hx with rfl | hx
        · simp
        · simpa using e5 x hx

/-- The modules that can be reached from `roots` with `next`. -/
inductive From (next : Mod → List Mod) (roots : List Mod) : Mod → Prop where
  | root {m} : m ∈ roots → From next roots m
  | step {d m} : From next roots d → m ∈ next d → From next roots m

theorem closeQueue_spec {next : Mod → List Mod} {roots U : List Mod}
    (hU : ∀ d, ∀ x ∈ next d, x ∈ U) (hr : ∀ x ∈ roots, x ∈ U) (n : Nat) :
    ∀ s : List Mod × List Mod, s.1.Nodup → s.2.Nodup → (∀ x ∈ s.2, x ∈ s.1) →
      (∀ x ∈ s.1, From next roots x) → (∀ x ∈ roots, x ∈ s.1) →
      (∀ x ∈ s.1, x ∉ s.2 → ∀ y ∈ next x, y ∈ s.1) →
      U.length + s.2.length ≤ n + s.1.length →
      (closeQueue next n s).Nodup ∧ ∀ x, x ∈ closeQueue next n s ↔ From next roots x := by
  have fin : ∀ c : List Mod, (∀ x ∈ c, From next roots x) → (∀ x ∈ roots, x ∈ c) →
      (∀ x ∈ c, ∀ y ∈ next x, y ∈ c) → ∀ x, x ∈ c ↔ From next roots x := by
    intro c h1 h2 h3 x
    refine ⟨h1 x, fun h => ?_⟩
    induction h with
    | root h => exact h2 _ h
    | step _ h ih => exact h3 _ ih _ h
  have sub : ∀ x, From next roots x → x ∈ U := by
    intro x h
    cases h with
    | root h => exact hr _ h
    | step _ h => exact hU _ _ h
  induction n with
  | zero =>
    intro s h1 h2 h3 h4 h5 h6 h7
    refine ⟨h1, fin s.1 h4 h5 fun x hx => ?_⟩
    have hl := nodup_length_le h1 (fun x hx => sub x (h4 x hx))
    have : s.2 = [] := List.length_eq_zero_iff.1 (by omega)
    exact h6 x hx (by rw [this]; simp)
  | succ n ih =>
    intro s h1 h2 h3 h4 h5 h6 h7
    unfold closeQueue
    cases hq : s.2 with
    | nil => exact ⟨h1, fin s.1 h4 h5 fun x hx => h6 x hx (by rw [hq]; simp)⟩
    | cons d queue =>
      simp only
      rw [hq] at h2 h3 h7
      obtain ⟨hd, hq'⟩ := List.nodup_cons.1 h2
      obtain ⟨new, e1, e2, e3, e4, e5⟩ := pushNew_spec (next d) (s.1, queue) h1 hq'
        (fun x hx => h3 x (.tail _ hx))
      simp only at e1 e2 e3 e5
      have hnew := List.nodup_append.1 e3
      apply ih
      · rw [e1]; exact e3
      · rw [e2]
        exact List.nodup_append.2 ⟨hnew.1, hq', fun a ha b hb => hnew.2.2 a ha b (h3 b (.tail _ hb))⟩
      · rw [e1, e2]
        intro x hx
        rcases List.mem_append.1 hx with hx | hx
        · exact List.mem_append.2 (.inl hx)
        · exact List.mem_append.2 (.inr (h3 x (.tail _ hx)))
      · rw [e1]
        intro x hx
        rcases List.mem_append.1 hx with hx | hx
        · exact .step (h4 d (h3 d (.head _))) (e4 x hx)
        · exact h4 x hx
      · rw [e1]
        intro x hx
        exact List.mem_append.2 (.inr (h5 x hx))
      · rw [e1, e2]
        intro x hx hx' y hy
        by_cases e : x = d
        · subst e; exact e5 y hy
        · rcases List.mem_append.1 hx with hx | hx
          · exact absurd (List.mem_append.2 (.inl hx)) hx'
          · refine List.mem_append.2 (.inr (h6 x hx ?_ y hy))
            rw [hq]
            intro h
            rcases List.mem_cons.1 h with h | h
            · exact e h
            · exact hx' (List.mem_append.2 (.inr h))
      · rw [e1, e2]
        simp only [List.length_cons, List.length_append] at h7 ⊢
        omega

theorem mem_dependenciesOf {files : Files I} {d m : Mod} :
    d ∈ dependenciesOf files m ↔ d ≠ m ∧
      ∃ stmts, files.lookup m = some (.parsed stmts) ∧ ∃ s ∈ stmts, d ∈ s.imports ∨ d ∈ s.libs := by
  unfold dependenciesOf
  split
  · rename_i stmts h
    rw [List.mem_filter, mem_dependencyNames]
    constructor
    · rintro ⟨h1, h2⟩
      exact ⟨by simpa using h2, stmts, h, h1⟩
    · rintro ⟨h1, s, h2, h3⟩
      rw [h] at h2
      cases h2
      exact ⟨h3, by simpa using h1⟩
  · rename_i h
    constructor
    · intro h; cases h
    · rintro ⟨_, s, h2, _⟩
      exact absurd h2 (h s)

theorem mem_targetsNaming {files : Files I} {targets : List Mod} {d t : Mod} :
    t ∈ targetsNaming files targets d ↔
      t ∈ targets ∧ ((t ≠ preludeMod ∧ d = preludeMod) ∨ d ∈ dependenciesOf files t) := by
  unfold targetsNaming
  rw [List.mem_flatMap]
  constructor
  · rintro ⟨t', h, h'⟩
    rcases List.mem_append.1 h' with k | k
    · split at k
      · rename_i hc
        rw [List.mem_singleton.1 k]
        exact ⟨h, .inl hc⟩
      · cases k
    · obtain ⟨x, hx, rfl⟩ := List.mem_map.1 k
      obtain ⟨h1, h2⟩ := List.mem_filter.1 hx
      have : x = d := by simpa using h2
      subst this
      exact ⟨h, .inr h1⟩
  · rintro ⟨h, k⟩
    refine ⟨t, h, List.mem_append.2 ?_⟩
    rcases k with k | k
    · left; rw [if_pos k]; exact .head _
    · right; exact List.mem_map.2 ⟨d, List.mem_filter.2 ⟨k, by simp⟩, rfl⟩

theorem dependentTargets_spec (files : Files I) (targets : List Mod) (m : Mod) :
    (dependentTargets files targets [m]).Nodup ∧
      ∀ t, t ∈ dependentTargets files targets [m] ↔ Affected files targets m t := by
  obtain ⟨h1, h2⟩ := closeQueue_spec (next := targetsNaming files targets) (roots := [m])
    (U := [m] ++ targets)
    (fun d x hx => List.mem_append.2 (.inr (mem_targetsNaming.1 hx).1))
    (fun x hx => List.mem_append.2 (.inl hx))
    ([m].length + targets.length) ([m], [m]) (by simp) (by simp) (fun x hx => hx)
    (fun x hx => .root hx) (fun x hx => hx) (fun x hx h => absurd hx h) (by simp; omega)
  refine ⟨h1, fun t => (h2 t).trans ⟨fun h => ?_, fun h => ?_⟩⟩
  · induction h with
    | root h => rw [List.mem_singleton.1 h]; exact .self
    | step _ h ih =>
      obtain ⟨k1, k2 | k2⟩ := mem_targetsNaming.1 h
      · exact .prelude (k2.2 ▸ ih) k1 k2.1
      · obtain ⟨_, s, k3, k4⟩ := mem_dependenciesOf.1 k2
        exact .needs ih k1 ⟨s, k3, .inl k4⟩
  · induction h with
    | self => exact .root (by simp)
    | @needs d t _ k1 k2 ih =>
      by_cases e : d = t
      · exact e ▸ ih
      · obtain ⟨s, k3, k4 | k4⟩ := k2
        · exact .step ih (mem_targetsNaming.2 ⟨k1, .inr (mem_dependenciesOf.2 ⟨e, s, k3, k4⟩)⟩)
        · exact .step ih (mem_targetsNaming.2 ⟨k1, .inl ⟨k4.2, k4.1⟩⟩)
    | prelude _ k1 k2 ih =>
      exact .step ih (mem_targetsNaming.2 ⟨k1, .inl ⟨k2, rfl⟩⟩)

theorem mem_knownDependencies {files : Files I} {known : Mod → Bool} {d m : Mod} :
    d ∈ knownDependencies files known m ↔
      known d ∧ ((m ≠ preludeMod ∧ d = preludeMod) ∨ d ∈ dependenciesOf files m) := by
  unfold knownDependencies
  rw [List.mem_append, List.mem_filter]
  constructor
  · rintro (h | ⟨h1, h2⟩)
    · split at h
      · rename_i hc
        rw [List.mem_singleton.1 h]
        exact ⟨hc.2, .inl ⟨hc.1, rfl⟩⟩
      · cases h
    · exact ⟨h2, .inr h1⟩
  · rintro ⟨h1, ⟨h2, rfl⟩ | h2⟩
    · left; rw [if_pos ⟨h2, h1⟩]; exact .head _
    · exact .inr ⟨h2, h1⟩

theorem dependencyClosure_spec (files : Files I) (p : Table E) (roots : List Mod)
    (hn : roots.Nodup) :
    (dependencyClosure files (fun d => (p.states d).isSome) roots).Nodup ∧
      ∀ t, t ∈ dependencyClosure files (fun d => (p.states d).isSome) roots ↔
        Wanted files p roots t := by
  obtain ⟨h1, h2⟩ := closeQueue_spec
    (next := knownDependencies files (fun d => (p.states d).isSome)) (roots := roots)
    (U := roots ++ preludeMod :: files.flatMap fun f => dependenciesOf files f.1)
    (fun d x hx => by
      refine List.mem_append.2 (.inr ?_)
      obtain ⟨_, ⟨_, rfl⟩ | h⟩ := mem_knownDependencies.1 hx
      · exact .head _
      · refine .tail _ (List.mem_flatMap.2 ?_)
        obtain ⟨_, s, k, _⟩ := mem_dependenciesOf.1 h
        obtain ⟨f, hf, rfl⟩ := List.mem_map.1 (mem_of_lookup k)
        exact ⟨f, hf, h⟩)
    (fun x hx => List.mem_append.2 (.inl hx))
    (roots.length + (preludeMod :: files.flatMap fun f => dependenciesOf files f.1).length)
    (roots, roots) hn hn (fun x hx => hx)
    (fun x hx => .root hx) (fun x hx => hx) (fun x hx h => absurd hx h)
    (by rw [List.length_append]; exact Nat.le_refl _)
  have some_iff : ∀ d, (p.states d).isSome = true ↔ p.states d ≠ none := by
    intro d; cases p.states d <;> simp
  refine ⟨h1, fun t => (h2 t).trans ⟨fun h => ?_, fun h => ?_⟩⟩
  · induction h with
    | root h => exact .asked h
    | step _ h ih =>
      obtain ⟨k1, ⟨k2, rfl⟩ | k2⟩ := mem_knownDependencies.1 h
      · exact .prelude ih ((some_iff _).1 k1)
      · obtain ⟨_, s, k3, k4⟩ := mem_dependenciesOf.1 k2
        exact .needs ih ⟨s, k3, .inl k4⟩ ((some_iff _).1 k1)
  · induction h with
    | asked h => exact .root h
    | @needs d t _ k1 k2 ih =>
      by_cases e : d = t
      · exact e ▸ ih
      · obtain ⟨s, k3, k4 | k4⟩ := k1
        · exact .step ih (mem_knownDependencies.2
            ⟨(some_iff _).2 k2, .inr (mem_dependenciesOf.2 ⟨e, s, k3, k4⟩)⟩)
        · exact .step ih (mem_knownDependencies.2 ⟨(some_iff _).2 k2, .inl ⟨k4.2, k4.1⟩⟩)
    | @prelude m _ k2 ih =>
      by_cases e : m = preludeMod
      · exact e ▸ ih
      · exact .step ih (mem_knownDependencies.2 ⟨(some_iff _).2 k2, .inl ⟨e, rfl⟩⟩)

theorem register_known {P : Project E I} (hs : Saved P) {d : Mod}
    (h : P.files.lookup d ≠ none) :
    (P.table.register (P.disk.map (·.1))).states d ≠ none := by
  unfold Table.register
  simp only
  cases P.table.states d with
  | some s => simp
  | none => simp [hs d h]

/-- When all open files are on disk, what is handed to the loader contains all it needs. -/
theorem closure_covered {P : Project E I} (hs : Saved P) {ms : List Mod} (hn : ms.Nodup)
    {order : List Mod}
    (hp : order.Perm (dependencyClosure P.files
      (fun d => ((P.table.register (P.disk.map (·.1))).states d).isSome) ms)) :
    Covered P.files (P.table.register (P.disk.map (·.1))) order := by
  obtain ⟨_, h⟩ := dependencyClosure_spec P.files (P.table.register (P.disk.map (·.1))) ms hn
  intro m hm d hd
  by_cases hf : P.files.lookup d = none
  · exact .inr (.inl hf)
  · have hk := register_known hs hf
    have hw := (h m).1 (hp.mem_iff.1 hm)
    exact .inr (.inr ⟨hp.mem_iff.2 ((h d).2 (.needs hw hd hk)), hk⟩)

/-! ### Edits -/

/-- A module that does not need `m` needs the same modules after an edit of `m`. -/
theorem below_edit {f g : Files I} {m : Mod} (h : ∀ x, x ≠ m → f.lookup x = g.lookup x) {d t : Mod}
    (k : Below f d t) : t ≠ m → ¬ Below f m t → Below g d t := by
  have one : ∀ {d t}, Needs f d t → t ≠ m → Needs g d t := by
    intro d t k ht
    unfold Needs
    rw [← h t ht]
    exact k
  induction k with
  | direct n => intro ht _; exact .direct (one n ht)
  | @through k t _ n ih =>
    intro ht hb
    have hk : k ≠ m := by rintro rfl; exact hb (.direct n)
    exact .through (ih hk (fun b => hb (.through b n))) (one n ht)

theorem below_edited {f g : Files I} {m : Mod} (h : ∀ x, x ≠ m → f.lookup x = g.lookup x) {t : Mod}
    (k : Below g m t) : t ≠ m → Below f m t := by
  have one : ∀ {d t}, Needs g d t → t ≠ m → Needs f d t := by
    intro d t k ht
    unfold Needs
    rw [h t ht]
    exact k
  induction k with
  | direct n => intro ht; exact .direct (one n ht)
  | @through k t _ n ih =>
    intro ht
    by_cases e : k = m
    · subst e; exact .direct (one n ht)
    · exact .through (ih e) (one n ht)

theorem result_edit {El : Elaborator E I σ} {f g : Files I} {m : Mod}
    (h : ∀ x, x ≠ m → f.lookup x = g.lookup x) (hl : Local El f)
    {V W : Mod → Option E} (hV : Result El f V) (hW : Result El g W) {t : Mod} (ht : t ≠ m)
    (hb : ¬ Below f m t) : V t = W t := by
  have hb' : ¬ Below g m t := fun k => hb (below_edited h k ht)
  have h' : ∀ x, x ≠ m → g.lookup x = f.lookup x := fun x hx => (h x hx).symm
  have out : ∀ {f g : Files I} (_ : ∀ x, x ≠ m → f.lookup x = g.lookup x) {t : Mod}, t ≠ m →
      ¬ Below f m t → Circular f t → Circular g t := by
    intro f g h t ht hb hc
    rcases hc with hc | ⟨x, h1, h2⟩
    · exact .inl (below_edit h hc ht hb)
    · have hx : x ≠ m := by rintro rfl; exact hb h1
      exact .inr ⟨x, below_edit h h1 ht hb, below_edit h h2 hx (fun k => hb (k.trans h1))⟩
  by_cases hc : Circular f t
  · rw [hV.circular t hc, hW.circular t (out h ht hb hc)]
  · have ha := acc_of_not_circular hc
    induction ha with
    | intro t _ ih =>
      rw [hV.build t hc, hW.build t (fun k => hc (out h' ht hb' k))]
      have : buildFile El g W t = buildFile El f W t := by
        unfold buildFile
        rw [h t ht]
      rw [this]
      apply buildFile_local _ hl
      intro x hx
      have hxm : x ≠ m := by rintro rfl; exact hb hx
      have hx' := below_edit h hx ht hb
      exact ih x hx hxm (fun k => hb (k.trans hx)) (fun k => hb' (k.trans hx'))
        (fun k => hc (k.of_below hx))

end Acorn.Proj
