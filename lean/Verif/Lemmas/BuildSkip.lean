import Verif.Spec.BuildSkip
import Verif.Lemmas.BuildCache
/-
Lemmas about the decision to skip a module.
-/
namespace Acorn.Build
open Spec Paths

/-! ### The depth-first search -/

/-- Modules not yet seen. -/
def unseen (mods seen : List Desc) : Nat := (mods.filter fun d => d ∉ seen).length

theorem unseen_le {mods s s' : List Desc} (h : ∀ x ∈ s, x ∈ s') : unseen mods s' ≤ unseen mods s := by
  unfold unseen
  induction mods with
  | nil => simp
  | cons a l ih =>
    rw [List.filter_cons, List.filter_cons]
    by_cases h1 : a ∈ s
    · have h2 := h a h1
      simpa [h1, h2] using ih
    · by_cases h2 : a ∈ s'
      · simp [h1, h2]; simp at ih; omega
      · simpa [h1, h2] using ih

theorem unseen_lt {mods s : List Desc} {m : Desc} (hm : m ∈ mods) (hs : m ∉ s) :
    unseen mods (m :: s) < unseen mods s := by
  unfold unseen
  induction mods with
  | nil => cases hm
  | cons a l ih =>
    rw [List.filter_cons, List.filter_cons]
    have hle : (l.filter fun d => decide (d ∉ m :: s)).length ≤
        (l.filter fun d => decide (d ∉ s)).length :=
      unseen_le (mods := l) (s := s) (s' := m :: s) fun x hx => List.mem_cons_of_mem _ hx
    by_cases e : a = m
    · subst e
      simp only [List.mem_cons, true_or, not_true_eq_false, decide_false, Bool.false_eq_true,
        if_false, hs, not_false_eq_true, decide_true, if_true, List.length_cons]
      exact Nat.lt_succ_of_le (by simpa using hle)
    · have hl : m ∈ l := by
        rcases List.mem_cons.1 hm with h | h
        · exact absurd h.symm e
        · exact h
      have := ih hl
      by_cases h1 : a ∈ s
      · simp only [List.mem_cons, h1, or_true, not_true_eq_false, decide_false, Bool.false_eq_true,
          if_false]
        simpa using this
      · simp only [List.mem_cons, h1, e, or_false, not_false_eq_true, decide_true, if_true,
          List.length_cons]
        simpa using this

/-- What one call of the search guarantees. -/
structure DfsOk (imports : Desc → List Desc) (seen out : List Desc) (m : Desc)
    (r : Bool × List Desc × List Desc) : Prop where
  grow : ∀ x ∈ seen, x ∈ r.2.1
  here : m ∈ r.2.1
  closed : ∀ x ∈ r.2.1, x ∉ seen → ∀ y ∈ imports x, y ∈ r.2.1
  keep : ∀ x ∈ out, x ∈ r.2.2
  listed : ∀ x ∈ r.2.1, x ∉ seen → x ≠ m → x ∈ r.2.2
  old : r.1 = false → m ∈ seen
  reach : ∀ x ∈ r.2.2, x ∉ out → DependsOn imports m x

theorem appendDeps_ok {imports : Desc → List Desc} {mods : List Desc}
    (himp : ∀ d ∈ mods, ∀ x ∈ imports d, x ∈ mods) (n : Nat) :
    ∀ (seen out : List Desc) (m : Desc), m ∈ mods → unseen mods seen < n →
      DfsOk imports seen out m (appendDeps imports n seen out m) := by
  induction n with
  | zero => intro seen out m _ h; exact absurd h (Nat.not_lt_zero _)
  | succ n ih =>
    intro seen out m hm hn
    rw [appendDeps]
    split
    · rename_i hs
      exact ⟨fun x hx => hx, hs, fun x hx h => absurd hx h, fun x hx => hx,
        fun x hx h => absurd hx h, fun _ => hs, fun x hx h => absurd hx h⟩
    · rename_i hs
      have hlt : unseen mods (m :: seen) < n :=
        Nat.lt_of_lt_of_le (unseen_lt hm hs) (Nat.le_of_lt_succ hn)
      -- the loop over the imports
      have loop : ∀ (deps : List Desc) (s o : List Desc),
          (∀ d ∈ deps, d ∈ imports m) → (∀ x ∈ m :: seen, x ∈ s) →
          (∀ x ∈ s, x ∉ m :: seen → ∀ y ∈ imports x, y ∈ s) →
          (∀ x ∈ out, x ∈ o) → (∀ x ∈ s, x ∉ m :: seen → x ∈ o) →
          (∀ x ∈ o, x ∉ out → DependsOn imports m x) →
          let r := deps.foldl
            (fun (r : List Desc × List Desc) dep =>
              let q := appendDeps imports n r.1 r.2 dep
              (q.2.1, if q.1 then q.2.2 ++ [dep] else q.2.2)) (s, o)
          (∀ x ∈ s, x ∈ r.1) ∧ (∀ d ∈ deps, d ∈ r.1) ∧
          (∀ x ∈ r.1, x ∉ m :: seen → ∀ y ∈ imports x, y ∈ r.1) ∧
          (∀ x ∈ out, x ∈ r.2) ∧ (∀ x ∈ r.1, x ∉ m :: seen → x ∈ r.2) ∧
          (∀ x ∈ r.2, x ∉ out → DependsOn imports m x) := by
        intro deps
        induction deps with
        | nil =>
          intro s o _ _ h2 h3 h4 h5
          exact ⟨fun x hx => hx, by simp, h2, h3, h4, h5⟩
        | cons d deps ihd =>
          intro s o h0 h1 h2 h3 h4 h5
          have hd : d ∈ imports m := h0 d (by simp)
          have hq := ih s o d (himp m hm d hd) (Nat.lt_of_le_of_lt (unseen_le h1) hlt)
          generalize hqe : appendDeps imports n s o d = q at hq
          simp only [List.foldl_cons, hqe]
          have hout : ∀ x ∈ (if q.1 = true then q.2.2 ++ [d] else q.2.2), x ∈ q.2.2 ∨ x = d := by
            intro x hx
            split at hx
            · rcases List.mem_append.1 hx with hx | hx
              · exact Or.inl hx
              · exact Or.inr (List.mem_singleton.1 hx)
            · exact Or.inl hx
          have hin : ∀ x ∈ q.2.2, x ∈ (if q.1 = true then q.2.2 ++ [d] else q.2.2) := by
            intro x hx
            split
            · exact List.mem_append_left _ hx
            · exact hx
          have hrec := ihd q.2.1 (if q.1 = true then q.2.2 ++ [d] else q.2.2)
            (fun x hx => h0 x (by simp [hx])) (fun x hx => hq.grow x (h1 x hx))
            (by
              intro x hx hx' y hy
              by_cases hxs : x ∈ s
              · exact hq.grow y (h2 x hxs hx' y hy)
              · exact hq.closed x hx hxs y hy)
            (fun x hx => hin x (hq.keep x (h3 x hx)))
            (by
              intro x hx hx'
              by_cases hxs : x ∈ s
              · exact hin x (hq.keep x (h4 x hxs hx'))
              · by_cases hxd : x = d
                · subst hxd
                  split
                  · simp
                  · rename_i hb
                    exact absurd (hq.old (by simpa using hb)) hxs
                · exact hin x (hq.listed x hx hxs hxd))
            (by
              intro x hx hx'
              rcases hout x hx with hx | rfl
              · by_cases hxo : x ∈ o
                · exact h5 x hxo hx'
                · exact Relation.TransGen.head hd (hq.reach x hx hxo)
              · exact Relation.TransGen.single hd)
          obtain ⟨r1, r2, r3, r4, r5, r6⟩ := hrec
          refine ⟨fun x hx => r1 x (hq.grow x hx), ?_, r3, r4, r5, r6⟩
          intro x hx
          rcases List.mem_cons.1 hx with rfl | hx
          · exact r1 _ hq.here
          · exact r2 x hx
      obtain ⟨r1, r2, r3, r4, r5, r6⟩ := loop (imports m) (m :: seen) out (fun d hd => hd)
        (fun x hx => hx) (fun x hx h => absurd hx h) (fun x hx => hx) (fun x hx h => absurd hx h)
        (fun x hx h => absurd hx h)
      refine ⟨fun x hx => r1 x (by simp [hx]), r1 m (by simp), ?_, r4, ?_, by simp, r6⟩
      · intro x hx hxs y hy
        by_cases e : x = m
        · subst e; exact r2 y hy
        · exact r3 x hx (by simp [e, hxs]) y hy
      · intro x hx hxs e
        exact r5 x hx (by simp [e, hxs])

theorem closed_reach {imports : Desc → List Desc} {s : List Desc}
    (h : ∀ x ∈ s, ∀ y ∈ imports x, y ∈ s) {m x : Desc} (hm : m ∈ s)
    (hx : DependsOn imports m x) : x ∈ s := by
  induction hx with
  | single h' => exact h _ hm _ h'
  | tail _ h' ih => exact h _ ih _ h'

theorem mem_allDependencies {p : Project} (hp : ∀ d ∈ p.modules, ∀ x ∈ p.imports d, x ∈ p.modules)
    {m : Desc} (hm : m ∈ p.modules) :
    (∀ x, DependsOn p.imports m x → x = m ∨ x ∈ p.allDependencies m) ∧
    (∀ x ∈ p.allDependencies m, DependsOn p.imports m x) := by
  have h := appendDeps_ok (imports := p.imports) hp (p.modules.length + 1) [] [] m hm
    (Nat.lt_succ_of_le (List.length_filter_le _ _))
  refine ⟨fun x hx => ?_, fun x hx => h.reach x hx (by simp)⟩
  by_cases e : x = m
  · exact Or.inl e
  · have hs := closed_reach (fun y hy => h.closed y hy (by simp)) h.here hx
    exact Or.inr (h.listed x hs (by simp) e)

/-! ### Where a module's hash is recorded -/

/-- The place of a module's hash: the package root, and the key if it is not the interface. -/
def keyOf (exist : Path → Bool) (src : Path) (d : Desc) : Option (Path × Option Path) :=
  match sourceOfDesc exist src d with
  | none => none
  | some source =>
    match packageRoot exist src source with
    | none => none
    | some root =>
      if isInterfacePath exist src source then some (root, none)
      else (stripPrefix root source).map fun k => (root, some k)

/-- The hash recorded at a place. -/
def Cache.at (c : Cache) : Path × Option Path → Option Hash
  | (r, none) => interfaceOf c r
  | (r, some k) => implementationOf c r k

theorem manifestMatches_iff {exist : Path → Bool} {src : Path} {c : Cache} {d : Desc} {h : Hash} :
    c.manifestMatches exist src d h = true ↔
      ∃ k, keyOf exist src d = some k ∧ c.at k = some h := by
  unfold Cache.manifestMatches keyOf
  cases sourceOfDesc exist src d with
  | none => simp
  | some source =>
    dsimp only
    cases packageRoot exist src source with
    | none => simp
    | some root =>
      dsimp only
      have hm : c.manifest root = (c.manifests.get? root).getD .empty := rfl
      cases hg : c.manifests.get? root with
      | none =>
        rw [hg, Option.getD_none] at hm
        by_cases hi : isInterfacePath exist src source = true
        · simp [hi, Cache.at, interfaceOf, hm, Manifest.empty]
        · simp only [hi, Bool.false_eq_true, if_false]
          cases stripPrefix root source <;>
            simp [Cache.at, implementationOf, hm, Manifest.empty]
      | some m =>
        rw [hg, Option.getD_some] at hm
        by_cases hi : isInterfacePath exist src source = true
        · simp [hi, Cache.at, interfaceOf, hm]
        · simp only [hi, Bool.false_eq_true, if_false]
          cases stripPrefix root source <;> simp [Cache.at, implementationOf, hm]

theorem record_at (exist : Path → Bool) (src : Path) (c : Cache) (d : Desc) (h : Hash)
    (deps : List (Desc × Hash)) (k : Path × Option Path) :
    (c.record exist src d h deps).at k = if keyOf exist src d = some k then some h else c.at k := by
  unfold Cache.record keyOf
  cases sourceOfDesc exist src d with
  | none => simp
  | some source =>
    dsimp only
    have hcase : ∀ o : Option Path, o = none ∨ ∃ r, o = some r := by intro o; cases o <;> simp
    obtain hpr | ⟨root, hpr⟩ := hcase (packageRoot exist src source)
    · simp only [hpr]; simp
    · simp only [hpr]
      obtain ⟨r, ko⟩ := k
      by_cases hi : isInterfacePath exist src source = true
      · simp only [hi, if_true]
        cases ko with
        | none =>
          simp only [Cache.at, interfaceOf, Cache.manifest, AMap.get?_insert]
          by_cases e : r = root
          · simp [e]
          · have : ¬ root = r := fun e' => e e'.symm
            simp [e, this]
        | some k =>
          simp only [Cache.at, implementationOf, Cache.manifest, AMap.get?_insert]
          by_cases e : r = root
          · simp [e]
          · simp [e]
      · simp only [hi, Bool.false_eq_true, if_false]
        cases stripPrefix root source with
        | none =>
          cases ko with
          | none =>
            simp only [Cache.at, interfaceOf, Cache.manifest, AMap.get?_insert]
            by_cases e : r = root <;> simp [e]
          | some k =>
            simp only [Cache.at, implementationOf, Cache.manifest, AMap.get?_insert]
            by_cases e : r = root <;> simp [e]
        | some key =>
          cases ko with
          | none =>
            simp only [Cache.at, interfaceOf, Cache.manifest, AMap.get?_insert]
            by_cases e : r = root <;> simp [e]
          | some k =>
            simp only [Cache.at, implementationOf, Cache.manifest, AMap.get?_insert]
            by_cases e : r = root
            · subst e
              simp only [if_true, Option.getD_some, AMap.get?_insert, Option.map_some,
                Option.some.injEq, Prod.mk.injEq, true_and]
              by_cases e' : k = key
              · simp [e']
              · have : ¬ key = k := fun h => e' h.symm
                simp [e', this]
            · have : ¬ root = r := fun e' => e e'.symm
              simp [e, this]

theorem keyOf_source {exist : Path → Bool} {src : Path} {d : Desc} {k : Path × Option Path}
    (h : keyOf exist src d = some k) :
    sourceOfDesc exist src d = some (k.1 ++ (k.2.getD [interfaceFile])) := by
  unfold keyOf at h
  split at h
  · cases h
  · rename_i source hs
    split at h
    · cases h
    · rename_i root hr
      split at h
      · rename_i hi
        cases h
        rw [hs]
        simp only [Option.getD_none, Option.some.injEq]
        unfold isInterfacePath at hi
        rw [Bool.and_eq_true] at hi
        have hroot := hi.2
        unfold isRootFile at hroot
        unfold packageRoot at hr
        split at hr
        · cases hr
        · cases hr
          split at hroot
          · rename_i r hn
            rw [hn]
            exact of_decide_eq_true hroot
          · cases hroot
      · cases hk : stripPrefix root source with
        | none => rw [hk] at h; cases h
        | some key =>
          rw [hk] at h
          cases h
          rw [hs]
          simp only [Option.getD_some, Option.some.injEq]
          exact stripPrefix_iff.1 hk

theorem source_inj {exist exist' : Path → Bool} {src s : Path} {d d' : Desc} (hd : Proper d)
    (hd' : Proper d') (h : sourceOfDesc exist src d = some s)
    (h' : sourceOfDesc exist' src d' = some s) : d = d' := by
  obtain ⟨dir, last, rfl, hn, ha⟩ := hd
  obtain ⟨dir', last', rfl, hn', ha'⟩ := hd'
  rw [sourceOfDesc_name] at h h'
  have hs : s = packagePath src dir last ∨ s = filePath src dir last := by
    split at h
    · exact Or.inl (Option.some.inj h).symm
    · exact Or.inr (Option.some.inj h).symm
  have hs' : s = packagePath src dir' last' ∨ s = filePath src dir' last' := by
    split at h'
    · exact Or.inl (Option.some.inj h').symm
    · exact Or.inr (Option.some.inj h').symm
  rcases hs with hs | hs <;> rcases hs' with hs' | hs' <;> rw [hs] at hs'
  · obtain ⟨rfl, rfl⟩ := packagePath_inj hs'; rfl
  · obtain ⟨e1, e2⟩ := file_eq_package hs'.symm
    rcases ha' with ha' | ha'
    · rw [ha'] at e2; simp at e2
    · exact absurd e1 ha'
  · obtain ⟨e1, e2⟩ := file_eq_package hs'
    rcases ha with ha | ha
    · rw [ha] at e2; simp at e2
    · exact absurd e1 ha
  · obtain ⟨rfl, rfl⟩ := filePath_inj hs'; rfl

theorem keyOf_inj {exist exist' : Path → Bool} {src : Path} {d d' : Desc} (hd : Proper d)
    (hd' : Proper d') {k : Path × Option Path} (h : keyOf exist src d = some k)
    (h' : keyOf exist' src d' = some k) : d = d' :=
  source_inj hd hd' (keyOf_source h) (keyOf_source h')

/-! ### What a build records -/

/-- The build recorded the hash `h` of the module `d`: it checked it or skipped it. -/
def RecordedBy (src : Path) (r : Run) (old : Cache) (d : Desc) (h : Hash) : Prop :=
  r.project.hash d = some h ∧ d ∈ r.project.modules ∧
    (CheckedIn src r old d ∨ trySkip src r.project r.checkHashes old d = true)

theorem recordUnchanged_at {src : Path} {p : Project} {new : Cache} {d : Desc}
    {k : Path × Option Path} {h : Hash} (hk : (recordUnchanged src p new d).at k = some h) :
    (keyOf p.exist src d = some k ∧ p.hash d = some h) ∨ new.at k = some h := by
  unfold recordUnchanged at hk
  split at hk
  · exact Or.inr hk
  · rename_i h' hh
    rw [record_at] at hk
    split at hk
    · rename_i he
      cases hk
      exact Or.inl ⟨he, hh⟩
    · exact Or.inr hk

theorem insert_at {exist : Path → Bool} {src : Path} {c : Cache} {d : Desc} {st : Store}
    {o : Option Hash} {deps : List (Desc × Hash)} {k : Path × Option Path} {h : Hash}
    (hk : (c.insert exist src d st o deps).at k = some h) :
    (keyOf exist src d = some k ∧ o = some h) ∨ c.at k = some h := by
  unfold Cache.insert at hk
  cases o with
  | none => exact Or.inr hk
  | some h' =>
    have e : ∀ (x : Cache) (cs : AMap Desc Store), ({ x with certs := cs } : Cache).at k = x.at k := by
      intro x cs
      obtain ⟨r, ko⟩ := k
      cases ko <;> rfl
    dsimp only at hk
    rw [e, record_at] at hk
    split at hk
    · rename_i he
      cases hk
      exact Or.inl ⟨he, rfl⟩
    · exact Or.inr hk

theorem empty_at (k : Path × Option Path) : Cache.empty.at k = none := by
  obtain ⟨r, ko⟩ := k
  cases ko <;> rfl

theorem produced_at {src : Path} {r : Run} (hr : WorksOnLoaded r) {old : Cache}
    {k : Path × Option Path} {h : Hash} (hk : (r.produced src old).at k = some h) :
    ∃ d, keyOf r.project.exist src d = some k ∧ RecordedBy src r old d h := by
  unfold Run.produced at hk
  have key : ∀ (ws : List Work) (c : Cache), (∀ w ∈ ws, w ∈ r.work) →
      (ws.foldl (doWork src r.project r.checkHashes old) c).at k = some h →
      (∃ d, keyOf r.project.exist src d = some k ∧ RecordedBy src r old d h) ∨ c.at k = some h := by
    intro ws
    induction ws with
    | nil => intro c _ hc; exact Or.inr hc
    | cons w ws ih =>
      intro c hw hc
      rcases ih _ (fun x hx => hw x (by simp [hx])) hc with h1 | h1
      · exact Or.inl h1
      · have hwin := hw w (by simp)
        have hload := hr w hwin
        cases w with
        | module d good store =>
          rw [doWork] at h1
          split at h1
          · rename_i hskip
            rcases recordUnchanged_at h1 with ⟨h2, h3⟩ | h2
            · exact Or.inl ⟨d, h2, h3, hload, Or.inr hskip⟩
            · exact Or.inr h2
          · rename_i hskip
            rcases insert_at h1 with ⟨h2, h3⟩ | h2
            · cases good with
              | false => cases h3
              | true =>
                refine Or.inl ⟨d, h2, h3, hload, Or.inl (Or.inl ⟨store, hwin, ?_⟩)⟩
                simpa using hskip
            · exact Or.inr h2
        | interface d =>
          rw [doWork] at h1
          rcases recordUnchanged_at h1 with ⟨h2, h3⟩ | h2
          · exact Or.inl ⟨d, h2, h3, hload, Or.inl (Or.inr hwin)⟩
          · exact Or.inr h2
  rcases key r.work .empty (fun w hw => hw) hk with h1 | h1
  · exact h1
  · rw [empty_at] at h1; cases h1

theorem mergeMissing_at {c old : Cache} {k : Path × Option Path} {h : Hash}
    (hk : (c.mergeMissingManifests old).at k = some h) : c.at k = some h ∨ old.at k = some h := by
  obtain ⟨r, ko⟩ := k
  obtain ⟨h1, h2, _⟩ := Cache.manifest_mergeMissing c old r
  cases ko with
  | none =>
    simp only [Cache.at, interfaceOf] at hk ⊢
    rw [h1] at hk
    split at hk
    · rename_i hx
      rw [hx]; exact Or.inl hk
    · exact Or.inr hk
  | some k =>
    simp only [Cache.at, implementationOf] at hk ⊢
    rw [h2, get?_fillMissing] at hk
    split at hk
    · rename_i hx
      rw [hx]; exact Or.inl hk
    · exact Or.inr hk

theorem certs_at (x : Cache) (cs : AMap Desc Store) (k : Path × Option Path) :
    ({ x with certs := cs } : Cache).at k = x.at k := by
  obtain ⟨r, ko⟩ := k
  cases ko <;> rfl

theorem after_at {src : Path} {r : Run} (hr : WorksOnLoaded r) {old : Cache}
    {k : Path × Option Path} {h : Hash} (hk : (r.after src old).at k = some h) :
    (r.error = false ∧ ∃ d, keyOf r.project.exist src d = some k ∧ RecordedBy src r old d h) ∨
      old.at k = some h := by
  unfold Run.after at hk
  split at hk
  · exact Or.inr hk
  · rename_i he
    have he : r.error = false := by simpa using he
    split at hk
    · unfold Cache.saved at hk
      dsimp only at hk
      rw [certs_at] at hk
      split at hk
      · rcases mergeMissing_at hk with h1 | h1
        · exact Or.inl ⟨he, produced_at hr h1⟩
        · exact Or.inr h1
      · exact Or.inl ⟨he, produced_at hr hk⟩
    · unfold Cache.mergeCertificates at hk
      rcases mergeMissing_at hk with h1 | h1
      · rw [certs_at] at h1
        exact Or.inl ⟨he, produced_at hr h1⟩
      · exact Or.inr h1

theorem after_at_full {src : Path} {r : Run} (hr : WorksOnLoaded r) (hp : r.partialBuild = false)
    (hw : r.writeCache = true) (he : r.error = false) {old : Cache}
    {k : Path × Option Path} {h : Hash} (hk : (r.after src old).at k = some h) :
    ∃ d, keyOf r.project.exist src d = some k ∧ RecordedBy src r old d h := by
  unfold Run.after at hk
  rw [if_neg (by simp [he]), if_pos hw] at hk
  unfold Cache.saved at hk
  dsimp only at hk
  rw [certs_at, hp] at hk
  exact produced_at hr hk

theorem cacheAfter_snoc (src : Path) (runs : List Run) (r : Run) :
    cacheAfter src (runs ++ [r]) = r.after src (cacheAfter src runs) := by
  simp [cacheAfter, List.foldl_append]

theorem recorded_iff {src : Path} {p : Project} {old : Cache} {d : Desc} :
    p.recorded src old d = true ↔
      ∃ h k, p.hash d = some h ∧ keyOf p.exist src d = some k ∧ old.at k = some h := by
  unfold Project.recorded
  cases p.hash d with
  | none => simp
  | some h =>
    simp only [manifestMatches_iff, Option.some.injEq]
    constructor
    · rintro ⟨k, h1, h2⟩; exact ⟨h, k, rfl, h1, h2⟩
    · rintro ⟨h', k, rfl, h1, h2⟩; exact ⟨k, h1, h2⟩

theorem trySkip_iff {src : Path} {p : Project} (hp : WellLoaded p) {ch : Bool} {old : Cache}
    {d : Desc} (hd : d ∈ p.modules) :
    trySkip src p ch old d = true ↔ ch = true ∧ old.certs.contains d = true ∧
      ∀ x, Closure p d x → p.recorded src old x = true := by
  unfold trySkip
  simp only [Bool.and_eq_true, List.all_eq_true]
  obtain ⟨h1, h2⟩ := mem_allDependencies hp.imports hd
  constructor
  · rintro ⟨⟨⟨a, b⟩, c⟩, e⟩
    refine ⟨a, e, ?_⟩
    rintro x (rfl | hx)
    · exact b
    · rcases h1 x hx with rfl | hx
      · exact b
      · exact c x hx
  · rintro ⟨a, e, c⟩
    exact ⟨⟨⟨a, c d (Or.inl rfl)⟩, fun x hx => c x (Or.inr (h2 x hx))⟩, e⟩

/-- In a series of full builds everything recorded comes from one and the same build. -/
theorem full_one_run {src : Path} {runs : List Run} (hr : ∀ r ∈ runs, WorksOnLoaded r)
    (hp : ∀ r ∈ runs, r.partialBuild = false) (hw : ∀ r ∈ runs, r.writeCache = true) :
    (∀ k, (cacheAfter src runs).at k = none) ∨
    ∃ i r, runs[i]? = some r ∧ r.error = false ∧
      ∀ k h, (cacheAfter src runs).at k = some h →
        ∃ d, keyOf r.project.exist src d = some k ∧
          RecordedBy src r (cacheAfter src (runs.take i)) d h := by
  generalize hn : runs.length = n
  induction n generalizing runs with
  | zero =>
    left
    rw [List.length_eq_zero_iff.1 hn]
    exact empty_at
  | succ n ih =>
    have hne : runs ≠ [] := by rintro rfl; cases hn
    obtain ⟨rs, r, rfl⟩ : ∃ rs r, runs = rs ++ [r] :=
      ⟨_, _, (List.dropLast_concat_getLast hne).symm⟩
    have hlen : rs.length = n := by simpa using hn
    rw [cacheAfter_snoc]
    cases he : r.error with
    | true =>
      have e : r.after src (cacheAfter src rs) = cacheAfter src rs := by simp [Run.after, he]
      rw [e]
      rcases ih (fun x hx => hr x (by simp [hx])) (fun x hx => hp x (by simp [hx]))
        (fun x hx => hw x (by simp [hx])) hlen with h1 | ⟨i, q, h1, h2, h3⟩
      · exact Or.inl h1
      · have hi : i < rs.length := (List.getElem?_eq_some_iff.1 h1).1
        refine Or.inr ⟨i, q, by rw [List.getElem?_append_left hi]; exact h1, h2, ?_⟩
        rw [List.take_append_of_le_length (Nat.le_of_lt hi)]
        exact h3
    | false =>
      right
      refine ⟨rs.length, r, by simp, he, ?_⟩
      intro k h hk
      rw [List.take_append_of_le_length (Nat.le_refl _), List.take_length]
      exact after_at_full (hr r (by simp)) (hp r (by simp)) (hw r (by simp)) he hk

end Acorn.Build
