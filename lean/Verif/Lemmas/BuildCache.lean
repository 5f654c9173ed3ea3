import Verif.Spec.BuildCache
import Verif.Lemmas.ModulePaths
/-
Lemmas about the build cache and the disk.
-/
namespace Acorn.Build
open Spec Paths

/-! ### Maps -/

section Maps
variable {κ ν : Type} [DecidableEq κ]

theorem get?_mk_cons {e : κ × ν} {es : List (κ × ν)} (h : ((e :: es).map Prod.fst).Nodup)
    (h' : (es.map Prod.fst).Nodup) (k : κ) :
    (AMap.mk (e :: es) h).get? k = if k = e.1 then some e.2 else (AMap.mk es h').get? k := by
  simp only [AMap.get?, List.find?_cons]
  by_cases hk : k = e.1
  · subst hk; simp
  · have : (e.1 == k) = false := by simpa using fun h => hk h.symm
    rw [this, if_neg hk]

theorem get?_mk_none {es : List (κ × ν)} {h : (es.map Prod.fst).Nodup} {k : κ}
    (hk : k ∉ es.map Prod.fst) : (AMap.mk es h).get? k = none := by
  cases hg : (AMap.mk es h).get? k with
  | none => rfl
  | some v =>
    exact absurd (List.mem_map_of_mem (f := Prod.fst) (AMap.get?_eq_some.1 hg)) hk

/-- Inserting, for each entry of another map, a value computed from the present one. -/
theorem get?_foldl_insert {μ : Type} (F : Option ν → μ → ν) (es : List (κ × μ))
    (h : (es.map Prod.fst).Nodup) (m : AMap κ ν) (k : κ) :
    (es.foldl (fun m e => m.insert e.1 (F (m.get? e.1) e.2)) m).get? k =
      match (AMap.mk es h).get? k with
      | some v => some (F (m.get? k) v)
      | none => m.get? k := by
  induction es generalizing m with
  | nil => rfl
  | cons e es ih =>
    have hn : e.1 ∉ es.map Prod.fst ∧ (es.map Prod.fst).Nodup := by
      rw [List.map_cons, List.nodup_cons] at h; exact h
    rw [List.foldl_cons, ih hn.2, get?_mk_cons h hn.2]
    by_cases hk : k = e.1
    · subst hk
      rw [if_pos rfl, get?_mk_none hn.1, AMap.get?_insert, if_pos rfl]
    · rw [if_neg hk, AMap.get?_insert, if_neg hk]

theorem get?_insertAll (m o : AMap κ ν) (k : κ) :
    (insertAll m o).get? k = match o.get? k with | some v => some v | none => m.get? k :=
  get?_foldl_insert (fun _ v => v) o.entries o.nodup m k

theorem get?_fillMissing_aux (es : List (κ × ν)) (h : (es.map Prod.fst).Nodup) (m : AMap κ ν)
    (k : κ) :
    (es.foldl (fun m e => if m.contains e.1 then m else m.insert e.1 e.2) m).get? k =
      match m.get? k with | some v => some v | none => (AMap.mk es h).get? k := by
  induction es generalizing m with
  | nil =>
    have e : (AMap.mk ([] : List (κ × ν)) h).get? k = none := rfl
    rw [e, List.foldl_nil]
    cases m.get? k <;> rfl
  | cons e es ih =>
    have hn : e.1 ∉ es.map Prod.fst ∧ (es.map Prod.fst).Nodup := by
      rw [List.map_cons, List.nodup_cons] at h; exact h
    rw [List.foldl_cons, ih hn.2, get?_mk_cons h hn.2]
    by_cases hc : m.contains e.1
    · rw [if_pos hc]
      obtain ⟨v, hv⟩ := AMap.contains_iff.1 hc
      by_cases hk : k = e.1
      · subst hk; simp [hv]
      · simp [hk]
    · rw [if_neg hc, AMap.get?_insert]
      have hv : m.get? e.1 = none := by
        cases hg : m.get? e.1 with
        | none => rfl
        | some v => exact absurd (AMap.contains_iff.2 ⟨v, hg⟩) hc
      by_cases hk : k = e.1
      · subst hk; simp [hv]
      · simp [hk]

theorem get?_fillMissing (m o : AMap κ ν) (k : κ) :
    (fillMissing m o).get? k = match m.get? k with | some v => some v | none => o.get? k :=
  get?_fillMissing_aux o.entries o.nodup m k

theorem overrides_insertAll (m o : AMap κ ν) : Overrides (insertAll m o).get? o.get? m.get? := by
  intro k
  rw [get?_insertAll]
  exact ⟨fun v hv => by rw [hv], fun hv => by rw [hv]⟩

theorem overrides_fillMissing (m o : AMap κ ν) :
    Overrides (fillMissing m o).get? m.get? o.get? := by
  intro k
  rw [get?_fillMissing]
  exact ⟨fun v hv => by rw [hv], fun hv => by rw [hv]⟩

end Maps

/-! ### Manifests of merged caches -/

theorem Cache.manifest_mergeMissing (c old : Cache) (root : Path) :
    ((c.mergeMissingManifests old).manifest root).interface =
      (match (c.manifest root).interface with
        | some h => some h
        | none => (old.manifest root).interface) ∧
    (∀ k, ((c.mergeMissingManifests old).manifest root).implementation.get? k =
      (fillMissing (c.manifest root).implementation (old.manifest root).implementation).get? k) ∧
    (∀ k, ((c.mergeMissingManifests old).manifest root).dependencies.get? k =
      (fillMissing (c.manifest root).dependencies (old.manifest root).dependencies).get? k) := by
  have e : (c.mergeMissingManifests old).manifests.get? root =
      match old.manifests.get? root with
      | some v => some (((c.manifests.get? root).getD .empty).mergeMissing v)
      | none => c.manifests.get? root := by
    have := get?_foldl_insert (ν := Manifest) (μ := Manifest)
      (fun o m => (o.getD Manifest.empty).mergeMissing m) old.manifests.entries old.manifests.nodup
      c.manifests root
    rw [mergeMissingManifests]
    dsimp only
    rw [this]
    rcases old.manifests.get? root with _ | m <;> rfl
  simp only [manifest]
  rw [e]
  cases old.manifests.get? root with
  | some m =>
    refine ⟨?_, fun _ => rfl, fun _ => rfl⟩
    dsimp only [Option.getD_some, Manifest.mergeMissing]
    cases ((c.manifests.get? root).getD Manifest.empty).interface <;> rfl
  | none =>
    dsimp only [Option.getD_none]
    refine ⟨?_, fun k => ?_, fun k => ?_⟩
    · cases ((c.manifests.get? root).getD Manifest.empty).interface <;> rfl
    · rw [get?_fillMissing]
      split
      · assumption
      · assumption
    · rw [get?_fillMissing]
      split
      · assumption
      · assumption

theorem Cache.manifest_mergeUpdates (c other : Cache) (root : Path) :
    ((c.mergeUpdates other).manifest root).interface =
      (match (other.manifest root).interface with
        | some h => some h
        | none => (c.manifest root).interface) ∧
    (∀ k, ((c.mergeUpdates other).manifest root).implementation.get? k =
      (insertAll (c.manifest root).implementation (other.manifest root).implementation).get? k) ∧
    (∀ k, ((c.mergeUpdates other).manifest root).dependencies.get? k =
      (insertAll (c.manifest root).dependencies (other.manifest root).dependencies).get? k) := by
  have e : (c.mergeUpdates other).manifests.get? root =
      match other.manifests.get? root with
      | some v => some (((c.manifests.get? root).getD .empty).mergeUpdates v)
      | none => c.manifests.get? root := by
    have := get?_foldl_insert (ν := Manifest) (μ := Manifest)
      (fun o m => (o.getD Manifest.empty).mergeUpdates m) other.manifests.entries other.manifests.nodup
      c.manifests root
    rw [mergeUpdates]
    dsimp only
    rw [this]
    rcases other.manifests.get? root with _ | m <;> rfl
  simp only [manifest]
  rw [e]
  cases other.manifests.get? root with
  | some m =>
    refine ⟨?_, fun _ => rfl, fun _ => rfl⟩
    dsimp only [Option.getD_some, Manifest.mergeUpdates]
    cases m.interface <;> rfl
  | none =>
    refine ⟨rfl, fun k => ?_, fun k => ?_⟩
    · rw [get?_insertAll]; rfl
    · rw [get?_insertAll]; rfl

/-! ### The disk -/

/-- The operation writes only to files whose path is in `W`, and moves files only to paths outside
`W`. -/
def Op.Within (W : Path → Prop) : Op → Prop
  | .mkdir _ => True
  | .create p => W p
  | .put p _ => W p
  | .sync p => W p
  | .rename a b => W a ∧ ¬ W b
  | .remove _ => True

theorem upd_apply {α β : Type} [DecidableEq α] (f : α → β) (a : α) (b : β) (x : α) :
    upd f a b x = if x = a then b else f x := rfl

/-- Files are numbered below `next` and no two paths name one file. -/
structure Disk.Neat (s : Disk) : Prop where
  fresh : ∀ p i, s.names p = some i → i < s.next
  unique : ∀ p q i, s.names p = some i → s.names q = some i → p = q

/-- A file that is on stable storage and that no path in `W` names. -/
structure Disk.Frozen (W : Path → Prop) (s : Disk) (i : Nat) : Prop where
  old : i < s.next
  stable : s.stable i = true
  unnamed : ∀ w, W w → s.names w ≠ some i

theorem upd_same {α β : Type} [DecidableEq α] (f : α → β) (a : α) (b : β) : upd f a b a = b := by
  simp [upd]

theorem upd_ne {α β : Type} [DecidableEq α] (f : α → β) {a x : α} (b : β) (h : x ≠ a) :
    upd f a b x = f x := by
  simp [upd, h]

theorem Disk.Neat.step {s : Disk} (h : s.Neat) (o : Op) : (s.step o).Neat := by
  obtain ⟨h1, h2⟩ := h
  constructor
  · intro p i
    cases o <;> simp only [Disk.step] <;> (try split) <;> (try simp only [upd]) <;> grind
  · intro p q i
    cases o <;> simp only [Disk.step] <;> (try split) <;> (try simp only [upd]) <;> grind

theorem Disk.Neat.run {s : Disk} (h : s.Neat) (ops : List Op) : (s.run ops).Neat := by
  induction ops generalizing s with
  | nil => exact h
  | cons o ops ih => exact ih (h.step o)

/-- A frozen file stays as it is. -/
theorem Disk.Frozen.step {W : Path → Prop} {s : Disk} {i : Nat} (h : s.Frozen W i) {o : Op}
    (ho : o.Within W) : (s.step o).Frozen W i ∧ (s.step o).data i = s.data i := by
  obtain ⟨h1, h2, h3⟩ := h
  refine ⟨⟨?_, ?_, ?_⟩, ?_⟩
  · cases o <;> simp only [Disk.step, Op.Within] at * <;> (try split) <;> (try simp only [upd]) <;> grind
  · cases o <;> simp only [Disk.step, Op.Within] at * <;> (try split) <;> (try simp only [upd]) <;> grind
  · intro w hw
    cases o <;> simp only [Disk.step, Op.Within] at * <;> (try split) <;> (try simp only [upd]) <;> grind
  · cases o <;> simp only [Disk.step, Op.Within] at * <;> (try split) <;> (try simp only [upd]) <;> grind

theorem Disk.Frozen.run {W : Path → Prop} {i : Nat} {ops : List Op} (hops : ∀ o ∈ ops, o.Within W)
    {s : Disk} (h : s.Frozen W i) : (s.run ops).Frozen W i ∧ (s.run ops).data i = s.data i := by
  induction ops generalizing s with
  | nil => exact ⟨h, rfl⟩
  | cons o ops ih =>
    have h1 := h.step (hops o (by simp))
    have h2 := ih (fun o ho => hops o (by simp [ho])) h1.1
    exact ⟨h2.1, h2.2.trans h1.2⟩

theorem Disk.run_append (s : Disk) (a b : List Op) : s.run (a ++ b) = (s.run a).run b := by
  simp [Disk.run, List.foldl_append]

/-! ### Programs -/

/-- The property holds at every point of the program. -/
def Throughout (P : Disk → Prop) (ops : List Op) : Prop :=
  ∀ s, P s → ∀ k, P (s.run (ops.take k))

theorem Throughout.end' {P : Disk → Prop} {ops : List Op} (h : Throughout P ops) {s : Disk}
    (hs : P s) : P (s.run ops) := by
  have := h s hs ops.length
  rwa [List.take_length] at this

theorem Throughout.append {P : Disk → Prop} {a b : List Op} (ha : Throughout P a)
    (hb : Throughout P b) : Throughout P (a ++ b) := by
  intro s hs k
  rw [List.take_append, Disk.run_append]
  exact hb _ (ha s hs k) _

theorem Throughout.nil {P : Disk → Prop} : Throughout P [] := by
  intro s hs k
  simpa [Disk.run] using hs

theorem Throughout.flatMap {α : Type} {P : Disk → Prop} {f : α → List Op} {l : List α}
    (h : ∀ a ∈ l, Throughout P (f a)) : Throughout P (l.flatMap f) := by
  induction l with
  | nil => exact .nil
  | cons a l ih =>
    rw [List.flatMap_cons]
    exact (h a (by simp)).append (ih fun b hb => h b (by simp [hb]))

theorem Throughout.of_steps {P : Disk → Prop} {ops : List Op}
    (h : ∀ o ∈ ops, ∀ s, P s → P (s.step o)) : Throughout P ops := by
  induction ops with
  | nil => exact .nil
  | cons o ops ih =>
    have h1 : Throughout P [o] := by
      intro s hs k
      cases k with
      | zero => simpa [Disk.run] using hs
      | succ k => simpa [Disk.run] using h o (by simp) s hs
    exact h1.append (ih fun o ho => h o (by simp [ho]))

/-- The operation does not change what is read at `q`. -/
def Op.Avoids (q : Path) : Op → Prop
  | .mkdir _ => True
  | .create p => p ≠ q
  | .put p _ => p ≠ q
  | .sync _ => True
  | .rename a b => a ≠ q ∧ b ≠ q
  | .remove p => p ≠ q

theorem Disk.read_avoid {s : Disk} (h : s.Neat) {q : Path} {o : Op} (ho : o.Avoids q) :
    (s.step o).read q = s.read q := by
  obtain ⟨h1, h2⟩ := h
  unfold Disk.read
  cases hq : s.names q with
  | none =>
    have : (s.step o).names q = none := by
      cases o <;> simp only [Disk.step, Op.Avoids] at * <;> (try split) <;>
        (try simp only [upd]) <;> grind
    rw [this]; rfl
  | some i =>
    have e1 : (s.step o).names q = some i := by
      cases o <;> simp only [Disk.step, Op.Avoids] at * <;> (try split) <;>
        (try simp only [upd]) <;> grind
    have e2 : (s.step o).data i = s.data i := by
      cases o <;> simp only [Disk.step, Op.Avoids] at * <;> (try split) <;>
        (try simp only [upd]) <;> grind
    rw [e1, Option.map_some, e2, Option.map_some]

/-- Every file named outside `W` is on stable storage. -/
def Disk.Stab (W : Path → Prop) (s : Disk) : Prop :=
  ∀ q i, ¬ W q → s.names q = some i → s.stable i = true

theorem Disk.Stab.step {W : Path → Prop} {s : Disk} (h : s.Stab W) (hn : s.Neat) {o : Op}
    (ho : o.Within W) (hr : ∀ a b i, o = .rename a b → s.names a = some i → s.stable i = true) :
    (s.step o).Stab W := by
  obtain ⟨h1, h2⟩ := hn
  intro q i hq
  have h := h q
  cases o <;> simp only [Disk.step, Op.Within] at * <;> (try split) <;>
    (try simp only [upd]) <;> grind

/-- What stays true at every point of a save: `V` is the set of possible contents of `q`. -/
structure Inv (W : Path → Prop) (q : Path) (V : Option (List Char) → Prop) (s : Disk) : Prop where
  neat : s.Neat
  stab : s.Stab W
  read : V (s.read q)

theorem Inv.step {W : Path → Prop} {q : Path} {V : Option (List Char) → Prop} {s : Disk}
    (h : Inv W q V s) {o : Op} (ho : o.Within W) (ha : o.Avoids q)
    (hr : ∀ a b, o ≠ .rename a b) : Inv W q V (s.step o) := by
  refine ⟨h.neat.step o, h.stab.step h.neat ho fun a b i e => absurd e (hr a b), ?_⟩
  rw [Disk.read_avoid h.neat ha]
  exact h.read

theorem Disk.read_create (s : Disk) (p : Path) : (s.step (.create p)).read p = some [] := by
  simp only [Disk.step, Disk.read]
  split
  · rename_i i hi
    simp [hi, upd]
  · simp [upd]

theorem Disk.read_puts {s : Disk} {p : Path} {d : List Char} (h : s.read p = some d)
    (bs : List Char) : (s.run (bs.map (.put p))).read p = some (d ++ bs) := by
  induction bs generalizing s d with
  | nil => simpa [Disk.run] using h
  | cons b bs ih =>
    have h1 : (s.step (.put p b)).read p = some (d ++ [b]) := by
      simp only [Disk.step, Disk.read] at h ⊢
      cases hn : s.names p with
      | none => rw [hn] at h; cases h
      | some i =>
        rw [hn] at h
        simp only [Option.map_some, Option.some.injEq] at h
        simp [hn, upd, h]
    have := ih h1
    rw [List.append_assoc] at this
    exact this

theorem Disk.run_cons (s : Disk) (o : Op) (ops : List Op) :
    s.run (o :: ops) = (s.step o).run ops := rfl

/-- The operations of a manifest save before the final rename. -/
def savePre (root : Path) (json : List Char) : List Op :=
  [.mkdir (root ++ [certsDir]), .create (tmpPath root)] ++
    (json ++ ['\n']).map (.put (tmpPath root)) ++ [.sync (tmpPath root)]

theorem saveManifestOps_eq (root : Path) (json : List Char) :
    saveManifestOps root json =
      savePre root json ++ [.rename (tmpPath root) (manifestPath root)] := by
  simp [saveManifestOps, savePre]

/-- Before the rename the temporary file holds the whole text, and is on stable storage. -/
theorem savePre_spec (s : Disk) (root : Path) (json : List Char) :
    (s.run (savePre root json)).read (tmpPath root) = some (json ++ ['\n']) ∧
    ∀ i, (s.run (savePre root json)).names (tmpPath root) = some i →
      (s.run (savePre root json)).stable i = true := by
  have e : s.run (savePre root json) =
      (((s.step (.create (tmpPath root))).run ((json ++ ['\n']).map (.put (tmpPath root)))).step
        (.sync (tmpPath root))) := by
    rw [savePre, Disk.run_append, List.cons_append, Disk.run_cons, List.cons_append,
      Disk.run_cons, List.nil_append]
    rfl
  rw [e]
  have h1 := Disk.read_puts (s.read_create (tmpPath root)) (json ++ ['\n'])
  rw [List.nil_append] at h1
  generalize (s.step (.create (tmpPath root))).run ((json ++ ['\n']).map (.put (tmpPath root))) = t
    at h1
  constructor
  · simp only [Disk.step]
    split
    · exact h1
    · exact h1
  · intro i hi
    simp only [Disk.step] at hi ⊢
    split at hi
    · rename_i j hj
      simp only at hi
      rw [hi] at hj
      cases hj
      exact upd_same _ _ _
    · rename_i hj
      rw [hj] at hi; cases hi

theorem manifestPath_inj {r r' : Path} (h : manifestPath r = manifestPath r') : r = r' :=
  (List.append_inj' h rfl).1

theorem tmpPath_inj {r r' : Path} (h : tmpPath r = tmpPath r') : r = r' :=
  (List.append_inj' h rfl).1

theorem tmp_ne_manifest (r r' : Path) : tmpPath r ≠ manifestPath r' := by
  intro h
  have := (List.append_inj' h rfl).2
  revert this
  decide

theorem certOfDesc_last {exist : Path → Bool} {src c : Path} {d : Desc}
    (h : certOfDesc exist src d = some c) : ∃ dir stem, c = dir ++ [stem ++ jsonl] := by
  cases d with
  | anonymous => cases h
  | name parts =>
    simp only [certOfDesc] at h
    split at h
    · cases h
    · split at h
      · cases h
      · rename_i source _ _
        simp only [certOfSource] at h
        split at h
        · cases h
        · rename_i f dir _
          cases h
          exact ⟨dir.reverse ++ [certsDir], fileStem f, by simp⟩
  | file p =>
    simp only [certOfDesc] at h
    split at h
    · cases h
    · rename_i f hf
      split at h
      · cases h
        obtain ⟨dir, rfl⟩ := List.getLast?_eq_some_iff.1 hf
        exact ⟨dir, fileStem f, by simp [withJsonl]⟩
      · cases h

theorem cert_ne_manifest {exist : Path → Bool} {src c : Path} {d : Desc}
    (h : certOfDesc exist src d = some c) (r : Path) : c ≠ manifestPath r := by
  obtain ⟨dir, stem, rfl⟩ := certOfDesc_last h
  intro e
  rw [manifestPath, show ∀ (a b : Part), [a, b] = [a] ++ [b] from fun _ _ => rfl,
    ← List.append_assoc] at e
  have := (List.append_inj' e rfl).2
  simp only [List.cons.injEq, and_true] at this
  have := congrArg List.reverse this
  simp [jsonl] at this

theorem cert_ne_tmp {exist : Path → Bool} {src c : Path} {d : Desc}
    (h : certOfDesc exist src d = some c) (r : Path) : c ≠ tmpPath r := by
  obtain ⟨dir, stem, rfl⟩ := certOfDesc_last h
  intro e
  rw [tmpPath, show ∀ (a b : Part), [a, b] = [a] ++ [b] from fun _ _ => rfl,
    ← List.append_assoc] at e
  have := (List.append_inj' e rfl).2
  simp only [List.cons.injEq, and_true] at this
  have := congrArg List.reverse this
  simp [jsonl] at this

/-- Paths that are written in place: certificates and temporary files. -/
def InPlace (exist : Path → Bool) (src : Path) (p : Path) : Prop :=
  (∃ d, certOfDesc exist src d = some p) ∨ ∃ r, p = tmpPath r

theorem manifest_not_inPlace {exist : Path → Bool} {src : Path} (r : Path) :
    ¬ InPlace exist src (manifestPath r) := by
  rintro (⟨d, hd⟩ | ⟨r', e⟩)
  · exact cert_ne_manifest hd r rfl
  · exact tmp_ne_manifest r' r e.symm

theorem savePre_ops {root : Path} {json : List Char} {o : Op} (h : o ∈ savePre root json) :
    (∃ p, o = .mkdir p) ∨ o = .create (tmpPath root) ∨ (∃ b, o = .put (tmpPath root) b) ∨
      o = .sync (tmpPath root) := by
  simp only [savePre, List.cons_append, List.nil_append, List.mem_cons, List.mem_append,
    List.mem_map, List.not_mem_nil, or_false] at h
  rcases h with rfl | rfl | ⟨b, _, rfl⟩ | rfl
  · exact Or.inl ⟨_, rfl⟩
  · exact Or.inr (Or.inl rfl)
  · exact Or.inr (Or.inr (Or.inl ⟨b, rfl⟩))
  · exact Or.inr (Or.inr (Or.inr rfl))

/-- One manifest save, seen from any path that is not written in place. -/
theorem throughout_saveManifest {exist : Path → Bool} {src q root : Path} {json : List Char}
    {V : Option (List Char) → Prop} (hq : ¬ InPlace exist src q)
    (hV : q = manifestPath root → V (some (json ++ ['\n']))) :
    Throughout (Inv (InPlace exist src) q V) (saveManifestOps root json) := by
  have htq : tmpPath root ≠ q := fun e => hq (Or.inr ⟨root, e.symm⟩)
  have hpre : Throughout (Inv (InPlace exist src) q V) (savePre root json) := by
    apply Throughout.of_steps
    intro o ho s hs
    have hw : InPlace exist src (tmpPath root) := Or.inr ⟨root, rfl⟩
    rcases savePre_ops ho with ⟨p, rfl⟩ | rfl | ⟨b, rfl⟩ | rfl
    · exact hs
    · exact hs.step hw htq (by simp)
    · exact hs.step hw htq (by simp)
    · exact hs.step hw trivial (by simp)
  intro s hs k
  rw [saveManifestOps_eq, List.take_append, Disk.run_append]
  have h1 := hpre s hs k
  by_cases hk : k ≤ (savePre root json).length
  · rw [show k - (savePre root json).length = 0 by omega]
    exact h1
  · rw [List.take_of_length_le (by omega)] at h1 ⊢
    rw [List.take_of_length_le (by simp; omega)]
    obtain ⟨h2, h3⟩ := savePre_spec s root json
    generalize s.run (savePre root json) = t at h1 h2 h3
    rw [show t.run [Op.rename (tmpPath root) (manifestPath root)] =
      t.step (.rename (tmpPath root) (manifestPath root)) from rfl]
    have hwi : Op.Within (InPlace exist src) (.rename (tmpPath root) (manifestPath root)) :=
      ⟨Or.inr ⟨root, rfl⟩, manifest_not_inPlace root⟩
    refine ⟨h1.neat.step _, h1.stab.step h1.neat hwi ?_, ?_⟩
    · intro a b i e hn
      cases e
      exact h3 i hn
    · by_cases e : q = manifestPath root
      · have : (t.step (.rename (tmpPath root) (manifestPath root))).read q = t.read (tmpPath root) := by
          subst e
          simp only [Disk.read, Disk.step]
          rw [upd_ne _ _ (fun e => htq e.symm), upd_same]
        rw [this, h2]
        exact hV e
      · have ha : Op.Avoids q (.rename (tmpPath root) (manifestPath root)) :=
          ⟨htq, fun e' => e e'.symm⟩
        rw [Disk.read_avoid h1.neat ha]
        exact h1.read

/-- One certificate save, seen from any path that is not written in place. -/
theorem throughout_saveStore {exist : Path → Bool} {src q c : Path} {st : Store} {d : Desc}
    {V : Option (List Char) → Prop} (hq : ¬ InPlace exist src q)
    (hc : certOfDesc exist src d = some c) :
    Throughout (Inv (InPlace exist src) q V) (.mkdir c.dropLast :: saveStoreOps c st) := by
  have hw : InPlace exist src c := Or.inl ⟨d, hc⟩
  have hcq : c ≠ q := fun e => hq (e ▸ hw)
  apply Throughout.of_steps
  intro o ho s hs
  simp only [saveStoreOps, List.mem_cons, List.mem_map] at ho
  rcases ho with rfl | rfl | ⟨b, _, rfl⟩
  · exact hs
  · exact hs.step hw hcq (by simp)
  · exact hs.step hw hcq (by simp)

/-- The cache whose manifests `save_merging_old` writes. -/
def writing (c old : Cache) (preserve : Bool) : Cache :=
  if preserve then c.mergeMissingManifests old else c

theorem throughout_saveOps {exist : Path → Bool} {src q : Path} {render : Manifest → List Char}
    {present : Path → Bool} {c old : Cache} {preserve : Bool} {V : Option (List Char) → Prop}
    (hq : ¬ InPlace exist src q)
    (hnew : ∀ root m, (writing c old preserve).manifests.get? root = some m → m.isEmpty = false →
      q = manifestPath root → V (some (render m ++ ['\n'])))
    (hold : preserve = false → ∀ root, old.manifests.contains root = true →
      c.manifests.contains root = false → q = manifestPath root → V none) :
    Throughout (Inv (InPlace exist src) q V) (saveOps exist src render present c old preserve) := by
  unfold saveOps
  refine ((Throughout.flatMap ?_).append (Throughout.flatMap ?_)).append ?_
  · intro e _
    split
    · exact .nil
    · rename_i path hp
      exact throughout_saveStore hq hp
  · intro e he
    split
    · exact .nil
    · rename_i hm
      refine throughout_saveManifest hq fun hqe => ?_
      exact hnew e.1 e.2 (AMap.get?_eq_some.2 he) (by simpa using hm) hqe
  · cases preserve with
    | true => exact .nil
    | false =>
      refine Throughout.flatMap ?_
      intro e he
      simp only [Bool.false_eq_true, if_false]
      split
      · exact .nil
      · rename_i hc
        split
        · apply Throughout.of_steps
          intro o ho s hs
          rw [List.mem_singleton.1 ho]
          refine ⟨hs.neat.step _, hs.stab.step hs.neat trivial (by simp), ?_⟩
          by_cases hqe : q = manifestPath e.1
          · have : (s.step (.remove (manifestPath e.1))).read q = none := by
              simp [Disk.read, Disk.step, hqe, upd]
            rw [this]
            exact hold rfl e.1 (AMap.contains_iff.2 ⟨e.2, AMap.get?_eq_some.2 he⟩)
              (by simpa using hc) hqe
          · have ha : Op.Avoids q (.remove (manifestPath e.1)) := fun e' => hqe e'.symm
            rw [Disk.read_avoid hs.neat ha]
            exact hs.read
        · exact .nil

theorem saveOps_within {exist : Path → Bool} {src : Path} {render : Manifest → List Char}
    {present : Path → Bool} {c old : Cache} {preserve : Bool} :
    ∀ o ∈ saveOps exist src render present c old preserve, o.Within (InPlace exist src) := by
  intro o ho
  simp only [saveOps, List.mem_append, List.mem_flatMap] at ho
  rcases ho with (⟨e, _, ho⟩ | ⟨e, _, ho⟩) | ho
  · split at ho
    · cases ho
    · rename_i path hp
      have hw : InPlace exist src path := Or.inl ⟨e.1, hp⟩
      simp only [saveStoreOps, List.mem_cons, List.mem_map] at ho
      rcases ho with rfl | rfl | ⟨b, _, rfl⟩
      · trivial
      · exact hw
      · exact hw
  · split at ho
    · cases ho
    · have hw : InPlace exist src (tmpPath e.1) := Or.inr ⟨e.1, rfl⟩
      rw [saveManifestOps_eq, List.mem_append] at ho
      rcases ho with ho | ho
      · rcases savePre_ops ho with ⟨p, rfl⟩ | rfl | ⟨b, rfl⟩ | rfl
        · trivial
        · exact hw
        · exact hw
        · exact hw
      · rw [List.mem_singleton.1 ho]
        exact ⟨hw, manifest_not_inPlace e.1⟩
  · split at ho
    · cases ho
    · simp only [List.mem_flatMap] at ho
      obtain ⟨e, _, ho⟩ := ho
      split at ho
      · cases ho
      · split at ho
        · rw [List.mem_singleton.1 ho]; trivial
        · cases ho

/-- What can be read after a crash is what the program itself would have read at some point. -/
theorem afterCrash_read {W : Path → Prop} {s : Disk} {ops : List Op} {q : Path}
    (hq : ¬ W q) (hops : ∀ o ∈ ops, o.Within W) {V : Option (List Char) → Prop}
    (hV : Throughout (Inv W q V) ops) (hs : Inv W q V s) {cc : Option (List Char)}
    (h : AfterCrash s ops q cc) : V cc := by
  obtain ⟨k₁, k₂, hk, _, hr⟩ := h
  have h1 := hV s hs k₁
  unfold MayRead at hr
  split at hr
  · rename_i hn
    have := h1.read
    rw [Disk.read, hn] at this
    rw [hr]; exact this
  · rename_i i hn
    obtain ⟨d, rfl, hd⟩ := hr
    have hf : (s.run (ops.take k₁)).Frozen W i := by
      refine ⟨h1.neat.fresh q i hn, h1.stab q i hq hn, ?_⟩
      intro w hw e
      exact hq (h1.neat.unique q w i hn e ▸ hw)
    have e : ops.take k₂ = ops.take k₁ ++ (ops.drop k₁).take (k₂ - k₁) := by
      rw [← List.take_add, Nat.add_sub_cancel' hk]
    rw [e, Disk.run_append] at hd
    have h2 := hf.run (ops := (ops.drop k₁).take (k₂ - k₁)) (fun o ho =>
      hops o (List.mem_of_mem_drop (List.mem_of_mem_take ho)))
    have := hd h2.1.stable
    rw [this, h2.2]
    have h3 := h1.read
    rw [Disk.read, hn] at h3
    exact h3

/-! ### A complete save -/

theorem Disk.read_run_avoid {s : Disk} (h : s.Neat) {q : Path} {ops : List Op}
    (ha : ∀ o ∈ ops, o.Avoids q) : (s.run ops).read q = s.read q := by
  induction ops generalizing s with
  | nil => rfl
  | cons o ops ih =>
    rw [Disk.run_cons, ih (h.step o) fun o ho => ha o (by simp [ho]),
      Disk.read_avoid h (ha o (by simp))]

/-- The last part of a program that touches `q` decides what is read there. -/
theorem Disk.read_flatMap {α : Type} {f : α → List Op} {l : List α} {q : Path} {a : α}
    (hl : l.Nodup) (ha : a ∈ l) (hav : ∀ b ∈ l, b ≠ a → ∀ o ∈ f b, o.Avoids q)
    {v : Option (List Char)} (hf : ∀ s : Disk, s.Neat → (s.run (f a)).read q = v) {s : Disk}
    (hs : s.Neat) : (s.run (l.flatMap f)).read q = v := by
  induction l generalizing s with
  | nil => cases ha
  | cons b l ih =>
    rw [List.flatMap_cons, Disk.run_append]
    rw [List.nodup_cons] at hl
    by_cases e : a = b
    · subst e
      rw [Disk.read_run_avoid (hs.run _), hf s hs]
      intro o ho
      rw [List.mem_flatMap] at ho
      obtain ⟨x, hx, ho⟩ := ho
      exact hav x (by simp [hx]) (fun e => hl.1 (e ▸ hx)) o ho
    · have ha' : a ∈ l := by
        rcases List.mem_cons.1 ha with h | h
        · exact absurd h e
        · exact h
      exact ih hl.2 ha' (fun x hx => hav x (by simp [hx])) (hs.run _)

theorem AMap_entries_nodup {κ ν : Type} (m : AMap κ ν) : m.entries.Nodup :=
  by
    have := m.nodup
    rw [List.nodup_iff_pairwise_ne, List.pairwise_map] at this
    rw [List.nodup_iff_pairwise_ne]
    refine this.imp ?_
    intro a b h e
    exact h (congrArg Prod.fst e)

theorem saveStore_read (s : Disk) (c : Path) (st : Store) :
    (s.run (.mkdir c.dropLast :: saveStoreOps c st)).read c = some (storeText st) := by
  rw [Disk.run_cons, saveStoreOps, Disk.run_cons]
  have := Disk.read_puts ((s.step (.mkdir c.dropLast)).read_create c) (storeText st)
  rwa [List.nil_append] at this

theorem saveManifest_read {s : Disk} (root : Path) (json : List Char) :
    (s.run (saveManifestOps root json)).read (manifestPath root) = some (json ++ ['\n']) := by
  rw [saveManifestOps_eq, Disk.run_append]
  obtain ⟨h2, _⟩ := savePre_spec s root json
  generalize s.run (savePre root json) = t at h2
  rw [show t.run [Op.rename (tmpPath root) (manifestPath root)] =
      t.step (.rename (tmpPath root) (manifestPath root)) from rfl]
  rw [← h2]
  simp only [Disk.read, Disk.step]
  rw [upd_ne _ _ (tmp_ne_manifest root root).symm, upd_same]

theorem saveManifest_avoids {root q : Path} {json : List Char} (h1 : tmpPath root ≠ q)
    (h2 : manifestPath root ≠ q) : ∀ o ∈ saveManifestOps root json, o.Avoids q := by
  intro o ho
  rw [saveManifestOps_eq, List.mem_append] at ho
  rcases ho with ho | ho
  · rcases savePre_ops ho with ⟨p, rfl⟩ | rfl | ⟨b, rfl⟩ | rfl
    · trivial
    · exact h1
    · exact h1
    · trivial
  · rw [List.mem_singleton.1 ho]
    exact ⟨h1, h2⟩

theorem saveStore_avoids {c q : Path} {st : Store} (h : c ≠ q) :
    ∀ o ∈ (.mkdir c.dropLast :: saveStoreOps c st : List Op), o.Avoids q := by
  intro o ho
  simp only [saveStoreOps, List.mem_cons, List.mem_map] at ho
  rcases ho with rfl | rfl | ⟨b, _, rfl⟩
  · trivial
  · exact h
  · exact h

end Acorn.Build
