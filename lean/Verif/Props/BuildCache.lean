import Verif.Lemmas.BuildCache
/-
C36: build cache merging loses nothing, and manifests are saved atomically.
-/
namespace Acorn
open Spec Paths Build

/-- Merging the results of a worker: the worker's entries win, everything else is kept.  This holds
for certificates, interface hashes, implementation hashes and dependency hashes. -/
theorem C36_merge_updates (c other : Cache) :
    Overrides (c.mergeUpdates other).certs.get? other.certs.get? c.certs.get? ∧
    Overrides (interfaceOf (c.mergeUpdates other)) (interfaceOf other) (interfaceOf c) ∧
    (∀ root, Overrides (implementationOf (c.mergeUpdates other) root) (implementationOf other root)
      (implementationOf c root)) ∧
    (∀ root, Overrides (dependencyOf (c.mergeUpdates other) root) (dependencyOf other root)
      (dependencyOf c root)) := by
  refine ⟨overrides_insertAll _ _, fun root => ?_, fun root k => ?_, fun root k => ?_⟩
  · obtain ⟨h, _, _⟩ := Cache.manifest_mergeUpdates c other root
    simp only [interfaceOf, h]
    exact ⟨fun v hv => by rw [hv], fun hv => by rw [hv]⟩
  · obtain ⟨_, h, _⟩ := Cache.manifest_mergeUpdates c other root
    simp only [implementationOf, h]
    exact overrides_insertAll _ _ k
  · obtain ⟨_, _, h⟩ := Cache.manifest_mergeUpdates c other root
    simp only [dependencyOf, h]
    exact overrides_insertAll _ _ k

/-- Keeping a cache in memory over an old one: the new entries win, everything else is kept. -/
theorem C36_merge_certificates (c old : Cache) :
    Overrides (c.mergeCertificates old).certs.get? c.certs.get? old.certs.get? ∧
    Overrides (interfaceOf (c.mergeCertificates old)) (interfaceOf c) (interfaceOf old) ∧
    (∀ root, Overrides (implementationOf (c.mergeCertificates old) root) (implementationOf c root)
      (implementationOf old root)) ∧
    (∀ root, Overrides (dependencyOf (c.mergeCertificates old) root) (dependencyOf c root)
      (dependencyOf old root)) := by
  have e : ∀ root, (c.mergeCertificates old).manifest root =
    (c.mergeMissingManifests old).manifest root := fun _ => rfl
  refine ⟨overrides_fillMissing _ _, fun root => ?_, fun root k => ?_, fun root k => ?_⟩
  · obtain ⟨h, _, _⟩ := Cache.manifest_mergeMissing c old root
    simp only [interfaceOf, e, h]
    exact ⟨fun v hv => by rw [hv], fun hv => by rw [hv]⟩
  · obtain ⟨_, h, _⟩ := Cache.manifest_mergeMissing c old root
    simp only [implementationOf, e, h]
    exact overrides_fillMissing _ _ k
  · obtain ⟨_, _, h⟩ := Cache.manifest_mergeMissing c old root
    simp only [dependencyOf, e, h]
    exact overrides_fillMissing _ _ k

/-- After a save the cache in memory has the new certificates, and the old ones for all other
modules.  After a partial build the manifests are merged in the same way; after a full build only
the new ones are kept. -/
theorem C36_saved (c old : Cache) (preserve : Bool) :
    Overrides (c.saved old preserve).certs.get? c.certs.get? old.certs.get? ∧
    (preserve = true →
      Overrides (interfaceOf (c.saved old preserve)) (interfaceOf c) (interfaceOf old) ∧
      (∀ root, Overrides (implementationOf (c.saved old preserve) root) (implementationOf c root)
        (implementationOf old root)) ∧
      (∀ root, Overrides (dependencyOf (c.saved old preserve) root) (dependencyOf c root)
        (dependencyOf old root))) ∧
    (preserve = false → (c.saved old preserve).manifests = c.manifests) := by
  refine ⟨?_, ?_, ?_⟩
  · cases preserve <;> exact overrides_fillMissing _ _
  · rintro rfl
    exact (C36_merge_certificates c old).2
  · rintro rfl
    rfl

/-- Whatever the point at which power fails during a save, and whatever was not yet written out, the
manifest of a package reads as it did before, or as the whole new text; or, after a full build that
no longer has the package, as absent. -/
theorem C36_manifest_atomic {exist : Path → Bool} {src : Path} {render : Manifest → List Char}
    {present : Path → Bool} {c old : Cache} {preserve : Bool} {s : Disk} (hs : Disk.Settled s)
    (root : Path) {found : Option (List Char)}
    (h : AfterCrash s (saveOps exist src render present c old preserve) (manifestPath root) found) :
    found = s.read (manifestPath root) ∨
    (∃ m, (writing c old preserve).manifests.get? root = some m ∧ m.isEmpty = false ∧
      found = some (render m ++ ['\n'])) ∨
    (found = none ∧ preserve = false ∧ old.manifests.contains root = true ∧
      c.manifests.contains root = false) := by
  refine afterCrash_read (manifest_not_inPlace root) saveOps_within
    (V := fun found => found = s.read (manifestPath root) ∨
      (∃ m, (writing c old preserve).manifests.get? root = some m ∧ m.isEmpty = false ∧
        found = some (render m ++ ['\n'])) ∨
      (found = none ∧ preserve = false ∧ old.manifests.contains root = true ∧
        c.manifests.contains root = false))
    (throughout_saveOps (manifest_not_inPlace root) ?_ ?_)
    ⟨⟨hs.fresh, hs.unique⟩, fun q i _ hq => hs.stable q i hq, Or.inl rfl⟩ h
  · intro r m hm he hr
    rw [← manifestPath_inj hr] at hm
    exact Or.inr (Or.inl ⟨m, hm, he, rfl⟩)
  · intro hp r ho hc hr
    rw [← manifestPath_inj hr] at ho hc
    exact Or.inr (Or.inr ⟨rfl, hp, ho, hc⟩)

/-- A save or a crash during one leaves every file alone that is not a manifest, a temporary file
beside one, or a certificate file. -/
theorem C36_elsewhere {exist : Path → Bool} {src : Path} {render : Manifest → List Char}
    {present : Path → Bool} {c old : Cache} {preserve : Bool} {s : Disk} (hs : Disk.Settled s)
    {q : Path} (hq : ∀ d, certOfDesc exist src d ≠ some q) (ht : ∀ r, q ≠ tmpPath r)
    (hm : ∀ r, q ≠ manifestPath r) {found : Option (List Char)}
    (h : AfterCrash s (saveOps exist src render present c old preserve) q found) :
    found = s.read q := by
  have hn : ¬ InPlace exist src q := by
    rintro (⟨d, hd⟩ | ⟨r, hr⟩)
    · exact hq d hd
    · exact ht r hr
  exact afterCrash_read hn saveOps_within (V := fun found => found = s.read q)
    (throughout_saveOps hn (fun r _ _ _ hr => absurd hr (hm r))
      (fun _ r _ _ hr => absurd hr (hm r)))
    ⟨⟨hs.fresh, hs.unique⟩, fun q i _ hq => hs.stable q i hq, rfl⟩ h

/-- A save that is not interrupted writes every manifest. -/
theorem C36_manifest_written {exist : Path → Bool} {src : Path} {render : Manifest → List Char}
    {present : Path → Bool} {c old : Cache} {preserve : Bool} {s : Disk} (hs : Disk.Settled s)
    {root : Path} {m : Manifest}
    (hm : (writing c old preserve).manifests.get? root = some m) (he : m.isEmpty = false) :
    (s.run (saveOps exist src render present c old preserve)).read (manifestPath root) =
      some (render m ++ ['\n']) := by
  have hn : s.Neat := ⟨hs.fresh, hs.unique⟩
  unfold saveOps
  rw [Disk.run_append, Disk.run_append]
  rw [Disk.read_run_avoid ((hn.run _).run _)]
  · refine Disk.read_flatMap (a := (root, m)) (AMap_entries_nodup _) (AMap.get?_eq_some.1 hm) ?_ ?_
      (hn.run _)
    · intro e hmem hne o ho
      split at ho
      · cases ho
      · refine saveManifest_avoids (tmp_ne_manifest _ _) ?_ o ho
        intro e'
        have := manifestPath_inj e'
        obtain ⟨r, m'⟩ := e
        dsimp only at this
        subst this
        have h1 := AMap.get?_eq_some.2 hmem
        have h2 : (writing c old preserve).manifests.get? r = some m' := h1
        rw [hm] at h2
        cases h2
        exact hne rfl
    · intro t _
      simp only [he, Bool.false_eq_true, if_false]
      exact saveManifest_read root _
  · intro o ho
    split at ho
    · cases ho
    · rename_i hp
      rw [List.mem_flatMap] at ho
      obtain ⟨e, _, ho⟩ := ho
      split at ho
      · cases ho
      · rename_i hc
        split at ho
        · rw [List.mem_singleton.1 ho]
          intro e'
          have := manifestPath_inj e'
          rw [this] at hc
          rw [writing, if_neg hp] at hm
          exact hc (AMap.contains_iff.2 ⟨m, hm⟩)
        · cases ho

/-- A save that is not interrupted writes the certificates of every module of the new cache, if no
other module of the cache has the same certificate file (`C37_cert_distinct`). -/
theorem C36_certificates_written {exist : Path → Bool} {src : Path} {render : Manifest → List Char}
    {present : Path → Bool} {c old : Cache} {preserve : Bool} {s : Disk} (hs : Disk.Settled s)
    {d : Desc} {st : Store} {path : Path} (hd : c.certs.get? d = some st)
    (hp : certOfDesc exist src d = some path)
    (hu : ∀ d', c.certs.contains d' = true → certOfDesc exist src d' = some path → d' = d) :
    (s.run (saveOps exist src render present c old preserve)).read path = some (storeText st) := by
  have hn : s.Neat := ⟨hs.fresh, hs.unique⟩
  have hcerts : (if preserve then c.mergeMissingManifests old else c).certs = c.certs := by
    cases preserve <;> rfl
  unfold saveOps
  dsimp only
  rw [hcerts, Disk.run_append, Disk.run_append, Disk.read_run_avoid ((hn.run _).run _),
    Disk.read_run_avoid (hn.run _)]
  · refine Disk.read_flatMap (a := (d, st)) (AMap_entries_nodup _) (AMap.get?_eq_some.1 hd) ?_ ?_ hn
    · intro e hmem hne o ho
      split at ho
      · cases ho
      · rename_i path' hp'
        refine saveStore_avoids ?_ o ho
        rintro rfl
        obtain ⟨d', st'⟩ := e
        have hg := AMap.get?_eq_some.2 hmem
        have := hu d' (AMap.contains_iff.2 ⟨st', hg⟩) hp'
        subst this
        rw [hd] at hg
        cases hg
        exact hne rfl
    · intro t _
      simp only [hp]
      exact saveStore_read t path st
  · intro o ho
    rw [List.mem_flatMap] at ho
    obtain ⟨e, _, ho⟩ := ho
    split at ho
    · cases ho
    · exact saveManifest_avoids (fun e' => cert_ne_tmp hp _ e'.symm)
        (fun e' => cert_ne_manifest hp _ e'.symm) o ho
  · intro o ho
    split at ho
    · cases ho
    · rw [List.mem_flatMap] at ho
      obtain ⟨e, _, ho⟩ := ho
      split at ho
      · cases ho
      · split at ho
        · rw [List.mem_singleton.1 ho]
          exact fun e' => cert_ne_manifest hp _ e'.symm
        · cases ho

/-! ### The hypotheses are met, and certificates are not saved atomically -/

private def nat : Desc := .ofName "nat".toList
private def natCerts : Path := ["src".toList, "certs".toList, "nat.jsonl".toList]
private def rootManifest : Path := manifestPath ["src".toList]

/-- A disk with an old certificate file and an old manifest. -/
private def before : Disk where
  names p := if p = natCerts then some 0 else if p = rootManifest then some 1 else none
  data i := if i = 0 then "old proof\n".toList else "old manifest\n".toList
  stable _ := true
  next := 2

private theorem before_settled : Disk.Settled before := by
  constructor
  · intro p i h
    simp only [before] at h ⊢
    split at h
    · cases h; decide
    · split at h
      · cases h; decide
      · cases h
  · intro p q i h h'
    simp only [before] at h h'
    grind
  · intro p i _
    rfl

/-- The new cache: the module `nat` was verified with new content. -/
private def rebuilt : Cache :=
  Cache.empty.insert (fun _ => false) ["src".toList] nat ["new proof".toList] (some 7) []

private def text : Manifest → List Char := fun _ => "new manifest".toList

private def ops : List Op :=
  saveOps (fun _ => false) ["src".toList] text (fun _ => true) rebuilt .empty true

example : (before.run ops).read natCerts = some "new proof\n".toList := by decide +kernel

example : (before.run ops).read rootManifest = some "new manifest\n".toList := by decide +kernel

example : rebuilt.manifestMatches (fun _ => false) ["src".toList] nat 7 = true := by decide +kernel

/-- Half way through, the manifest still reads as before. -/
example : (before.run (ops.take 20)).read rootManifest = some "old manifest\n".toList := by
  decide +kernel

/-- Certificate files are written in place: a crash can leave part of the new text and nothing of
the old.  (Only the manifest is claimed to be atomic.) -/
theorem C36_certificates_not_atomic :
    AfterCrash before ops natCerts (some "new".toList) ∧
    before.read natCerts = some "old proof\n".toList ∧
    (before.run ops).read natCerts = some "new proof\n".toList := by
  refine ⟨⟨5, 5, Nat.le_refl _, by decide +kernel, ?_⟩, by decide +kernel, by decide +kernel⟩
  have e : (before.run (ops.take 5)).names natCerts = some 0 := by decide +kernel
  unfold MayRead
  rw [e]
  exact ⟨_, rfl, fun _ => by decide +kernel⟩

example : Disk.Settled before := before_settled

end Acorn
