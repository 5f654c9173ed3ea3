import Verif.Spec.PackagedLibrary

/-
Lemmas for C62: writing a file, removing files, and the invariants of the processes.
-/

namespace Acorn.Packaged

theorem child_set (es : Entries) (c d : String) (u : Node) :
    (es.set c u).child d = if d = c then some u else es.child d := by
  match es with
  | .nil =>
    simp only [Entries.set, Entries.child]
    by_cases h : d = c
    · simp [h]
    · simp [h, Ne.symm h]
  | .cons n t es =>
    have ih := child_set es c d u
    simp only [Entries.set]
    by_cases h : n = c
    · subst h
      simp only [if_true, Entries.child]
      by_cases h2 : n = d
      · simp [h2]
      · simp [h2, Ne.symm h2]
    · simp only [h, if_false, Entries.child, ih]
      by_cases h2 : n = d
      · subst h2; simp [h]
      · simp [h2]

theorem set_set (es : Entries) (c : String) (u v : Node) : (es.set c u).set c v = es.set c v := by
  match es with
  | .nil => simp [Entries.set]
  | .cons n t es =>
    have ih := set_set es c u v
    simp only [Entries.set]
    by_cases h : n = c
    · simp [h, Entries.set]
    · simp [h, Entries.set, ih]

theorem writeAt_again {p : List String} {s s' : String} {t u : Node} (h : writeAt p s t = some u) :
    writeAt p s' u = writeAt p s' t := by
  induction p generalizing t u with
  | nil =>
    cases t with
    | file _ => simp only [writeAt, Option.some.injEq] at h; subst h; rfl
    | dir _ => simp [writeAt] at h
  | cons c p ih =>
    cases t with
    | file _ => simp [writeAt] at h
    | dir es =>
      simp only [writeAt] at h ⊢
      cases hc : es.child c with
      | some t =>
        simp only [hc, Option.map_eq_some_iff] at h
        obtain ⟨u', hu', rfl⟩ := h
        simp only [writeAt, child_set, if_true, ih hu', set_set]
      | none =>
        simp only [hc] at h
        split at h
        · rename_i hp
          subst hp
          cases h
          simp [writeAt, child_set, set_set]
        · cases h

theorem fileAt_writeAt {p : List String} {s : String} {t u : Node} (h : writeAt p s t = some u) (q : List String) :
    fileAt q u = if q = p then some s else fileAt q t := by
  induction p generalizing t u q with
  | nil =>
    cases t with
    | file _ =>
      simp only [writeAt, Option.some.injEq] at h
      subst h
      cases q <;> simp [fileAt, nodeAt]
    | dir _ => simp [writeAt] at h
  | cons c p ih =>
    cases t with
    | file _ => simp [writeAt] at h
    | dir es =>
      simp only [writeAt] at h
      cases hc : es.child c with
      | some t =>
        simp only [hc, Option.map_eq_some_iff] at h
        obtain ⟨u', hu', rfl⟩ := h
        cases q with
        | nil => simp [fileAt, nodeAt]
        | cons d r =>
          by_cases hd : d = c
          · subst hd
            have := ih hu' r
            simp only [fileAt, nodeAt, child_set, if_true, Option.bind_some, hc, List.cons.injEq, true_and] at this ⊢
            exact this
          · simp [fileAt, nodeAt, child_set, hd]
      | none =>
        simp only [hc] at h
        split at h
        · rename_i hp
          subst hp
          cases h
          cases q with
          | nil => simp [fileAt, nodeAt]
          | cons d r =>
            by_cases hd : d = c
            · subst hd
              cases r <;> simp [fileAt, nodeAt, child_set, hc]
            · simp [fileAt, nodeAt, child_set, hd]
        · cases h

/-- Writing the metadata leaves `src` alone. -/
theorem src_writeAt {s : String} {t u : Node} (h : writeAt metaPath s t = some u) :
    nodeAt ["acornlib", "src"] u = nodeAt ["acornlib", "src"] t := by
  cases t with
  | file _ => simp [metaPath, writeAt] at h
  | dir es =>
    simp only [metaPath, writeAt] at h
    cases hc : es.child "acornlib" with
    | none => simp [hc] at h
    | some t =>
      simp only [hc, Option.map_eq_some_iff] at h
      obtain ⟨u', hu', rfl⟩ := h
      simp only [nodeAt, child_set, if_true, hc, Option.bind_some]
      cases t with
      | file _ => simp [writeAt] at hu'
      | dir fs =>
        simp only [writeAt] at hu'
        have hne : ¬ ("src" : String) = ".acornlib-cache.json" := by decide
        cases hm : fs.child ".acornlib-cache.json" with
        | some m =>
          simp only [hm, Option.map_eq_some_iff] at hu'
          obtain ⟨m', -, rfl⟩ := hu'
          simp only [nodeAt, child_set, hne, if_false]
        | none =>
          simp only [hm, if_true, Option.some.injEq] at hu'
          subst hu'
          simp only [nodeAt, child_set, hne, if_false]

theorem layout_writeAt {s : String} {t u : Node} (h : writeAt metaPath s t = some u) : layoutOk u = layoutOk t := by
  simp only [layoutOk, src_writeAt h, fileAt_writeAt h]
  rw [if_neg (by decide)]

/-- The library as a process leaves it. -/
def Installed (A : Archive) (t : Node) : Prop := writeAt metaPath (metaText A) A.tree = some t

theorem installed_whole {A : Archive} {t : Node} (h : Installed A t) : Spec.Whole A t := by
  refine ⟨fun p hp => ?_, ?_⟩
  · rw [fileAt_writeAt h, if_neg hp]
  · rw [fileAt_writeAt h, if_pos rfl]; rfl

theorem installed_accepted {A : Archive} {t : Node} (hr : Spec.Reads A) (h : Installed A t)
    (hl : layoutOk A.tree = true) : accepted A t = true := by
  simp only [accepted, layout_writeAt h, hl, Bool.true_and, metaOk, fileAt_writeAt h, if_true, metaText]
  exact decide_eq_true hr

/-! ### Removing -/

theorem child_prune (keep : List String → Bool) (pre : List String) (es : Entries) (c : String) :
    (es.prune keep pre).child c =
      if keep (pre ++ [c]) then (es.child c).map (Node.prune keep (pre ++ [c])) else none := by
  match es with
  | .nil => simp [Entries.prune, Entries.child]
  | .cons n t es =>
    have ih := child_prune keep pre es c
    simp only [Entries.prune]
    by_cases hn : n = c
    · subst hn
      by_cases hk : keep (pre ++ [n]) = true
      · simp [hk, Entries.child]
      · simp [hk, ih]
    · by_cases hk : keep (pre ++ [n]) = true
      · simp [hk, Entries.child, hn, ih]
      · simp [hk, Entries.child, hn, ih]

theorem nodeAt_prune {keep : List String → Bool} {p pre : List String} {t u : Node}
    (h : nodeAt p (t.prune keep pre) = some u) : ∃ u' pre', nodeAt p t = some u' ∧ u = u'.prune keep pre' := by
  induction p generalizing t pre with
  | nil =>
    simp only [nodeAt, Option.some.injEq] at h
    exact ⟨t, pre, rfl, h.symm⟩
  | cons c p ih =>
    cases t with
    | file _ => simp [Node.prune, nodeAt] at h
    | dir es =>
      simp only [Node.prune, nodeAt, child_prune] at h
      split at h
      · cases hc : es.child c with
        | none => simp [hc] at h
        | some t =>
          simp only [hc, Option.map_some, Option.bind_some] at h
          obtain ⟨u', pre', h1, h2⟩ := ih h
          exact ⟨u', pre', by simp [nodeAt, hc, h1], h2⟩
      · simp at h

theorem fileAt_prune {keep : List String → Bool} {p pre : List String} {t : Node} {s : String}
    (h : fileAt p (t.prune keep pre) = some s) : fileAt p t = some s := by
  unfold fileAt at h
  split at h
  · rename_i s' hn
    obtain ⟨u', pre', h1, h2⟩ := nodeAt_prune hn
    cases u' with
    | file x =>
      simp only [Node.prune, Node.file.injEq] at h2
      subst h2
      cases h
      simp [fileAt, h1]
    | dir _ => simp [Node.prune] at h2
  · cases h

theorem isDir_prune (keep : List String → Bool) (pre : List String) (t : Node) :
    (t.prune keep pre).isDir = t.isDir := by
  cases t <;> rfl

mutual
  theorem manifest_prune (keep : List String → Bool) (pre : List String) (t : Node)
      (h : (t.prune keep pre).hasManifest = true) : t.hasManifest = true := by
    match t with
    | .file _ => simpa [Node.prune] using h
    | .dir es =>
      simp only [Node.prune, Node.hasManifest] at h ⊢
      exact anyManifest_prune keep pre es h

  theorem anyManifest_prune (keep : List String → Bool) (pre : List String) (es : Entries)
      (h : (es.prune keep pre).anyManifest = true) : es.anyManifest = true := by
    match es with
    | .nil => simpa [Entries.prune] using h
    | .cons n t es =>
      have ih1 := manifest_prune keep (pre ++ [n]) t
      have ih2 := anyManifest_prune keep pre es
      simp only [Entries.prune] at h
      simp only [Entries.anyManifest, Bool.or_eq_true, Bool.and_eq_true]
      split at h
      · simp only [Entries.anyManifest, Bool.or_eq_true, Bool.and_eq_true, isDir_prune] at h
        rcases h with ⟨hd, ⟨hn, hf⟩ | hm⟩ | hr
        · refine .inl ⟨hd, .inl ⟨hn, ?_⟩⟩
          rw [Option.isSome_iff_exists] at hf ⊢
          obtain ⟨s, hs⟩ := hf
          exact ⟨s, fileAt_prune hs⟩
        · exact .inl ⟨hd, .inr (ih1 hm)⟩
        · exact .inr (ih2 hr)
      · exact .inr (ih2 h)
end

theorem accepted_prune {A : Archive} {keep : List String → Bool} {pre : List String} {t : Node}
    (h : accepted A (t.prune keep pre) = true) : accepted A t = true := by
  simp only [accepted, layoutOk, metaOk, Bool.and_eq_true] at h ⊢
  obtain ⟨⟨h1, h2⟩, h3⟩ := h
  refine ⟨⟨?_, ?_⟩, ?_⟩
  · rw [Option.isSome_iff_exists] at h1 ⊢
    obtain ⟨s, hs⟩ := h1
    exact ⟨s, fileAt_prune hs⟩
  · split at h2
    · rename_i u hu
      obtain ⟨u', pre', e1, e2⟩ := nodeAt_prune hu
      subst e2
      simp only [Bool.and_eq_true, isDir_prune] at h2
      simp only [e1, Bool.and_eq_true]
      exact ⟨h2.1, manifest_prune _ _ _ h2.2⟩
    · cases h2
  · split at h3
    · rename_i s hs
      simp only [fileAt_prune hs]
      exact h3
    · cases h3

end Acorn.Packaged
