import Verif.Spec.ModulePaths
/-
Lemmas about module names and paths.
-/
namespace Acorn.Paths
open Spec

theorem validPart_iff {s : Part} : validPart s = true ↔ IsPart s := by
  cases s with
  | nil => simp [validPart, IsPart]
  | cons c cs =>
    simp only [validPart, isLower, Bool.and_eq_true, decide_eq_true_eq, List.all_eq_true,
      isPartChar, Bool.or_eq_true, beq_iff_eq, IsPart]
    constructor
    · rintro ⟨h, h'⟩
      refine ⟨⟨c, cs, rfl, h⟩, fun x hx => ?_⟩
      have := h' x hx
      grind
    · rintro ⟨⟨c', cs', e, h⟩, h'⟩
      cases e
      refine ⟨h, fun x hx => ?_⟩
      have := h' x hx
      grind

theorem _root_.Acorn.Spec.IsPart.noDot {s : Part} (h : IsPart s) : '.' ∉ s := by
  intro hd
  have := h.2 '.' hd
  revert this
  decide

theorem _root_.Acorn.Spec.IsPart.ne_nil {s : Part} (h : IsPart s) : s ≠ [] := by
  rintro rfl
  obtain ⟨⟨c, cs, e, _⟩, _⟩ := h
  cases e

theorem splitDots_ne (s : List Char) : splitDots s ≠ [] := by
  cases s with
  | nil => simp [splitDots]
  | cons c cs =>
    rw [splitDots]
    split
    · simp
    · split <;> simp

theorem splitDots_part {p : Part} (h : '.' ∉ p) : splitDots p = [p] := by
  induction p with
  | nil => rfl
  | cons c cs ih =>
    rw [List.mem_cons, not_or] at h
    rw [splitDots, if_neg (fun e => h.1 e.symm), ih h.2]

theorem splitDots_dot {p : Part} (h : '.' ∉ p) (s : List Char) :
    splitDots (p ++ '.' :: s) = p :: splitDots s := by
  induction p with
  | nil => simp [splitDots]
  | cons c cs ih =>
    rw [List.mem_cons, not_or] at h
    rw [List.cons_append, splitDots, if_neg (fun e => h.1 e.symm), ih h.2]

theorem splitDots_join {ps : List Part} (h : ∀ p ∈ ps, '.' ∉ p) (hne : ps ≠ []) :
    splitDots (joinDots ps) = ps := by
  induction ps with
  | nil => exact absurd rfl hne
  | cons p ps ih =>
    cases ps with
    | nil => rw [joinDots, splitDots_part (h p (by simp))]
    | cons q ps =>
      rw [joinDots, splitDots_dot (h p (by simp)),
        ih (fun x hx => h x (List.mem_cons_of_mem _ hx)) (by simp)]

theorem _root_.Acorn.Spec.IsName.noDot {dir : List Part} {last : Part} (h : IsName dir last) :
    ∀ p ∈ dir ++ [last], '.' ∉ p := by
  intro p hp
  rcases List.mem_append.1 hp with hp | hp
  · exact (h.dir p hp).noDot
  · rw [List.mem_singleton.1 hp]; exact h.last.noDot

theorem pathLoop_name (exist : Path → Bool) (src : Path) {dir : List Part} {last : Part}
    (h : IsName dir last) :
    pathLoop exist src (dir ++ [last]) =
      if exist (packagePath src dir last) then
        if exist (filePath src dir last) then
          .error (.ambiguous (filePath src dir last) (packagePath src dir last))
        else .ok (packagePath src dir last)
      else .ok (filePath src dir last) := by
  induction dir generalizing src with
  | nil =>
    simp only [List.nil_append, pathLoop, validPart_iff.2 h.last, if_true, filePath, packagePath,
      List.append_nil]
    rfl
  | cons p ps ih =>
    have hp := validPart_iff.2 (h.dir p (by simp))
    have h' : IsName ps last := ⟨fun x hx => h.dir x (by simp [hx]), h.last⟩
    have e : pathLoop exist src (p :: ps ++ [last]) = pathLoop exist (src ++ [p]) (ps ++ [last]) := by
      cases ps <;> simp [pathLoop, hp]
    rw [e, ih (src ++ [p]) h']
    simp [filePath, packagePath]

theorem pathFromDesc_name (exist : Path → Bool) (src : Path) {dir : List Part} {last : Part}
    (h : IsName dir last) :
    pathFromDesc exist src (.name (dir ++ [last])) =
      if exist (packagePath src dir last) then
        if exist (filePath src dir last) then
          .error (.ambiguous (filePath src dir last) (packagePath src dir last))
        else .ok (packagePath src dir last)
      else .ok (filePath src dir last) := by
  rw [pathFromDesc, pathFromModuleName, splitDots_join h.noDot (by simp), pathLoop_name _ _ h]

theorem pathLoop_ok {exist : Path → Bool} {src p : Path} {parts : List Part}
    (h : pathLoop exist src parts = .ok p) : ∃ dir last, parts = dir ++ [last] ∧ IsName dir last := by
  induction parts generalizing src with
  | nil => cases h
  | cons a ps ih =>
    cases ps with
    | nil =>
      simp only [pathLoop] at h
      split at h
      · rename_i hv
        exact ⟨[], a, rfl, by simp, validPart_iff.1 hv⟩
      · cases h
    | cons b ps =>
      simp only [pathLoop] at h
      split at h
      · rename_i hv
        obtain ⟨dir, last, e, hn⟩ := ih h
        refine ⟨a :: dir, last, by simp [e], ?_, hn.last⟩
        intro x hx
        rcases List.mem_cons.1 hx with rfl | hx
        · exact validPart_iff.1 hv
        · exact hn.dir x hx
      · cases h

theorem stripPrefix_iff {a p r : Path} : stripPrefix a p = some r ↔ p = a ++ r := by
  induction a generalizing p with
  | nil => simp [stripPrefix]
  | cons x xs ih =>
    cases p with
    | nil => simp [stripPrefix]
    | cons y ys =>
      rw [stripPrefix]
      split
      · rename_i e; subst e; rw [ih]; simp
      · rename_i e
        simp only [List.cons_append, List.cons.injEq, reduceCtorEq, false_iff, not_and]
        intro e'; exact absurd e'.symm e

theorem stripPrefix_append (a r : Path) : stripPrefix a (a ++ r) = some r := stripPrefix_iff.2 rfl

theorem stripSuffix_append (x s : List Char) : stripSuffix x (s ++ x) = some s := by
  simp [stripSuffix]

theorem stripSuffix_some {x s t : List Char} (h : stripSuffix x s = some t) : s = t ++ x := by
  unfold stripSuffix at h
  split at h
  · rename_i e
    cases h
    conv => lhs; rw [← List.take_append_drop (s.length - x.length) s, e]
  · cases h

theorem rootLoop_some {exist : Path → Bool} {src : Path} {l : List Part} {r : Path}
    (h : rootLoop exist src l = some r) : r ≠ src ∧ exist (r ++ [interfaceFile]) = true := by
  induction l with
  | nil =>
    rw [rootLoop] at h
    split at h
    · cases h
    · rename_i hs
      split at h
      · rename_i he
        cases h
        exact ⟨fun e => hs e.symm, he⟩
      · cases h
  | cons d ds ih =>
    rw [rootLoop] at h
    split at h
    · cases h
    · rename_i hs
      split at h
      · rename_i he
        cases h
        exact ⟨hs, he⟩
      · exact ih h

theorem rootLoop_here {exist : Path → Bool} {src : Path} {l : List Part}
    (hs : l.reverse ≠ src) (he : exist (l.reverse ++ [interfaceFile]) = true) :
    rootLoop exist src l = some l.reverse := by
  cases l with
  | nil =>
    rw [rootLoop, if_neg (fun e => hs (by simp [e]))]
    simp only [List.reverse_nil, List.nil_append] at he
    simp [he]
  | cons d ds => rw [rootLoop, if_neg hs, if_pos he]

/-- The test whether a path is the interface file of its nearest package root. -/
theorem isRoot_iff {exist : Path → Bool} {src path : Path} :
    isRootFile exist src path = true ↔
    ∃ d, path = d ++ [interfaceFile] ∧ d ≠ src ∧ exist path = true := by
  unfold isRootFile
  constructor
  · intro h
    split at h
    · rename_i r hr
      have e := of_decide_eq_true h
      refine ⟨r, e, ?_⟩
      unfold nearestRoot at hr
      split at hr
      · cases hr
      · have := rootLoop_some hr
        rw [← e] at this
        exact this
    · cases h
  · rintro ⟨d, rfl, hd, he⟩
    have : nearestRoot exist src (d ++ [interfaceFile]) = some d := by
      unfold nearestRoot
      simp only [List.reverse_append, List.reverse_cons, List.reverse_nil, List.nil_append,
        List.cons_append]
      have := rootLoop_here (exist := exist) (src := src) (l := d.reverse)
        (by simpa using hd) (by simpa using he)
      simpa using this
    rw [this]
    simp

theorem descLoop_append {root : Bool} {dir : List Part} (h : ∀ p ∈ dir, IsPart p) (f : Part) :
    descLoop root (dir ++ [f]) =
      match descLoop root [f] with
      | .ok rest => .ok (dir ++ rest)
      | .error e => .error e := by
  induction dir with
  | nil => simp only [List.nil_append]; split <;> simp_all
  | cons p ps ih =>
    have hp := validPart_iff.2 (h p (by simp))
    have ih := ih (fun x hx => h x (by simp [hx]))
    have e : ∃ q qs, ps ++ [f] = q :: qs := by
      cases ps <;> simp
    obtain ⟨q, qs, e⟩ := e
    have e' : descLoop root (p :: q :: qs) =
        if validPart p then
          match descLoop root (q :: qs) with
          | .ok rest => .ok (p :: rest)
          | .error e => .error e
        else .error .badPart := rfl
    rw [List.cons_append, e, e', if_pos hp, ← e, ih]
    cases descLoop root [f] <;> simp

/-- Everything the loop accepts: valid directories, and a file that is an interface or a valid
stem followed by `.ac`. -/
theorem descLoop_ok {root : Bool} {rel parts : List Part} (h : descLoop root rel = .ok parts)
    (hne : rel ≠ []) :
    (∃ dir, rel = dir ++ [interfaceFile] ∧ root = true ∧ parts = dir ∧ ∀ p ∈ dir, IsPart p) ∨
    (∃ dir last, rel = dir ++ [last ++ ac] ∧ parts = dir ++ [last] ∧ IsName dir last ∧
      ¬ (last ++ ac = interfaceFile ∧ root = true)) := by
  induction rel generalizing parts with
  | nil => exact absurd rfl hne
  | cons p ps ih =>
    cases ps with
    | nil =>
      simp only [descLoop] at h
      split at h
      · cases h
      · rename_i stem hs
        have e := stripSuffix_some hs
        split at h
        · rename_i hi
          simp only [Bool.and_eq_true, decide_eq_true_eq] at hi
          cases h
          exact Or.inl ⟨[], by simp [hi.1], hi.2, rfl, by simp⟩
        · rename_i hi
          simp only [Bool.and_eq_true, decide_eq_true_eq] at hi
          split at h
          · rename_i hv
            cases h
            refine Or.inr ⟨[], stem, by simp [e], rfl, ⟨by simp, validPart_iff.1 hv⟩, ?_⟩
            rw [← e]
            exact hi
          · cases h
    | cons q ps =>
      simp only [descLoop] at h
      split at h
      · rename_i hv
        split at h
        · rename_i rest hr
          cases h
          rcases ih hr (by simp) with ⟨dir, e, hroot, rfl, hd⟩ | ⟨dir, last, e, rfl, hd, hn⟩
          · refine Or.inl ⟨p :: rest, by simp [e], hroot, rfl, ?_⟩
            intro x hx
            rcases List.mem_cons.1 hx with rfl | hx
            · exact validPart_iff.1 hv
            · exact hd x hx
          · refine Or.inr ⟨p :: dir, last, by simp [e], rfl, ⟨?_, hd.last⟩, hn⟩
            intro x hx
            rcases List.mem_cons.1 hx with rfl | hx
            · exact validPart_iff.1 hv
            · exact hd.dir x hx
        · cases h
      · cases h

theorem ac_interface {last : Part} : last ++ ac = interfaceFile ↔ last = interfacePart := by
  have : interfaceFile = interfacePart ++ ac := rfl
  rw [this, List.append_left_inj]

/-- The file path of a name goes back to the name, unless the file is a package interface. -/
theorem descFromPath_file {exist : Path → Bool} {src : Path} {dir : List Part} {last : Part}
    (h : IsName dir last) (ha : ¬ (last = interfacePart ∧ dir ≠ [] ∧
      exist (filePath src dir last) = true)) :
    descFromPath exist src (filePath src dir last) = .ok (.name (dir ++ [last])) := by
  have e : filePath src dir last = src ++ (dir ++ [last ++ ac]) := by
    rw [filePath, List.append_assoc]; rfl
  have hroot : ¬ (last ++ ac = interfaceFile ∧
      isRootFile exist src (filePath src dir last) = true) := by
    rintro ⟨h1, h2⟩
    obtain ⟨d, e', hd, he⟩ := isRoot_iff.1 h2
    refine ha ⟨ac_interface.1 h1, ?_, he⟩
    rintro rfl
    rw [e, h1] at e'
    simp only [List.nil_append, List.append_left_inj] at e'
    exact hd e'.symm
  unfold descFromPath
  rw [show stripPrefix src (filePath src dir last) = some (dir ++ [last ++ ac]) by
    rw [e, stripPrefix_append]]
  simp only
  rw [descLoop_append h.dir]
  simp only [descLoop, stripSuffix_append]
  have hroot' : ¬ ((decide (last ++ ac = interfaceFile) &&
      isRootFile exist src (filePath src dir last)) = true) := by
    rw [Bool.and_eq_true, decide_eq_true_eq]; exact hroot
  rw [if_neg hroot', if_pos (validPart_iff.2 h.last)]

/-- An existing package interface goes back to the package's name. -/
theorem descFromPath_package {exist : Path → Bool} {src : Path} {dir : List Part} {last : Part}
    (h : IsName dir last) (he : exist (packagePath src dir last) = true) :
    descFromPath exist src (packagePath src dir last) = .ok (.name (dir ++ [last])) := by
  have e : packagePath src dir last = src ++ ((dir ++ [last]) ++ [interfaceFile]) := by
    simp only [packagePath, List.append_assoc]; rfl
  have hroot : isRootFile exist src (packagePath src dir last) = true :=
    isRoot_iff.2 ⟨src ++ (dir ++ [last]), by rw [e]; simp, by simp, he⟩
  unfold descFromPath
  rw [show stripPrefix src (packagePath src dir last) = some ((dir ++ [last]) ++ [interfaceFile]) by
    rw [e, stripPrefix_append]]
  simp only
  rw [hroot, descLoop_append (dir := dir ++ [last]) (by
    intro p hp
    rcases List.mem_append.1 hp with hp | hp
    · exact h.dir p hp
    · rw [List.mem_singleton.1 hp]; exact h.last)]
  have : stripSuffix ac interfaceFile = some interfacePart := by decide
  simp [descLoop, this]

/-- Every existing path that some name leads to has a name. -/
theorem descFromPath_of_name {exist : Path → Bool} {src p : Path} {ps : List Part}
    (h : pathFromDesc exist src (.name ps) = .ok p) (he : exist p = true) :
    ∃ dir last, IsName dir last ∧ descFromPath exist src p = .ok (.name (dir ++ [last])) := by
  rw [pathFromDesc, pathFromModuleName] at h
  obtain ⟨dir, last, e, hn⟩ := pathLoop_ok h
  rw [e, pathLoop_name _ _ hn] at h
  split at h
  · split at h
    · cases h
    · cases h
      exact ⟨dir, last, hn, descFromPath_package hn he⟩
  · cases h
    by_cases ha : last = interfacePart ∧ dir ≠ []
    · obtain ⟨rfl, hne⟩ := ha
      obtain ⟨d', l', rfl⟩ : ∃ d' l', dir = d' ++ [l'] :=
        ⟨_, _, (List.dropLast_concat_getLast hne).symm⟩
      have hn' : IsName d' l' :=
        ⟨fun x hx => hn.dir x (by simp [hx]), hn.dir l' (by simp)⟩
      have ep : filePath src (d' ++ [l']) interfacePart = packagePath src d' l' := by
        simp [filePath, packagePath]; rfl
      rw [ep] at he ⊢
      exact ⟨d', l', hn', descFromPath_package hn' he⟩
    · exact ⟨dir, last, hn, descFromPath_file hn (fun h => ha ⟨h.1, h.2.1⟩)⟩

theorem filePath_inj {src : Path} {d d' : List Part} {l l' : Part}
    (h : filePath src d l = filePath src d' l') : d = d' ∧ l = l' := by
  unfold filePath at h
  have := List.append_inj' h rfl
  obtain ⟨h1, h2⟩ := this
  exact ⟨List.append_cancel_left h1, by simpa using h2⟩

theorem packagePath_inj {src : Path} {d d' : List Part} {l l' : Part}
    (h : packagePath src d l = packagePath src d' l') : d = d' ∧ l = l' := by
  unfold packagePath at h
  have := List.append_inj' h rfl
  obtain ⟨h1, h2⟩ := this
  exact ⟨List.append_cancel_left h1, by simpa using h2⟩

theorem file_eq_package {src : Path} {d d' : List Part} {l l' : Part}
    (h : filePath src d l = packagePath src d' l') : l = interfacePart ∧ d = d' ++ [l'] := by
  unfold filePath packagePath at h
  have h' : src ++ d ++ [l ++ ac] = src ++ (d' ++ [l']) ++ [interfaceFile] := by
    rw [List.append_assoc src d' , List.append_assoc src] at h
    rw [List.append_assoc src, List.append_assoc src, List.append_assoc d']
    exact h
  obtain ⟨h1, h2⟩ := List.append_inj' h' rfl
  refine ⟨ac_interface.1 (by simpa using h2), List.append_cancel_left h1⟩

theorem lastDot_append {s e : List Char} (hs : s ≠ []) (he : '.' ∉ e) :
    lastDot (s ++ '.' :: e) = some (s, e) := by
  have hr : ∀ x ∈ e.reverse, (decide (x ≠ '.')) = true := by
    intro x hx
    rw [List.mem_reverse] at hx
    simp only [decide_eq_true_eq]
    rintro rfl
    exact he hx
  have e1 : (s ++ '.' :: e).reverse = e.reverse ++ ('.' :: s.reverse) := by simp
  unfold lastDot
  dsimp only
  rw [e1, List.takeWhile_append_of_pos hr, List.dropWhile_append_of_pos hr]
  simp [hs]

theorem fileStem_ac {s : Part} (h : s ≠ []) : fileStem (s ++ ac) = s := by
  rw [fileStem, show s ++ ac = s ++ '.' :: ['a', 'c'] from rfl, lastDot_append h (by decide)]

theorem extension_ac {s : Part} (h : s ≠ []) : extension (s ++ ac) = some ['a', 'c'] := by
  rw [extension, show s ++ ac = s ++ '.' :: ['a', 'c'] from rfl, lastDot_append h (by decide)]

theorem fileStem_jsonl {s : Part} (h : s ≠ []) : fileStem (s ++ jsonl) = s := by
  rw [fileStem, show s ++ jsonl = s ++ '.' :: ['j', 's', 'o', 'n', 'l'] from rfl,
    lastDot_append h (by decide)]

theorem extension_jsonl {s : Part} (h : s ≠ []) :
    extension (s ++ jsonl) = some ['j', 's', 'o', 'n', 'l'] := by
  rw [extension, show s ++ jsonl = s ++ '.' :: ['j', 's', 'o', 'n', 'l'] from rfl,
    lastDot_append h (by decide)]

/-- A name with an extension is its stem, a dot and the extension. -/
theorem extension_some {s e : Part} (h : extension s = some e) : s = fileStem s ++ '.' :: e := by
  unfold extension at h
  split at h
  · rename_i b e' hl
    cases h
    rw [fileStem, hl]
    dsimp only
    unfold lastDot at hl
    dsimp only at hl
    split at hl
    · cases hl
    · rename_i c before hd
      split at hl
      · cases hl
      · cases hl
        have h1 := List.takeWhile_append_dropWhile (p := fun x => decide (x ≠ '.')) (l := s.reverse)
        have h2 : c = '.' := by
          have := List.head?_dropWhile_not (fun x => decide (x ≠ '.')) s.reverse
          rw [hd] at this
          simpa using this
        rw [hd, h2] at h1
        have := congrArg List.reverse h1
        simpa using this.symm
  · cases h

theorem sourceOfDesc_name (exist : Path → Bool) (src : Path) (dir : List Part) (last : Part) :
    sourceOfDesc exist src (.name (dir ++ [last])) =
      if exist (packagePath src dir last) then some (packagePath src dir last)
      else some (filePath src dir last) := by
  simp only [sourceOfDesc, List.reverse_append, List.reverse_cons, List.reverse_nil,
    List.nil_append, List.cons_append, List.reverse_reverse]
  rfl

theorem isInterfacePath_iff {exist : Path → Bool} {src path : Path} :
    isInterfacePath exist src path = true ↔
    ∃ d, path = d ++ [interfaceFile] ∧ d ≠ src ∧ exist path = true := by
  unfold isInterfacePath
  rw [Bool.and_eq_true, isRoot_iff]
  constructor
  · exact fun h => h.2
  · rintro ⟨d, rfl, h⟩
    exact ⟨by simp, d, rfl, h⟩

theorem certOfSource_file (src : Path) (dir : List Part) {last : Part} (h : last ≠ []) :
    certOfSource (filePath src dir last) = some (certPath src dir last) := by
  have : filePath src dir last = (src ++ dir) ++ [last ++ ac] := rfl
  rw [certOfSource, this]
  simp only [List.reverse_append, List.reverse_cons, List.reverse_nil, List.nil_append,
    List.cons_append, fileStem_ac h]
  simp [certPath]
  exact ⟨rfl, rfl⟩

theorem certOfDesc_name (exist : Path → Bool) (src : Path) {dir : List Part} {last : Part}
    (h : last ≠ []) :
    certOfDesc exist src (.name (dir ++ [last])) =
      if exist (packagePath src dir last) then none
      else if isInterfacePath exist src (filePath src dir last) then none
      else some (certPath src dir last) := by
  rw [certOfDesc, sourceOfDesc_name]
  split
  · rename_i e he
    split at he <;> cases he
  · rename_i source he
    split at he
    · rename_i hp
      cases he
      have : isInterfacePath exist src (packagePath src dir last) = true := by
        rw [isInterfacePath_iff]
        refine ⟨src ++ (dir ++ [last]), ?_, by simp, hp⟩
        simp [packagePath]
        rfl
      rw [if_pos this, if_pos hp]
    · rename_i hp
      cases he
      rw [if_neg hp]
      split
      · rfl
      · exact certOfSource_file src dir h

theorem sourceOfCert_cert (src : Path) (dir : List Part) {last : Part} (h : last ≠ []) :
    sourceOfCert (certPath src dir last) = some (filePath src dir last) := by
  have : certPath src dir last = (src ++ dir) ++ [certsDir, last ++ jsonl] := rfl
  rw [sourceOfCert, this]
  simp only [List.reverse_append, List.reverse_cons, List.reverse_nil, List.nil_append,
    List.cons_append, fileStem_jsonl h]
  simp [filePath]
  rfl

theorem certPath_inj {src : Path} {d d' : List Part} {l l' : Part}
    (h : certPath src d l = certPath src d' l') : d = d' ∧ l = l' := by
  unfold certPath at h
  obtain ⟨h1, h2⟩ := List.append_inj' h rfl
  exact ⟨List.append_cancel_left h1, by simpa using h2⟩

end Acorn.Paths
