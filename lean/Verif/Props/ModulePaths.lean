import Verif.Lemmas.ModulePaths
/-
C37: module names and file paths correspond one to one.

Two exceptions are real and are stated beside the theorems: `pkg.interface` is a second name for the
package `pkg`, and certificates stored below a directory called `certs` are never loaded again.
-/
namespace Acorn
open Spec Paths

/-- A valid module name is found where the layout says: in `last.ac`, or in `last/interface.ac` if
that exists; if both exist the name is refused, and the refusal names both files. -/
theorem C37_layout (exist : Path → Bool) (src : Path) {dir : List Part} {last : Part}
    (h : IsName dir last) :
    (exist (packagePath src dir last) = false →
      pathFromDesc exist src (.name (dir ++ [last])) = .ok (filePath src dir last)) ∧
    (exist (packagePath src dir last) = true → exist (filePath src dir last) = false →
      pathFromDesc exist src (.name (dir ++ [last])) = .ok (packagePath src dir last)) ∧
    (exist (packagePath src dir last) = true → exist (filePath src dir last) = true →
      pathFromDesc exist src (.name (dir ++ [last])) =
        .error (.ambiguous (filePath src dir last) (packagePath src dir last))) := by
  rw [pathFromDesc_name _ _ h]
  refine ⟨fun h1 => ?_, fun h1 h2 => ?_, fun h1 h2 => ?_⟩ <;> simp [*]

/-- Writing a module name with dots and reading it again gives the same name. -/
theorem C37_dotted {dir : List Part} {last : Part} (h : IsName dir last) :
    Desc.ofName (joinDots (dir ++ [last])) = .name (dir ++ [last]) := by
  rw [Desc.ofName, splitDots_join h.noDot (by simp)]

/-- Name to path and back.  Missing: names of two or more parts that end in `interface`, see
`C37_interface_alias`. -/
theorem C37_name_path_partial {exist : Path → Bool} {src p : Path} {dir : List Part} {last : Part}
    (h : IsName dir last) (ha : dir = [] ∨ last ≠ "interface".toList)
    (hp : pathFromDesc exist src (.name (dir ++ [last])) = .ok p) :
    descFromPath exist src p = .ok (.name (dir ++ [last])) := by
  rw [pathFromDesc_name _ _ h] at hp
  split at hp
  · rename_i he
    split at hp
    · cases hp
    · cases hp
      exact descFromPath_package h he
  · cases hp
    refine descFromPath_file h ?_
    rintro ⟨h1, h2, _⟩
    exact ha.elim h2 (fun h' => h' h1)

/-- Path to name and back: an existing file is found again under its name, unless the code reports
that the name is ambiguous (and then the file is one of the two it reports). -/
theorem C37_path_name {exist : Path → Bool} {src p : Path} {parts : List Part}
    (hd : descFromPath exist src p = .ok (.name parts)) (hsrc : p ≠ src) (hex : exist p = true) :
    pathFromDesc exist src (.name parts) = .ok p ∨
    ∃ f i, pathFromDesc exist src (.name parts) = .error (.ambiguous f i) ∧ (p = f ∨ p = i) ∧
      exist f = true ∧ exist i = true := by
  unfold descFromPath at hd
  split at hd
  · cases hd
  · rename_i rel hrel
    have e := stripPrefix_iff.1 hrel
    have hne : rel ≠ [] := by
      rintro rfl
      exact hsrc (by simpa using e)
    split at hd
    · rename_i ps hps
      cases hd
      rcases descLoop_ok hps hne with ⟨dir, e', hroot, rfl, hv⟩ | ⟨dir, last, e', rfl, hn, hnot⟩
      · obtain ⟨d, e2, hd2, _⟩ := isRoot_iff.1 hroot
        rw [e, e', ← List.append_assoc] at e2
        obtain ⟨e3, _⟩ := List.append_inj' e2 rfl
        have hpne : parts ≠ [] := by
          rintro rfl
          exact hd2 (by simpa using e3.symm)
        obtain ⟨dir, last, rfl⟩ : ∃ dir last, parts = dir ++ [last] :=
          ⟨_, _, (List.dropLast_concat_getLast hpne).symm⟩
        have hn : IsName dir last := ⟨fun x hx => hv x (by simp [hx]), hv last (by simp)⟩
        have ep : p = packagePath src dir last := by
          rw [e, e']; simp only [packagePath, List.append_assoc]; rfl
        rw [pathFromDesc_name _ _ hn, if_pos (ep ▸ hex)]
        split
        · rename_i hf
          exact Or.inr ⟨_, _, rfl, Or.inr ep, hf, ep ▸ hex⟩
        · exact Or.inl (by rw [ep])
      · have ep : p = filePath src dir last := by
          rw [e, e']; simp only [filePath, List.append_assoc]; rfl
        rw [pathFromDesc_name _ _ hn]
        split
        · rename_i hi
          rw [if_pos (ep ▸ hex)]
          exact Or.inr ⟨_, _, rfl, Or.inl ep, ep ▸ hex, hi⟩
        · exact Or.inl (by rw [ep])
    · cases hd

/-- A path outside the source directory becomes a file descriptor, which goes back to that path. -/
theorem C37_outside {exist : Path → Bool} {src p : Path} (h : ¬ src <+: p) :
    descFromPath exist src p = .ok (.file p) ∧ pathFromDesc exist src (.file p) = .ok p := by
  refine ⟨?_, rfl⟩
  unfold descFromPath
  have : stripPrefix src p = none := by
    cases hs : stripPrefix src p with
    | none => rfl
    | some r => exact absurd ⟨r, (stripPrefix_iff.1 hs).symm⟩ h
  rw [this]

/-- Two different names never lead to the same file.  Missing: one of the names has two or more
parts and ends in `interface`, see `C37_interface_alias`. -/
theorem C37_distinct_partial {exist : Path → Bool} {src p : Path} {d d' : List Part} {l l' : Part}
    (h : IsName d l) (h' : IsName d' l') (ha : d = [] ∨ l ≠ "interface".toList)
    (ha' : d' = [] ∨ l' ≠ "interface".toList)
    (hp : pathFromDesc exist src (.name (d ++ [l])) = .ok p)
    (hp' : pathFromDesc exist src (.name (d' ++ [l'])) = .ok p) : d = d' ∧ l = l' := by
  have h1 := C37_name_path_partial h ha hp
  have h2 := C37_name_path_partial h' ha' hp'
  rw [h1] at h2
  have h3 : d ++ [l] = d' ++ [l'] := by
    injection h2 with h2; injection h2
  obtain ⟨e1, e2⟩ := List.append_inj' h3 rfl
  exact ⟨e1, by simpa using e2⟩

/-- Two different existing files never have the same name, except a file and a package interface
that the code refuses as ambiguous. -/
theorem C37_distinct_files {exist : Path → Bool} {src p p' : Path} {parts : List Part}
    (hp : descFromPath exist src p = .ok (.name parts))
    (hp' : descFromPath exist src p' = .ok (.name parts))
    (hs : p ≠ src) (hs' : p' ≠ src) (he : exist p = true) (he' : exist p' = true) :
    p = p' ∨ ∃ f i, pathFromDesc exist src (.name parts) = .error (.ambiguous f i) := by
  rcases C37_path_name hp hs he with h1 | ⟨f, i, h1, _⟩
  · rcases C37_path_name hp' hs' he' with h2 | ⟨f, i, h2, _⟩
    · left
      rw [h1] at h2
      injection h2
    · exact Or.inr ⟨f, i, h2⟩
  · exact Or.inr ⟨f, i, h1⟩

/-- The exception: for every package, `pkg.interface` is accepted as a second name of the package's
interface file, so two names share a path.  Canonicalization maps it to the package's name. -/
theorem C37_interface_alias {exist : Path → Bool} {src : Path} {dir : List Part} {last : Part}
    (h : IsName dir last) (he : exist (packagePath src dir last) = true)
    (hf : exist (filePath src dir last) = false)
    (hi : exist (packagePath src (dir ++ [last]) "interface".toList) = false) :
    pathFromDesc exist src (.name (dir ++ [last])) = .ok (packagePath src dir last) ∧
    pathFromDesc exist src (.name (dir ++ [last] ++ ["interface".toList])) =
      .ok (packagePath src dir last) ∧
    canonicalize exist src (.name (dir ++ [last] ++ ["interface".toList])) =
      .name (dir ++ [last]) ∧
    canonicalize exist src (.name (dir ++ [last])) = .name (dir ++ [last]) := by
  have h' : IsName (dir ++ [last]) "interface".toList := by
    refine ⟨fun p hp => ?_, ?_⟩
    · rcases List.mem_append.1 hp with hp | hp
      · exact h.dir p hp
      · rw [List.mem_singleton.1 hp]; exact h.last
    · exact validPart_iff.1 (by decide)
  have e : filePath src (dir ++ [last]) "interface".toList = packagePath src dir last := by
    simp [filePath, packagePath]
  have h1 : pathFromDesc exist src (.name (dir ++ [last])) = .ok (packagePath src dir last) := by
    rw [pathFromDesc_name _ _ h]; simp [he, hf]
  have h2 : pathFromDesc exist src (.name (dir ++ [last] ++ ["interface".toList])) =
      .ok (packagePath src dir last) := by
    rw [pathFromDesc_name _ _ h', if_neg (by rw [hi]; exact Bool.false_ne_true), e]
  refine ⟨h1, h2, ?_, ?_⟩
  · rw [canonicalize, h2]
    simp only [he, if_true, descFromPath_package h he]
  · rw [canonicalize, h1]
    simp only [he, if_true, descFromPath_package h he]

/-- Canonical names have no exception: two names that lead to the same existing file have the same
canonical name, and canonicalization leaves that name alone. -/
theorem C37_canonical {exist : Path → Bool} {src p p' : Path} {ps ps' : List Part}
    (hp : pathFromDesc exist src (.name ps) = .ok p)
    (hp' : pathFromDesc exist src (.name ps') = .ok p')
    (he : exist p = true) (he' : exist p' = true) :
    (p = p' → canonicalize exist src (.name ps) = canonicalize exist src (.name ps')) ∧
    canonicalize exist src (canonicalize exist src (.name ps)) =
      canonicalize exist src (.name ps) ∧
    (canonicalize exist src (.name ps) = canonicalize exist src (.name ps') → p = p' ∨
      ∃ f i, pathFromDesc exist src (canonicalize exist src (.name ps)) =
        .error (.ambiguous f i)) := by
  obtain ⟨d, l, hn, hd⟩ := descFromPath_of_name hp he
  obtain ⟨d', l', hn', hd'⟩ := descFromPath_of_name hp' he'
  have c : canonicalize exist src (.name ps) = .name (d ++ [l]) := by
    rw [canonicalize]; simp [hp, he, hd]
  have c' : canonicalize exist src (.name ps') = .name (d' ++ [l']) := by
    rw [canonicalize]; simp [hp', he', hd']
  have hs : ∀ {q : Path} {d : List Part} {l : Part}, descFromPath exist src q = .ok (.name (d ++ [l])) →
      q ≠ src := by
    rintro q d l hq rfl
    have h1 : stripPrefix q q = some [] := stripPrefix_iff.2 (by simp)
    rw [descFromPath, h1] at hq
    simp [descLoop] at hq
  refine ⟨?_, ?_, ?_⟩
  · rintro rfl
    rw [hd] at hd'
    rw [c, c']
    injection hd'
  · rw [c, canonicalize]
    rcases C37_path_name hd (hs hd) he with h1 | ⟨f, i, h1, _⟩
    · simp [h1, he, hd]
    · simp [h1]
  · intro e
    rw [c, c'] at e
    have e' : d ++ [l] = d' ++ [l'] := by injection e
    rw [c]
    rw [← e'] at hd'
    exact C37_distinct_files hd hd' (hs hd) (hs hd') he he'

/-! ### Certificates -/

/-- The certificates of a module that is not a package interface are stored beside its source, and
the source is found again from the certificate file. -/
theorem C37_cert_layout {exist : Path → Bool} {src c : Path} {dir : List Part} {last : Part}
    (h : IsName dir last) (hc : certOfDesc exist src (.name (dir ++ [last])) = some c) :
    c = certPath src dir last ∧ sourceOfCert c = some (filePath src dir last) ∧
    sourceOfDesc exist src (.name (dir ++ [last])) = some (filePath src dir last) := by
  rw [certOfDesc_name _ _ h.last.ne_nil] at hc
  split at hc
  · cases hc
  · rename_i he
    split at hc
    · cases hc
    · cases hc
      refine ⟨rfl, sourceOfCert_cert src dir h.last.ne_nil, ?_⟩
      rw [sourceOfDesc_name, if_neg he]

/-- Certificates saved for a module are loaded again for the same module.  Missing: a directory
called `certs` in the path of the source, see `C37_certs_lost`, and the module `interface` at top
level, see `C37_top_interface_lost`. -/
theorem C37_cert_reload_partial {exist : Path → Bool} {src c : Path} {dir : List Part}
    {last : Part} (h : IsName dir last) (hs : "certs".toList ∉ src)
    (hd : "certs".toList ∉ dir) (hl : last ≠ "interface".toList)
    (hc : certOfDesc exist src (.name (dir ++ [last])) = some c)
    (hex : exist (filePath src dir last) = true) :
    loadedAs exist src c = some (.name (dir ++ [last])) := by
  obtain ⟨rfl, h2, _⟩ := C37_cert_layout h hc
  have hcerts : (filePath src dir last).contains certsDir = false := by
    rw [← Bool.not_eq_true, List.contains_iff_mem]
    intro hm
    simp only [filePath, List.mem_append, List.mem_singleton] at hm
    rcases hm with (hm | hm) | hm
    · exact hs hm
    · exact hd hm
    · have := congrArg (fun s => decide ('.' ∈ s)) hm
      simp only [List.mem_append] at this
      have h3 : decide ('.' ∈ certsDir) = false := by decide
      rw [h3] at this
      simp at this
  have hstrip : stripPrefix src (filePath src dir last) = some (dir ++ [last ++ ac]) := by
    rw [filePath, List.append_assoc]; exact stripPrefix_append _ _
  have hlast : (filePath src dir last).getLast? = some (last ++ ac) := by
    simp [filePath]; rfl
  have hclast : (certPath src dir last).getLast? = some (last ++ jsonl) := by
    simp [certPath]; rfl
  have hni : last ++ ac ≠ interfaceFile := fun e => hl (ac_interface.1 e)
  rw [loadedAs, hclast]
  simp only [extension_jsonl h.last.ne_nil, if_true, h2, hex]
  rw [descOfSource, hcerts, hstrip, hlast]
  simp [extension_ac h.last.ne_nil, hni, stripSuffix_append]

/-- Two different modules never store their certificates in the same file. -/
theorem C37_cert_distinct {exist : Path → Bool} {src c : Path} {d d' : List Part} {l l' : Part}
    (h : IsName d l) (h' : IsName d' l')
    (hc : certOfDesc exist src (.name (d ++ [l])) = some c)
    (hc' : certOfDesc exist src (.name (d' ++ [l'])) = some c) : d = d' ∧ l = l' := by
  have e1 := (C37_cert_layout h hc).1
  have e2 := (C37_cert_layout h' hc').1
  exact certPath_inj (e1 ▸ e2)

/-- Only files directly inside a `certs` directory are read as certificates of modules, and the module is
the source file beside that directory. -/
theorem C37_cert_place {exist : Path → Bool} {src c : Path} {d : Desc} (h : loadedAs exist src c = some d) :
    ∃ dir f, c = dir ++ ["certs".toList, f] ∧ extension f = some "jsonl".toList ∧
      exist (dir ++ [fileStem f ++ ".ac".toList]) = true ∧
      descOfSource src (dir ++ [fileStem f ++ ".ac".toList]) = some d := by
  unfold loadedAs at h
  split at h
  · cases h
  · rename_i f hf
    split at h
    · rename_i he
      split at h
      · cases h
      · rename_i source hs
        split at h
        · rename_i hex
          unfold sourceOfCert at hs
          split at hs
          · cases hs
          · cases hs
          · rename_i g c' dir hc
            split at hs
            · rename_i hc'
              cases hs
              have hcc : c = dir.reverse ++ [c', g] := by
                have := congrArg List.reverse hc
                simpa using this
              have hg : g = f := by
                rw [hcc] at hf
                simpa using hf
              subst hg
              refine ⟨dir.reverse, g, ?_, he, hex, h⟩
              rw [hcc, hc']; rfl
            · cases hs
        · cases h
    · cases h

/-- Two different files outside the source directory never store their certificates in the same
file, and neither does a file outside share with a module. -/
theorem C37_cert_distinct_files {exist : Path → Bool} {src c p : Path}
    (hc : certOfDesc exist src (.file p) = some c) :
    (∀ p', certOfDesc exist src (.file p') = some c → p' = p) ∧
    (¬ src <+: p → ∀ d l, IsName d l → certOfDesc exist src (.name (d ++ [l])) ≠ some c) := by
  have key : ∀ q, certOfDesc exist src (.file q) = some c →
      ∃ dir stem, q = dir ++ [stem ++ ac] ∧ c = dir ++ [stem ++ jsonl] := by
    intro q hq
    simp only [certOfDesc] at hq
    split at hq
    · cases hq
    · rename_i f hf
      split at hq
      · rename_i hx
        cases hq
        have e := extension_some hx
        obtain ⟨dir, rfl⟩ := List.getLast?_eq_some_iff.1 hf
        refine ⟨dir, fileStem f, by rw [show fileStem f ++ ac = f from e.symm], ?_⟩
        simp [withJsonl]
      · cases hq
  obtain ⟨dir, stem, rfl, rfl⟩ := key p hc
  constructor
  · intro p' hp'
    obtain ⟨dir', stem', rfl, e⟩ := key p' hp'
    obtain ⟨e1, e2⟩ := List.append_inj' e rfl
    have : stem = stem' := by simpa using e2
    rw [e1, this]
  · intro hsrc d l hn hcd
    have e := (C37_cert_layout hn hcd).1
    rw [certPath, show [("certs".toList : Part), l ++ ".jsonl".toList] =
      ["certs".toList] ++ [l ++ ".jsonl".toList] from rfl, ← List.append_assoc] at e
    obtain ⟨e1, _⟩ := List.append_inj' e rfl
    exact hsrc ⟨d ++ ["certs".toList] ++ [stem ++ ac], by rw [e1]; simp⟩

/-- The exception: certificates of a module that lies, together with the project, below any
directory called `certs` are saved but never loaded. -/
theorem C37_certs_lost {exist : Path → Bool} {src c : Path} {dir : List Part} {last : Part}
    (h : IsName dir last) (hs : "certs".toList ∈ src ∨ "certs".toList ∈ dir)
    (hc : certOfDesc exist src (.name (dir ++ [last])) = some c) :
    loadedAs exist src c = none := by
  obtain ⟨rfl, h2, _⟩ := C37_cert_layout h hc
  have hcerts : (filePath src dir last).contains certsDir = true := by
    rw [List.contains_iff_mem]
    simp only [filePath, List.mem_append]
    exact Or.inl hs
  unfold loadedAs
  split
  · rfl
  · split
    · rw [h2]
      dsimp only
      split
      · rw [descOfSource, if_pos hcerts]
      · rfl
    · rfl

/-- The other exception: the certificates of a top-level module called `interface` are saved but
never loaded. -/
theorem C37_top_interface_lost (exist : Path → Bool) (src : Path)
    (he : exist (packagePath src [] "interface".toList) = false) :
    certOfDesc exist src (.name ["interface".toList]) =
      some (certPath src [] "interface".toList) ∧
    loadedAs exist src (certPath src [] "interface".toList) = none := by
  have hne : ("interface".toList : Part) ≠ [] := by decide
  constructor
  · have := certOfDesc_name exist src (dir := []) hne
    rw [List.nil_append] at this
    rw [this, if_neg (by rw [he]; exact Bool.false_ne_true), if_neg]
    rw [isInterfacePath_iff]
    rintro ⟨d, e, hd, _⟩
    refine hd ?_
    have e' : src ++ [interfaceFile] = d ++ [interfaceFile] := by
      rw [filePath, List.append_nil] at e
      exact e
    exact (List.append_cancel_right e').symm
  · unfold loadedAs
    split
    · rfl
    · split
      · rw [sourceOfCert_cert _ _ hne]
        dsimp only
        split
        · have hstrip : stripPrefix src (filePath src [] "interface".toList) = some [interfaceFile] := by
            rw [filePath, List.append_nil]; exact stripPrefix_append _ _
          unfold descOfSource
          rw [hstrip]
          split
          · rfl
          · simp only
            split
            · rfl
            · split <;> simp
        · rfl
      · rfl

/-- No module stores its certificates in a package manifest. -/
theorem C37_manifest_apart {exist : Path → Bool} {src c : Path} {dir : List Part} {last : Part}
    (h : IsName dir last) (hc : certOfDesc exist src (.name (dir ++ [last])) = some c)
    (root : Path) : c ≠ manifestPath root := by
  rw [(C37_cert_layout h hc).1, certPath, manifestPath]
  intro e
  have := (List.append_inj' e rfl).2
  simp only [List.cons.injEq, true_and, and_true] at this
  have := congrArg List.reverse this.2
  simp at this

/-! ### The hypotheses are met -/

private def demoFiles : Path → Bool := fun p =>
  p ∈ ([["src".toList, "nat".toList, "interface.ac".toList],
    ["src".toList, "nat".toList, "gcd.ac".toList], ["src".toList, "list.ac".toList]] : List Path)

example : IsName ["nat".toList] "gcd".toList :=
  ⟨by intro p hp; rw [List.mem_singleton.1 hp]; exact validPart_iff.1 (by decide),
    validPart_iff.1 (by decide)⟩

example : pathFromDesc demoFiles ["src".toList] (.ofName "nat".toList) =
    .ok ["src".toList, "nat".toList, "interface.ac".toList] := by with_unfolding_all rfl

example : pathFromDesc demoFiles ["src".toList] (.ofName "nat.gcd".toList) =
    .ok ["src".toList, "nat".toList, "gcd.ac".toList] := by with_unfolding_all rfl

example : descFromPath demoFiles ["src".toList] ["src".toList, "nat".toList, "interface.ac".toList] =
    .ok (.name ["nat".toList]) := by with_unfolding_all rfl

example : certOfDesc demoFiles ["src".toList] (.ofName "nat.gcd".toList) =
    some ["src".toList, "nat".toList, "certs".toList, "gcd.jsonl".toList] := by decide +kernel

example : loadedAs demoFiles ["src".toList]
    ["src".toList, "nat".toList, "certs".toList, "gcd.jsonl".toList] =
    some (.ofName "nat.gcd".toList) := by decide +kernel

example : pathFromDesc demoFiles ["src".toList] (.ofName "nat.interface".toList) =
    pathFromDesc demoFiles ["src".toList] (.ofName "nat".toList) := by with_unfolding_all rfl

example : pathFromDesc demoFiles ["src".toList] (.ofName "nat.Gcd".toList) = .error .badPart := by
  with_unfolding_all rfl

example : certOfDesc demoFiles ["src".toList] (.file ["tmp".toList, "x.ac".toList]) =
    some ["tmp".toList, "x.jsonl".toList] := by decide +kernel

end Acorn
