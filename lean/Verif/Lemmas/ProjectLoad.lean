import Verif.Spec.ProjectLoad
/-
Lemmas about loading a project.
-/
namespace Acorn.Proj

variable {E I σ : Type}

theorem Below.trans {files : Files I} {a b c : Mod} (h : Below files a b) (k : Below files b c) :
    Below files a c := by
  induction k with
  | direct n => exact .through h n
  | through _ n ih => exact .through ih n

theorem Circular.of_below {files : Files I} {d m : Mod} (h : Below files d m)
    (k : Circular files d) : Circular files m := by
  rcases k with k | ⟨x, k1, k2⟩
  · exact .inr ⟨d, h, k⟩
  · exact .inr ⟨x, k1.trans h, k2⟩

theorem Circular.needs {files : Files I} {m : Mod} (h : Circular files m) :
    ∃ d, Needs files d m ∧ Circular files d := by
  rcases h with h | ⟨x, h, k⟩
  · cases h with
    | direct n => exact ⟨m, n, .inl (.direct n)⟩
    | through b n => exact ⟨_, n, .inl (Below.trans (.direct n) b)⟩
  · cases h with
    | direct n => exact ⟨x, n, .inl k⟩
    | through b n => exact ⟨_, n, .inr ⟨x, b, k⟩⟩

/-! ### Dependency names -/

theorem addDependency_all (l acc : List Mod) :
    l.foldl addDependency acc = acc ++ (l.filter (fun x => x ∉ acc)).eraseDups := by
  induction l generalizing acc with
  | nil => simp
  | cons a l ih =>
    rw [List.foldl_cons, ih]
    unfold addDependency
    by_cases h : a ∈ acc
    · simp [h]
    · simp only [h, if_false, not_false_eq_true, List.filter_cons, decide_true, if_true,
        List.eraseDups_cons, List.append_assoc, List.singleton_append]
      congr 2
      rw [List.filter_filter]
      congr 1
      apply List.filter_congr
      intro x _
      by_cases e : x = a <;> by_cases k : x ∈ acc <;> simp [e, k]

theorem foldl_flat (g : Stmt I → List Mod) (stmts : List (Stmt I)) (acc : List Mod) :
    stmts.foldl (fun all s => (g s).foldl addDependency all) acc
      = (stmts.flatMap g).foldl addDependency acc := by
  induction stmts generalizing acc with
  | nil => rfl
  | cons s stmts ih => simp [ih, List.foldl_append]

theorem dependencyNames_eq (stmts : List (Stmt I)) :
    dependencyNames stmts = (stmts.flatMap fun s => s.imports ++ s.libs).eraseDups := by
  unfold dependencyNames
  rw [foldl_flat (fun s => s.imports ++ s.libs), addDependency_all, List.filter_eq_self.2 (by simp)]
  simp

theorem libNames_eq (stmts : List (Stmt I)) :
    libNames stmts = (stmts.flatMap (·.libs)).eraseDups := by
  unfold libNames
  rw [foldl_flat (fun s => s.libs), addDependency_all, List.filter_eq_self.2 (by simp)]
  simp

theorem mem_dependencyNames {stmts : List (Stmt I)} {d : Mod} :
    d ∈ dependencyNames stmts ↔ ∃ s ∈ stmts, d ∈ s.imports ∨ d ∈ s.libs := by
  rw [dependencyNames_eq]
  simp [List.mem_eraseDups]

theorem mem_libNames {stmts : List (Stmt I)} {d : Mod} :
    d ∈ libNames stmts ↔ ∃ s ∈ stmts, d ∈ s.libs := by
  rw [libNames_eq]
  simp [List.mem_eraseDups]

theorem libsOf_eq (stmts : List (Stmt I)) :
    libsOf stmts = (dependencyNames stmts).filter (fun d => d ∈ libNames stmts) := by
  unfold libsOf
  rw [dependencyNames_eq]
  apply List.filter_congr
  intro x _
  rw [libNames_eq]
  simp [List.mem_eraseDups]

/-! ### Elaboration -/

theorem importAll_ok {p : Table E} {ds : List Mod} {es : List E}
    (h : importAll p ds = .ok es) : ds.mapM p.bindings = some es := by
  induction ds generalizing es with
  | nil => simp only [importAll, Except.ok.injEq] at h; subst h; rfl
  | cons d ds ih =>
    unfold importAll at h
    split at h
    · cases h
    · cases h
    · split at h
      · cases h
      · rename_i e he
        split at h
        · cases h
        · rename_i es' hes
          simp only [Except.ok.injEq] at h
          subst h
          simp [List.mapM_cons, he, ih hes]

theorem find_of_bindings {p : Table E} {d : Mod} {e : E} (h : p.bindings d = some e) :
    p.find d = .ok () := by
  unfold Table.bindings at h
  unfold Table.find
  split at h
  · rename_i he; rw [he]
  · cases h

theorem state_of_bindings {p : Table E} {d : Mod} {e : E} (h : p.bindings d = some e) :
    p.states d = some (.ok e) := by
  unfold Table.bindings at h
  split at h
  · rename_i he; simp only [Option.some.injEq] at h; rw [he, h]
  · cases h

theorem mapM_cons_some {f : Mod → Option E} {d : Mod} {ds : List Mod} {es : List E}
    (h : (d :: ds).mapM f = some es) :
    ∃ e es', f d = some e ∧ ds.mapM f = some es' ∧ es = e :: es' := by
  rw [List.mapM_cons] at h
  cases hd : f d with
  | none => simp [hd] at h
  | some e =>
    cases hs : ds.mapM f with
    | none => simp [hd, hs] at h
    | some es' =>
      simp only [hd, hs, Option.pure_def, Option.bind_eq_bind, Option.bind_some,
        Option.some.injEq] at h
      exact ⟨e, es', rfl, rfl, h.symm⟩

theorem mapM_some_mem {f : Mod → Option E} {ds : List Mod} {es : List E}
    (h : ds.mapM f = some es) : ∀ d ∈ ds, f d ≠ none := by
  induction ds generalizing es with
  | nil => simp
  | cons d ds ih =>
    obtain ⟨e, es', h1, h2, _⟩ := mapM_cons_some h
    intro x hx
    rcases List.mem_cons.1 hx with rfl | hx
    · rw [h1]; simp
    · exact ih h2 x hx

theorem importAll_of {p : Table E} {ds : List Mod} {es : List E}
    (h : ds.mapM p.bindings = some es) : importAll p ds = .ok es := by
  induction ds generalizing es with
  | nil => simp only [List.mapM_nil, Option.pure_def, Option.some.injEq] at h; subst h; rfl
  | cons d ds ih =>
    obtain ⟨e, es', h1, h2, rfl⟩ := mapM_cons_some h
    simp [importAll, find_of_bindings h1, h1, ih h2]

theorem libAll_ok {p : Table E} {libs ds : List Mod} {es : List E}
    (h : libAll p libs ds = .ok es) : ds.mapM p.bindings = some es := by
  induction ds generalizing es with
  | nil => simp only [libAll, Except.ok.injEq] at h; subst h; rfl
  | cons d ds ih =>
    unfold libAll at h
    split at h
    · cases h
    · split at h
      · split at h
        · cases h
        · rename_i e he
          split at h
          · cases h
          · rename_i es' hes
            simp only [Except.ok.injEq] at h
            subst h
            simp [List.mapM_cons, he, ih hes]
      · cases h

theorem libAll_of {p : Table E} {libs ds : List Mod} {es : List E}
    (h : ds.mapM p.bindings = some es) (hl : ∀ d ∈ ds, d ∈ libs) :
    libAll p libs ds = .ok es := by
  induction ds generalizing es with
  | nil => simp only [List.mapM_nil, Option.pure_def, Option.some.injEq] at h; subst h; rfl
  | cons d ds ih =>
    obtain ⟨e, es', h1, h2, rfl⟩ := mapM_cons_some h
    simp [libAll, state_of_bindings h1, h1, hl d, ih h2 (fun x hx => hl x (.tail _ hx))]

theorem libAll_error {p : Table E} {libs ds : List Mod} {c : Bool}
    (h : libAll p libs ds = .error c) : c = false := by
  induction ds with
  | nil => simp [libAll] at h
  | cons d ds ih =>
    unfold libAll at h
    split at h
    · simp only [Except.error.injEq] at h; exact h.symm
    · split at h
      · split at h
        · simp only [Except.error.injEq] at h; exact h.symm
        · split at h
          · simp only [Except.error.injEq] at h; subst h; apply ih; assumption
          · cases h
      · simp only [Except.error.injEq] at h; exact h.symm

theorem importAll_circular {p : Table E} {ds : List Mod}
    (h : importAll p ds = .error true) : ∃ d ∈ ds, p.find d = .error .circular := by
  induction ds with
  | nil => simp [importAll] at h
  | cons d ds ih =>
    unfold importAll at h
    split at h
    · rename_i hd; exact ⟨d, .head _, hd⟩
    · cases h
    · split at h
      · cases h
      · split at h
        · rename_i hc
          simp only [Except.error.injEq] at h
          subst h
          obtain ⟨x, hx, hf⟩ := ih hc
          exact ⟨x, .tail _ hx, hf⟩
        · cases h

theorem addStatements_ok {El : Elaborator E I σ} {p : Table E} {m : Mod} {libs : List Mod}
    {s s' : σ} {stmts : List (Stmt I)} (h : addStatements El p m libs s stmts = .ok s') :
    buildStmts El p.bindings m s stmts = some s' := by
  induction stmts generalizing s with
  | nil => simp only [addStatements, Except.ok.injEq] at h; subst h; rfl
  | cons st rest ih =>
    unfold addStatements at h
    split at h
    · cases h
    · rename_i es hes
      split at h
      · cases h
      · rename_i ls hls
        split at h
        · cases h
        · rename_i s1 hs1
          simp only [buildStmts, importAll_ok hes, libAll_ok hls, Option.bind_some, hs1]
          exact ih h

theorem buildStmts_mem {El : Elaborator E I σ} {V : Mod → Option E} {m : Mod} {s s' : σ}
    {stmts : List (Stmt I)} (h : buildStmts El V m s stmts = some s') :
    ∀ st ∈ stmts, ∀ d, d ∈ st.imports ∨ d ∈ st.libs → V d ≠ none := by
  induction stmts generalizing s with
  | nil => simp
  | cons st rest ih =>
    simp only [buildStmts, Option.bind_eq_some_iff] at h
    obtain ⟨es, h1, ls, h2, s1, _, h4⟩ := h
    intro x hx d hd
    rcases List.mem_cons.1 hx with rfl | hx
    · rcases hd with hd | hd
      · exact mapM_some_mem h1 d hd
      · exact mapM_some_mem h2 d hd
    · exact ih h4 x hx d hd

theorem addStatements_of {El : Elaborator E I σ} {p : Table E} {m : Mod} {libs : List Mod}
    {s s' : σ} {stmts : List (Stmt I)} (h : buildStmts El p.bindings m s stmts = some s')
    (hl : ∀ st ∈ stmts, ∀ d ∈ st.libs, d ∈ libs) :
    addStatements El p m libs s stmts = .ok s' := by
  induction stmts generalizing s with
  | nil => simp only [buildStmts, Option.some.injEq] at h; subst h; rfl
  | cons st rest ih =>
    simp only [buildStmts, Option.bind_eq_some_iff] at h
    obtain ⟨es, h1, ls, h2, s1, h3, h4⟩ := h
    simp only [addStatements, importAll_of h1, libAll_of h2 (hl st (.head _)), h3]
    exact ih h4 (fun x hx => hl x (.tail _ hx))

theorem addStatements_circular {El : Elaborator E I σ} {p : Table E} {m : Mod} {libs : List Mod}
    {s : σ} {stmts : List (Stmt I)} (h : addStatements El p m libs s stmts = .error true) :
    ∃ st ∈ stmts, ∃ d ∈ st.imports, p.find d = .error .circular := by
  induction stmts generalizing s with
  | nil => simp [addStatements] at h
  | cons st rest ih =>
    unfold addStatements at h
    split at h
    · rename_i hc
      simp only [Except.error.injEq] at h
      subst h
      obtain ⟨d, hd, hf⟩ := importAll_circular hc
      exact ⟨st, .head _, d, hd, hf⟩
    · split at h
      · rename_i hc
        simp only [Except.error.injEq] at h
        subst h
        have := libAll_error hc
        simp at this
      · split at h
        · cases h
        · obtain ⟨x, hx, r⟩ := ih h
          exact ⟨x, .tail _ hx, r⟩

/-- The exports that `elaborate` takes the prelude from. -/
theorem prelude_bindings (p : Table E) : p.preludeExport = p.bindings preludeMod := by
  unfold Table.preludeExport
  cases h : p.bindings preludeMod with
  | none => split <;> rfl
  | some e => rw [find_of_bindings h]

theorem elaborate_ok {El : Elaborator E I σ} {p : Table E} {m : Mod} {libs : List Mod}
    {stmts : List (Stmt I)} {e : E} (h : elaborate El p m stmts libs = .ok e) :
    ∃ s, buildStmts El p.bindings m
        (libs.foldl El.addLib (El.start m (if m = preludeMod then none else p.bindings preludeMod)))
        stmts = some s ∧ e = El.finish m p.bindings s := by
  unfold elaborate at h
  simp only [prelude_bindings] at h
  split at h
  · cases h
  · rename_i s hs
    simp only [Except.ok.injEq] at h
    exact ⟨s, addStatements_ok hs, h.symm⟩

theorem elaborate_of {El : Elaborator E I σ} {p : Table E} {m : Mod} {libs : List Mod}
    {stmts : List (Stmt I)} {s : σ}
    (h : buildStmts El p.bindings m
        (libs.foldl El.addLib (El.start m (if m = preludeMod then none else p.bindings preludeMod)))
        stmts = some s)
    (hl : ∀ st ∈ stmts, ∀ d ∈ st.libs, d ∈ libs) :
    elaborate El p m stmts libs = .ok (El.finish m p.bindings s) := by
  unfold elaborate
  simp only [prelude_bindings, addStatements_of h hl]

theorem elaborate_circular {El : Elaborator E I σ} {p : Table E} {m : Mod} {libs : List Mod}
    {stmts : List (Stmt I)} (h : elaborate El p m stmts libs = .error true) :
    ∃ st ∈ stmts, ∃ d ∈ st.imports, p.find d = .error .circular := by
  unfold elaborate at h
  simp only at h
  split at h
  · rename_i hc
    simp only [Except.error.injEq] at h
    subst h
    exact addStatements_circular hc
  · cases h

theorem mapM_congr_mem {f g : Mod → Option E} {ds : List Mod} (h : ∀ d ∈ ds, f d = g d) :
    ds.mapM f = ds.mapM g := by
  induction ds with
  | nil => rfl
  | cons d ds ih =>
    rw [List.mapM_cons, List.mapM_cons, h d (.head _), ih (fun x hx => h x (.tail _ hx))]

theorem buildStmts_local {El : Elaborator E I σ} {files : Files I} {m : Mod}
    {V W : Mod → Option E} (hV : ∀ x, Below files x m → V x = W x)
    (hl : Local El files) {stmts0 : List (Stmt I)}
    (hf : files.lookup m = some (.parsed stmts0)) (s : σ) (stmts : List (Stmt I))
    (hs : ∀ st ∈ stmts, st ∈ stmts0) :
    buildStmts El V m s stmts = buildStmts El W m s stmts := by
  induction stmts generalizing s with
  | nil => rfl
  | cons st rest ih =>
    have n : ∀ d, d ∈ st.imports ∨ d ∈ st.libs → V d = W d := fun d hd =>
      hV d (.direct ⟨stmts0, hf, .inl ⟨st, hs st (.head _), hd⟩⟩)
    simp only [buildStmts]
    rw [mapM_congr_mem (fun d hd => n d (.inl hd)), mapM_congr_mem (ds := st.libs) (fun d hd => n d (.inr hd)),
      (hl m V W hV).1]
    congr 1; funext es
    congr 1; funext ls
    congr 1; funext s'
    exact ih s' (fun x hx => hs x (.tail _ hx))

theorem buildFile_local {El : Elaborator E I σ} {files : Files I} {m : Mod}
    {V W : Mod → Option E} (hV : ∀ x, Below files x m → V x = W x)
    (hl : Local El files) : buildFile El files V m = buildFile El files W m := by
  unfold buildFile
  split
  · rename_i stmts hf
    have hp : (if m = preludeMod then none else V preludeMod)
        = (if m = preludeMod then none else W preludeMod) := by
      split
      · rfl
      · rename_i hm
        exact hV _ (.direct ⟨stmts, hf, .inr ⟨rfl, hm⟩⟩)
    rw [hp, buildStmts_local hV hl hf _ _ (fun _ h => h), (hl m V W hV).2]
  · rfl

/-! ### The invariant -/

/-- The module has been loaded, is being loaded, or has no file. -/
def Known (files : Files I) (p : Table E) (m : Mod) : Prop :=
  Finished p m ∨ p.states m = some .loading ∨ files.lookup m = none

/-- What holds of the table between any two steps of loading. -/
structure Inv (files : Files I) (V : Mod → Option E) (p : Table E) : Prop where
  ok : ∀ x e, p.states x = some (.ok e) → V x = some e
  err : ∀ x c, p.states x = some (.error c) → V x = none
  cyc : ∀ x, p.states x = some (.error true) → Circular files x
  dep : ∀ x, p.depErrors x = some .circular → Circular files x
  file : ∀ x, Finished p x → files.lookup x ≠ none
  closed : ∀ x, Finished p x → ∀ d, Needs files d x → Known files p d

/-- What a step of loading may change: loaded modules stay as they are, and in the end no other
module is being loaded than at the start. -/
structure Grows (p p' : Table E) : Prop where
  stays : ∀ x, Finished p x → p'.states x = p.states x
  loading : ∀ x, p'.states x = some .loading ↔ p.states x = some .loading

theorem Grows.refl (p : Table E) : Grows p p := ⟨fun _ _ => rfl, fun _ => Iff.rfl⟩

theorem Grows.finished {p p' : Table E} (h : Grows p p') {x : Mod} (k : Finished p x) :
    Finished p' x := by
  unfold Finished
  rw [h.stays x k]
  exact k

theorem Grows.trans {p q r : Table E} (h : Grows p q) (k : Grows q r) : Grows p r :=
  ⟨fun x f => (k.stays x (h.finished f)).trans (h.stays x f),
    fun x => (k.loading x).trans (h.loading x)⟩

theorem Grows.known {files : Files I} {p p' : Table E} (h : Grows p p') {x : Mod}
    (k : Known files p x) : Known files p' x := by
  rcases k with k | k | k
  · exact .inl (h.finished k)
  · exact .inr (.inl ((h.loading x).2 k))
  · exact .inr (.inr k)

theorem Grows.setError (p : Table E) (m : Mod) (e : Option ImportError) :
    Grows p (p.setError m e) := ⟨fun _ _ => rfl, fun _ => Iff.rfl⟩

theorem Inv.setError {files : Files I} {V : Mod → Option E} {p : Table E} (h : Inv files V p)
    {m : Mod} {e : Option ImportError} (k : e = some .circular → Circular files m) :
    Inv files V (p.setError m e) := by
  refine ⟨h.ok, h.err, h.cyc, fun x hx => ?_, h.file, h.closed⟩
  simp only [Table.setError] at hx
  split at hx
  · rename_i hm; rw [hm]; exact k hx
  · exact h.dep x hx

theorem set_states (p : Table E) (m x : Mod) (s : LoadState E) :
    (p.set m s).states x = if x = m then some s else p.states x := rfl

theorem bindings_eq {files : Files I} {V : Mod → Option E} {p : Table E} (h : Inv files V p)
    {x : Mod} (k : Finished p x) : p.bindings x = V x := by
  unfold Table.bindings
  rcases k with ⟨e, k⟩ | ⟨c, k⟩
  · rw [k, h.ok x e k]
  · rw [k, h.err x c k]

theorem bindings_ok {files : Files I} {V : Mod → Option E} {p : Table E} (h : Inv files V p)
    {x : Mod} {e : E} (k : p.bindings x = some e) : V x = some e :=
  h.ok x e (state_of_bindings k)

/-- Unvisited modules: those that loading may still enter. -/
def Fresh (p : Table E) (m : Mod) : Prop := p.states m = none ∨ p.states m = some .registered

theorem fresh_cases (p : Table E) (m : Mod) :
    Fresh p m ∨ p.states m = some .loading ∨ Finished p m := by
  unfold Fresh Finished
  cases h : p.states m with
  | none => simp
  | some s => cases s <;> simp

theorem Fresh.not_finished {p : Table E} {m : Mod} (h : Fresh p m) : ¬ Finished p m := by
  rintro (⟨e, k⟩ | ⟨c, k⟩) <;> rcases h with h | h <;> rw [h] at k <;> cases k

theorem Fresh.not_loading {p : Table E} {m : Mod} (h : Fresh p m) :
    p.states m ≠ some .loading := by
  intro k; rcases h with h | h <;> rw [h] at k <;> cases k

/-- Starting on a module keeps the invariant. -/
theorem Inv.enter {files : Files I} {V : Mod → Option E} {p : Table E} (h : Inv files V p)
    {m : Mod} (hm : Fresh p m) : Inv files V (p.set m .loading) := by
  have fin : ∀ x, Finished (p.set m .loading) x → x ≠ m ∧ Finished p x := by
    intro x hx
    unfold Finished at hx
    rw [set_states] at hx
    by_cases e : x = m
    · simp [e] at hx
    · simp only [e, if_false] at hx; exact ⟨e, hx⟩
  constructor
  · intro x e hx
    rw [set_states] at hx
    split at hx
    · cases hx
    · exact h.ok x e hx
  · intro x e hx
    rw [set_states] at hx
    split at hx
    · cases hx
    · exact h.err x e hx
  · intro x hx
    rw [set_states] at hx
    split at hx
    · cases hx
    · exact h.cyc x hx
  · exact h.dep
  · intro x hx; exact h.file x (fin x hx).2
  · intro x hx d hd
    rcases h.closed x (fin x hx).2 d hd with k | k | k
    · refine .inl ?_
      unfold Finished
      rw [set_states]
      by_cases e : d = m
      · rw [e] at k; exact absurd k hm.not_finished
      · simp only [e, if_false]; exact k
    · refine .inr (.inl ?_)
      rw [set_states]
      by_cases e : d = m
      · simp [e]
      · simp only [e, if_false]; exact k
    · exact .inr (.inr k)

/-- Finishing a module keeps the invariant. -/
theorem Inv.finish {files : Files I} {V : Mod → Option E} {p : Table E} (h : Inv files V p)
    {m : Mod} {s : LoadState E} (hs : (∃ e, s = .ok e) ∨ ∃ c, s = .error c)
    (hok : ∀ e, s = .ok e → V m = some e) (herr : ∀ c, s = .error c → V m = none)
    (hc : s = .error true → Circular files m) (hf : files.lookup m ≠ none)
    (hd : ∀ d, Needs files d m → Known files p d) : Inv files V (p.set m s) := by
  have kn : ∀ d, Known files p d → Known files (p.set m s) d := by
    intro d hd
    unfold Known Finished at hd ⊢
    rw [set_states]
    by_cases e : d = m
    · simp only [e, if_true]
      refine .inl ?_
      rcases hs with ⟨e, rfl⟩ | ⟨c, rfl⟩
      · exact .inl ⟨e, rfl⟩
      · exact .inr ⟨c, rfl⟩
    · simp only [e, if_false]; exact hd
  have fin : ∀ x, Finished (p.set m s) x → x = m ∨ Finished p x := by
    intro x hx
    unfold Finished at hx
    rw [set_states] at hx
    by_cases e : x = m
    · exact .inl e
    · simp only [e, if_false] at hx; exact .inr hx
  constructor
  · intro x e hx
    rw [set_states] at hx
    split at hx
    · rename_i e'; rw [e']; exact hok e (by simpa using hx)
    · exact h.ok x e hx
  · intro x e hx
    rw [set_states] at hx
    split at hx
    · rename_i e'; rw [e']; exact herr e (by simpa using hx)
    · exact h.err x e hx
  · intro x hx
    rw [set_states] at hx
    split at hx
    · rename_i e'; rw [e']; exact hc (by simpa using hx)
    · exact h.cyc x hx
  · exact h.dep
  · intro x hx
    rcases fin x hx with rfl | hx
    · exact hf
    · exact h.file x hx
  · intro x hx d hn
    apply kn
    rcases fin x hx with rfl | hx
    · exact hd d hn
    · exact h.closed x hx d hn

theorem grows_finish {p q : Table E} {m : Mod} {s : LoadState E} (hm : Fresh p m)
    (hs : (∃ e, s = .ok e) ∨ ∃ c, s = .error c) (h : Grows (p.set m .loading) q) :
    Grows p (q.set m s) := by
  constructor
  · intro x hx
    have e : x ≠ m := fun e => hm.not_finished (e ▸ hx)
    rw [set_states, if_neg e, h.stays x, set_states, if_neg e]
    unfold Finished
    rw [set_states, if_neg e]
    exact hx
  · intro x
    rw [set_states]
    by_cases e : x = m
    · rw [if_pos e]
      constructor
      · intro k; rcases hs with ⟨_, rfl⟩ | ⟨_, rfl⟩ <;> cases k
      · intro k; rw [e] at k; exact absurd k hm.not_loading
    · rw [if_neg e, h.loading x, set_states, if_neg e]

/-- Whether loading may still enter a module. -/
def isFresh (p : Table E) (m : Mod) : Bool :=
  match p.states m with
  | none => true
  | some .registered => true
  | _ => false

theorem isFresh_iff {p : Table E} {m : Mod} : isFresh p m = true ↔ Fresh p m := by
  unfold isFresh Fresh
  cases p.states m with
  | none => simp
  | some s => cases s <;> simp

/-- How many files loading may still enter. -/
def left (files : Files I) (p : Table E) : Nat :=
  ((files.map (·.1)).filter (isFresh p)).length

end Acorn.Proj
