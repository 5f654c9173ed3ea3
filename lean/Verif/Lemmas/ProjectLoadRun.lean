import Verif.Lemmas.ProjectLoad
/-
What loading a module does to the table.
-/
namespace Acorn.Proj

variable {E I σ : Type}

theorem filter_le {P Q : Mod → Bool} {l : List Mod} (h : ∀ x, P x = true → Q x = true) :
    (l.filter P).length ≤ (l.filter Q).length := by
  induction l with
  | nil => simp
  | cons a l ih =>
    rw [List.filter_cons, List.filter_cons]
    by_cases p : P a = true
    · rw [if_pos p, if_pos (h a p)]; simpa using ih
    · rw [if_neg p]
      split
      · simp only [List.length_cons]; omega
      · exact ih

theorem filter_lt {P Q : Mod → Bool} {l : List Mod} (h : ∀ x, P x = true → Q x = true)
    {a : Mod} (ha : a ∈ l) (hP : P a = false) (hQ : Q a = true) :
    (l.filter P).length < (l.filter Q).length := by
  induction l with
  | nil => cases ha
  | cons b l ih =>
    rw [List.filter_cons, List.filter_cons]
    rcases List.mem_cons.1 ha with rfl | ha
    · rw [if_neg (by simp [hP]), if_pos hQ, List.length_cons]
      exact Nat.lt_succ_of_le (filter_le h)
    · have := ih ha
      by_cases p : P b = true
      · rw [if_pos p, if_pos (h b p)]; simpa using this
      · rw [if_neg p]
        split
        · simp only [List.length_cons]; omega
        · exact this

theorem Grows.fresh {p p' : Table E} (h : Grows p p') {x : Mod} (k : Fresh p' x) : Fresh p x := by
  rcases fresh_cases p x with f | f | f
  · exact f
  · exact absurd ((h.loading x).2 f) k.not_loading
  · exact absurd (h.finished f) k.not_finished

theorem Grows.left {files : Files I} {p p' : Table E} (h : Grows p p') :
    left files p' ≤ left files p := by
  unfold Proj.left
  apply filter_le
  intro x hx
  exact isFresh_iff.2 (h.fresh (isFresh_iff.1 hx))

theorem mem_of_lookup {files : Files I} {m : Mod} {f : File I} (h : files.lookup m = some f) :
    m ∈ files.map (·.1) := by
  induction files with
  | nil => cases h
  | cons a l ih =>
    rw [List.lookup_cons] at h
    split at h
    · rename_i e; simp only [beq_iff_eq] at e; simp [e]
    · exact List.mem_cons_of_mem _ (ih h)

theorem left_enter {files : Files I} {p : Table E} {m : Mod} (hm : Fresh p m) {f : File I}
    (hf : files.lookup m = some f) : left files (p.set m .loading) < left files p := by
  unfold Proj.left
  apply filter_lt (a := m) _ (mem_of_lookup hf)
  · simp [isFresh, set_states]
  · exact isFresh_iff.2 hm
  · intro x hx
    unfold isFresh at hx ⊢
    rw [set_states] at hx
    by_cases e : x = m
    · simp [e] at hx
    · simp only [e, if_false] at hx
      exact hx

/-- What loading module `m` from table `p` leaves behind. -/
structure Outcome (files : Files I) (V : Mod → Option E) (p : Table E) (m : Mod)
    (r : Table E × Loaded) : Prop where
  inv : Inv files V r.1
  grows : Grows p r.1
  ok : r.2 = .ok → Finished r.1 m
  circ : r.2 = .circular → Circular files m
  missing : r.2 = .notFound → files.lookup m = none
  known : Known files r.1 m

/-- What we ask of the function that loads one dependency. -/
def LoadsWell (files : Files I) (V : Mod → Option E) (n : Nat)
    (load : Table E → Mod → Table E × Loaded) : Prop :=
  ∀ p m, Inv files V p → (∀ x, p.states x = some .loading → Below files m x) →
    ((load p m).2 ≠ .stuck → Outcome files V p m (load p m)) ∧
    (left files p < n → (load p m).2 ≠ .stuck)

theorem circular_none {El : Elaborator E I σ} {files : Files I} {V : Mod → Option E}
    (hV : Result El files V) {p : Table E} (h : Inv files V p) {m : Mod} (k : Circular files m) :
    p.bindings m = none := by
  cases hb : p.bindings m with
  | none => rfl
  | some e => rw [bindings_ok h hb |>.symm.trans (hV.circular m k)]

theorem loading_none {p : Table E} {m : Mod} (h : p.states m = some .loading) :
    p.bindings m = none := by simp [Table.bindings, h]

theorem missing_none {files : Files I} {V : Mod → Option E} {p : Table E} (h : Inv files V p)
    {m : Mod} (k : files.lookup m = none) : p.bindings m = none := by
  cases hb : p.bindings m with
  | none => rfl
  | some e => exact absurd k (h.file m (.inl ⟨e, state_of_bindings hb⟩))

theorem noteDependency_inv {files : Files I} {V : Mod → Option E} {p : Table E} {d : Mod}
    {r : Table E × Loaded} (h : Outcome files V p d r) (names libs : List Mod)
    (hs : r.2 ≠ .stuck) :
    Inv files V (noteDependency names d r libs).1 ∧ Grows r.1 (noteDependency names d r libs).1 := by
  obtain ⟨q, l⟩ := r
  cases l with
  | ok => exact ⟨h.inv.setError (by simp), Grows.setError _ _ _⟩
  | notFound => exact ⟨h.inv.setError (by simp), Grows.setError _ _ _⟩
  | circular => exact ⟨h.inv.setError (fun _ => h.circ rfl), Grows.setError _ _ _⟩
  | stuck => exact absurd rfl hs

theorem deps_spec {El : Elaborator E I σ} {files : Files I} {V : Mod → Option E}
    (hV : Result El files V) {n : Nat} {load : Table E → Mod → Table E × Loaded}
    (hload : LoadsWell files V n load) {m : Mod} (names : List Mod) (ds : List Mod)
    (p : Table E) (libs : List Mod) (hp : Inv files V p)
    (hup : ∀ x, p.states x = some .loading → x = m ∨ Below files m x)
    (hm : p.states m = some .loading) (hds : ∀ d ∈ ds, Needs files d m) :
    ((loadDependencies load m names p libs ds).2.2 = true →
      Inv files V (loadDependencies load m names p libs ds).1 ∧
      Grows p (loadDependencies load m names p libs ds).1 ∧
      (∀ d ∈ ds, Known files (loadDependencies load m names p libs ds).1 d) ∧
      ((∀ d ∈ ds, (loadDependencies load m names p libs ds).1.bindings d ≠ none) →
        (loadDependencies load m names p libs ds).2.1 = libs ++ ds.filter (· ∈ names))) ∧
    (left files p < n → (loadDependencies load m names p libs ds).2.2 = true) := by
  induction ds generalizing p libs with
  | nil => simp [loadDependencies, hp, Grows.refl]
  | cons d ds ih =>
    have hds' : ∀ x ∈ ds, Needs files x m := fun x hx => hds x (.tail _ hx)
    rw [loadDependencies]
    by_cases e : d = m
    · rw [if_pos e]
      obtain ⟨h1, h2⟩ := ih p libs hp hup hm hds'
      refine ⟨fun ht => ?_, h2⟩
      obtain ⟨a, b, c, f⟩ := h1 ht
      have hl := (b.loading m).2 hm
      refine ⟨a, b, fun x hx => ?_, fun hx => ?_⟩
      · rcases List.mem_cons.1 hx with rfl | hx
        · rw [e]; exact .inr (.inl hl)
        · exact c x hx
      · exact absurd (loading_none hl) (by rw [← e]; exact e ▸ hx d (.head _))
    · rw [if_neg e]
      have hn := hds d (.head _)
      have hup' : ∀ x, p.states x = some .loading → Below files d x := by
        intro x hx
        rcases hup x hx with hxm | hb
        · rw [hxm]; exact .direct hn
        · exact Below.trans (.direct hn) hb
      obtain ⟨g1, g2⟩ := hload p d hp hup'
      simp only
      by_cases hs : (load p d).2 = .stuck
      · rw [if_pos hs]
        exact ⟨fun h => (by cases h), fun h => absurd hs (g2 h)⟩
      · rw [if_neg hs]
        have o := g1 hs
        obtain ⟨i1, i2⟩ := noteDependency_inv o names libs hs
        have gr : Grows p (noteDependency names d (load p d) libs).1 := o.grows.trans i2
        obtain ⟨h1, h2⟩ := ih _ (noteDependency names d (load p d) libs).2 i1
          (fun x hx => hup x ((gr.loading x).1 hx)) ((gr.loading m).2 hm) hds'
        refine ⟨fun ht => ?_, fun hl => h2 (Nat.lt_of_le_of_lt gr.left hl)⟩
        obtain ⟨a, b, c, f⟩ := h1 ht
        refine ⟨a, gr.trans b, fun x hx => ?_, fun hx => ?_⟩
        · rcases List.mem_cons.1 hx with rfl | hx
          · exact b.known (i2.known o.known)
          · exact c x hx
        · rw [f (fun x k => hx x (.tail _ k))]
          have hb := hx d (.head _)
          have hok : (load p d).2 = .ok := by
            cases hr : (load p d).2 with
            | ok => rfl
            | stuck => exact absurd hr hs
            | circular => exact absurd (circular_none hV a (o.circ hr)) hb
            | notFound => exact absurd (missing_none a (o.missing hr)) hb
          have hl : (noteDependency names d (load p d) libs).2
              = if d ∈ names then libs ++ [d] else libs := by
            generalize hq : load p d = q at hok
            obtain ⟨q, l⟩ := q
            simp only at hok
            subst hok
            rfl
          rw [hl, List.filter_cons]
          by_cases k : d ∈ names <;> simp [k]

/-- The modules that a module needs: those its file names, and the prelude. -/
theorem needs_iff {files : Files I} {m : Mod} {stmts : List (Stmt I)}
    (hf : files.lookup m = some (.parsed stmts)) (d : Mod) :
    Needs files d m ↔ d ∈ dependencyNames stmts ∨ (d = preludeMod ∧ m ≠ preludeMod) := by
  unfold Needs
  rw [mem_dependencyNames]
  constructor
  · rintro ⟨s, h, k⟩
    rw [hf] at h
    simp only [Option.some.injEq, File.parsed.injEq] at h
    subst h
    exact k
  · intro k
    exact ⟨stmts, hf, k⟩

/-- Elaborating a module whose needed modules are all known gives what the project means. -/
theorem elaborate_result {El : Elaborator E I σ} {files : Files I} {V : Mod → Option E}
    (hV : Result El files V) (hl : Local El files) (hpre : ¬ Circular files preludeMod)
    {m : Mod} {stmts : List (Stmt I)} (hf : files.lookup m = some (.parsed stmts))
    {p : Table E} (hp : Inv files V p) {libs : List Mod}
    (hup : ∀ x, p.states x = some .loading → Below files x m → x = m ∨ Below files m x)
    (hk : ∀ d, Needs files d m → Known files p d)
    (hlibs : (∀ d ∈ dependencyNames stmts, p.bindings d ≠ none) →
      libs = (dependencyNames stmts).filter (· ∈ libNames stmts)) :
    (∀ e, elaborate El p m stmts libs = .ok e → V m = some e) ∧
    (∀ c, elaborate El p m stmts libs = .error c → V m = none) ∧
    (elaborate El p m stmts libs = .error true → Circular files m) := by
  by_cases hc : Circular files m
  · have hnot : ∀ e, elaborate El p m stmts libs ≠ .ok e := by
      intro e he
      obtain ⟨s, hs, _⟩ := elaborate_ok he
      obtain ⟨d, hn, hd⟩ := hc.needs
      rcases (needs_iff hf d).1 hn with k | ⟨rfl, _⟩
      · obtain ⟨st, hst, hx⟩ := mem_dependencyNames.1 k
        exact buildStmts_mem hs st hst d hx (circular_none hV hp hd)
      · exact hpre hd
    exact ⟨fun e he => absurd he (hnot e), fun _ _ => hV.circular m hc, fun _ => hc⟩
  · have key : ∀ x k, Below files x k → (k = m ∨ Below files k m) → (k = m ∨ Finished p k) →
        Known files p x := by
      intro x k hb
      induction hb with
      | @direct k n =>
        rintro _ (rfl | hfin)
        · exact hk _ n
        · exact hp.closed k hfin _ n
      | @through k' k b n ih =>
        intro hkm hfin
        have hbelow : Below files k' m := by
          rcases hkm with rfl | hkm
          · exact .direct n
          · exact Below.trans (.direct n) hkm
        have hknown : Known files p k' := by
          rcases hfin with rfl | hfin
          · exact hk _ n
          · exact hp.closed k hfin _ n
        refine ih (.inr hbelow) ?_
        rcases hknown with h | h | h
        · exact .inr h
        · rcases hup k' h hbelow with rfl | h
          · exact .inl rfl
          · exact absurd (.inl (h.trans hbelow)) hc
        · exfalso
          cases b with
          | direct n' => obtain ⟨_, h', _⟩ := n'; rw [h] at h'; cases h'
          | through _ n' => obtain ⟨_, h', _⟩ := n'; rw [h] at h'; cases h'
    have hview : ∀ x, Below files x m → p.bindings x = V x := by
      intro x hx
      rcases key x m hx (.inl rfl) (.inl rfl) with h | h | h
      · exact bindings_eq hp h
      · rcases hup x h hx with rfl | h
        · exact absurd (.inl hx) hc
        · exact absurd (.inl (h.trans hx)) hc
      · have hnc : ¬ Circular files x := fun k => hc (k.of_below hx)
        rw [hV.build x hnc, missing_none hp h]
        unfold buildFile
        rw [h]
    have hb := hV.build m hc
    rw [← buildFile_local hview hl] at hb
    unfold buildFile at hb
    rw [hf] at hb
    simp only at hb
    refine ⟨fun e he => ?_, fun c he => ?_, fun he => ?_⟩
    · obtain ⟨s, hs, rfl⟩ := elaborate_ok he
      have hl' := hlibs (fun d hd => by
        obtain ⟨st, hst, hx⟩ := mem_dependencyNames.1 hd
        exact buildStmts_mem hs st hst d hx)
      rw [hb, libsOf_eq, ← hl', hs, Option.map_some]
    · rw [hb, Option.map_eq_none_iff]
      cases hs : buildStmts El p.bindings m
        ((libsOf stmts).foldl El.addLib
          (El.start m (if m = preludeMod then none else p.bindings preludeMod))) stmts with
      | none => rfl
      | some s =>
        have hl' := hlibs (fun d hd => by
          obtain ⟨st, hst, hx⟩ := mem_dependencyNames.1 hd
          exact buildStmts_mem hs st hst d hx)
        rw [libsOf_eq, ← hl'] at hs
        rw [elaborate_of hs ?_] at he
        · cases he
        · intro st hst d hd
          rw [hl', List.mem_filter]
          exact ⟨mem_dependencyNames.2 ⟨st, hst, .inr hd⟩,
            by simpa using mem_libNames.2 ⟨st, hst, hd⟩⟩
    · obtain ⟨st, hst, d, hd, hfind⟩ := elaborate_circular he
      have hn : Needs files d m := (needs_iff hf d).2 (.inl (mem_dependencyNames.2 ⟨st, hst, .inl hd⟩))
      have hcd : Circular files d := by
        unfold Table.find at hfind
        split at hfind
        · split at hfind
          · rename_i err hde
            simp only [Except.error.injEq] at hfind
            subst hfind
            exact hp.dep d hde
          · cases hfind
        · split at hfind
          · rename_i err hde
            simp only [Except.error.injEq] at hfind
            subst hfind
            exact hp.dep d hde
          · cases hfind
        · rename_i h
          rcases hup d h (.direct hn) with rfl | h
          · exact .inl (.direct hn)
          · exact .inl (Below.trans (.direct hn) h)
        · rename_i h; exact hp.cyc d h
        · cases hfind
        · cases hfind
      exact hcd.of_below (.direct hn)

/-- `load_module` loads what it should. -/
theorem load_spec {El : Elaborator E I σ} {files : Files I} {V : Mod → Option E}
    (hV : Result El files V) (hl : Local El files) (hpre : ¬ Circular files preludeMod) (n : Nat) :
    LoadsWell files V n (loadModule El files n) := by
  induction n with
  | zero =>
    intro p m _ _
    exact ⟨fun h => absurd rfl h, fun h => absurd h (Nat.not_lt_zero _)⟩
  | succ n ih =>
    intro p m hp hup
    have fresh : Fresh p m → ((loadModule El files (n + 1) p m).2 ≠ .stuck →
        Outcome files V p m (loadModule El files (n + 1) p m)) ∧
        (left files p < n + 1 → (loadModule El files (n + 1) p m).2 ≠ .stuck) := by
      intro hm
      have e : loadModule El files (n + 1) p m =
          (match files.lookup m with
          | none => (p, .notFound)
          | some .unparsable => (p.set m (.error false), .ok)
          | some (.parsed stmts) =>
            let r := loadDependencies (loadModule El files n) m (libNames stmts)
              (p.set m .loading) [] (dependencyNames stmts)
            if r.2.2 = false then (r.1, .stuck)
            else
              let q := if m = preludeMod then (r.1, Loaded.ok) else loadModule El files n r.1 preludeMod
              if q.2 = .stuck then (q.1, .stuck)
              else
                match elaborate El q.1 m stmts r.2.1 with
                | .ok e => (q.1.set m (.ok e), .ok)
                | .error true => (q.1.set m (.error true), .circular)
                | .error false => (q.1.set m (.error false), .ok)) := by
        rcases hm with h | h <;> simp only [loadModule, h] <;> rfl
      rw [e]
      cases hf : files.lookup m with
      | none =>
        exact ⟨fun _ => ⟨hp, Grows.refl p, by simp, by simp, fun _ => hf, .inr (.inr hf)⟩, by simp⟩
      | some f =>
        cases f with
        | unparsable =>
          have hV0 : V m = none := by
            by_cases hc : Circular files m
            · exact hV.circular m hc
            · rw [hV.build m hc, buildFile, hf]
          have hn : ∀ d, ¬ Needs files d m := by
            rintro d ⟨_, h, _⟩
            rw [hf] at h; cases h
          have fin : Finished (p.set m (.error false)) m := .inr ⟨false, by simp [set_states]⟩
          refine ⟨fun _ => ⟨?_, ?_, fun _ => fin, by simp, by simp, .inl fin⟩, by simp⟩
          · exact hp.finish (.inr ⟨_, rfl⟩) (by simp) (fun _ _ => hV0) (by simp) (by simp [hf])
              (fun d h => absurd h (hn d))
          · constructor
            · intro x hx
              rw [set_states, if_neg]
              rintro rfl
              exact hm.not_finished hx
            · intro x
              rw [set_states]
              by_cases k : x = m
              · rw [if_pos k, k]
                exact ⟨fun h => (by cases h), fun h => absurd h hm.not_loading⟩
              · rw [if_neg k]
        | parsed stmts =>
          simp only
          have hp1 := hp.enter hm
          have hup1 : ∀ x, (p.set m .loading).states x = some .loading → x = m ∨ Below files m x := by
            intro x hx
            rw [set_states] at hx
            by_cases k : x = m
            · exact .inl k
            · rw [if_neg k] at hx; exact .inr (hup x hx)
          have hm1 : (p.set m .loading).states m = some .loading := by simp [set_states]
          have hd := deps_spec hV ih (libNames stmts) (dependencyNames stmts) (p.set m .loading) []
            hp1 hup1 hm1 (fun d h => (needs_iff hf d).2 (.inl h))
          generalize loadDependencies (loadModule El files n) m (libNames stmts)
            (p.set m .loading) [] (dependencyNames stmts) = r at hd ⊢
          obtain ⟨hd1, hd2⟩ := hd
          by_cases hr : r.2.2 = false
          · rw [if_pos hr]
            refine ⟨fun h => absurd rfl h, fun h => ?_⟩
            have := hd2 (Nat.lt_of_lt_of_le (left_enter hm hf) (Nat.le_of_lt_succ h))
            rw [hr] at this; cases this
          · rw [if_neg hr]
            obtain ⟨a, b, c, dl⟩ := hd1 (by simpa using hr)
            have hupr : ∀ x, r.1.states x = some .loading → x = m ∨ Below files m x :=
              fun x hx => hup1 x ((b.loading x).1 hx)
            -- the prelude
            have hq : let q := if m = preludeMod then (r.1, Loaded.ok)
                else loadModule El files n r.1 preludeMod
                (q.2 ≠ .stuck → Inv files V q.1 ∧ Grows r.1 q.1 ∧
                  (m ≠ preludeMod → Known files q.1 preludeMod)) ∧
                (left files p < n + 1 → q.2 ≠ .stuck) := by
              intro q
              by_cases k : m = preludeMod
              · simp only [q, if_pos k]
                exact ⟨fun _ => ⟨a, Grows.refl _, fun h => absurd k h⟩, by simp⟩
              · simp only [q, if_neg k]
                have hnp : Needs files preludeMod m := (needs_iff hf _).2 (.inr ⟨rfl, k⟩)
                obtain ⟨g1, g2⟩ := ih r.1 preludeMod a (fun x hx => by
                  rcases hupr x hx with rfl | h
                  · exact .direct hnp
                  · exact Below.trans (.direct hnp) h)
                refine ⟨fun h => ⟨(g1 h).inv, (g1 h).grows, fun _ => (g1 h).known⟩, fun h => g2 ?_⟩
                exact Nat.lt_of_le_of_lt b.left
                  (Nat.lt_of_lt_of_le (left_enter hm hf) (Nat.le_of_lt_succ h))
            generalize (if m = preludeMod then (r.1, Loaded.ok)
                else loadModule El files n r.1 preludeMod) = q at hq ⊢
            obtain ⟨hq1, hq2⟩ := hq
            by_cases hs : q.2 = .stuck
            · rw [if_pos hs]
              exact ⟨fun h => absurd rfl h, fun h => absurd hs (hq2 h)⟩
            · rw [if_neg hs]
              obtain ⟨qa, qb, qc⟩ := hq1 hs
              have gr : Grows (p.set m .loading) q.1 := b.trans qb
              have hk : ∀ d, Needs files d m → Known files q.1 d := by
                intro d hn
                rcases (needs_iff hf d).1 hn with h | ⟨rfl, h⟩
                · exact qb.known (c d h)
                · exact qc h
              have hlibs : (∀ d ∈ dependencyNames stmts, q.1.bindings d ≠ none) →
                  r.2.1 = (dependencyNames stmts).filter (· ∈ libNames stmts) := by
                intro h
                rw [dl, List.nil_append]
                intro d hd hn
                apply h d hd
                rcases c d hd with k | k | k
                · have := qb.stays d k
                  unfold Table.bindings at hn ⊢
                  rw [this]; exact hn
                · exact loading_none ((qb.loading d).2 k)
                · exact missing_none qa k
              obtain ⟨r1, r2, r3⟩ := elaborate_result hV hl hpre hf qa
                (fun x hx _ => hup1 x ((gr.loading x).1 hx)) hk hlibs
              have done : ∀ s : LoadState E, ((∃ e, s = .ok e) ∨ ∃ c, s = .error c) →
                  Finished (q.1.set m s) m := by
                rintro s (⟨e, rfl⟩ | ⟨c, rfl⟩)
                · exact .inl ⟨e, by simp [set_states]⟩
                · exact .inr ⟨c, by simp [set_states]⟩
              cases hel : elaborate El q.1 m stmts r.2.1 with
              | ok e =>
                refine ⟨fun _ => ⟨?_, ?_, fun _ => done _ (.inl ⟨_, rfl⟩), by simp, by simp,
                  .inl (done _ (.inl ⟨_, rfl⟩))⟩, by simp⟩
                · exact qa.finish (.inl ⟨_, rfl⟩)
                    (fun e' h => by cases h; exact r1 e hel) (by simp) (by simp) (by simp [hf]) hk
                · exact grows_finish hm (.inl ⟨_, rfl⟩) gr
              | error ci =>
                cases ci with
                | true =>
                  refine ⟨fun _ => ⟨?_, ?_, fun _ => done _ (.inr ⟨_, rfl⟩), fun _ => r3 hel, by simp,
                    .inl (done _ (.inr ⟨_, rfl⟩))⟩, by simp⟩
                  · exact qa.finish (.inr ⟨_, rfl⟩) (by simp) (fun _ _ => r2 _ hel)
                      (fun _ => r3 hel) (by simp [hf]) hk
                  · exact grows_finish hm (.inr ⟨_, rfl⟩) gr
                | false =>
                  refine ⟨fun _ => ⟨?_, ?_, fun _ => done _ (.inr ⟨_, rfl⟩), by simp, by simp,
                    .inl (done _ (.inr ⟨_, rfl⟩))⟩, by simp⟩
                  · exact qa.finish (.inr ⟨_, rfl⟩) (by simp) (fun _ _ => r2 _ hel)
                      (by simp) (by simp [hf]) hk
                  · exact grows_finish hm (.inr ⟨_, rfl⟩) gr
    rcases fresh_cases p m with h | h | h
    · exact fresh h
    · have e : loadModule El files (n + 1) p m = (p, .circular) := by rw [loadModule, h]
      rw [e]
      exact ⟨fun _ => ⟨hp, Grows.refl p, by simp, fun _ => .inl (hup m h), by simp, .inr (.inl h)⟩,
        by simp⟩
    · have e : loadModule El files (n + 1) p m = (p, .ok) := by
        rcases h with ⟨_, h⟩ | ⟨_, h⟩ <;> rw [loadModule, h]
      rw [e]
      exact ⟨fun _ => ⟨hp, Grows.refl p, fun _ => h, by simp, by simp, .inl h⟩, by simp⟩

end Acorn.Proj
