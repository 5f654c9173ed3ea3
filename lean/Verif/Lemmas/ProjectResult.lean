import Verif.Lemmas.ProjectLoadRun
/-
The meaning of a project exists and is unique; requests keep the invariant.
-/
namespace Acorn.Proj

variable {E I σ : Type}

/-! ### Existence and uniqueness -/

theorem nodup_length_le {L l : List Mod} (hn : L.Nodup) (hs : ∀ x ∈ L, x ∈ l) :
    L.length ≤ l.length := by
  induction L generalizing l with
  | nil => simp
  | cons a L ih =>
    have ha := hs a (.head _)
    have hn' := List.nodup_cons.1 hn
    have := ih (l := l.erase a) hn'.2 (fun x hx => by
      rw [List.mem_erase_of_ne]
      · exact hs x (.tail _ hx)
      · rintro rfl; exact hn'.1 hx)
    rw [List.length_erase_of_mem ha] at this
    have : 0 < l.length := List.length_pos_of_mem ha
    simp only [List.length_cons]
    omega

theorem below_file {files : Files I} {x m : Mod} (h : Below files x m) :
    m ∈ files.map (·.1) := by
  cases h with
  | direct n => obtain ⟨_, h, _⟩ := n; exact mem_of_lookup h
  | through _ n => obtain ⟨_, h, _⟩ := n; exact mem_of_lookup h

theorem acc_aux {files : Files I} (n : Nat) : ∀ (L : List Mod) (m : Mod), L.Nodup →
    (∀ x ∈ L, x ∈ files.map (·.1) ∧ Below files m x) → L.length + n = files.length + 1 →
    ¬ Circular files m → Acc (Below files) m := by
  induction n with
  | zero =>
    intro L m hn hL hlen _
    have := nodup_length_le hn (fun x hx => (hL x hx).1)
    rw [List.length_map] at this
    omega
  | succ n ih =>
    intro L m hn hL hlen hc
    constructor
    intro d hd
    have hm : m ∉ L := fun h => hc (.inl (hL m h).2)
    apply ih (m :: L) d (List.nodup_cons.2 ⟨hm, hn⟩) _ _ (fun h => hc (h.of_below hd))
    · intro x hx
      rcases List.mem_cons.1 hx with rfl | hx
      · exact ⟨below_file hd, hd⟩
      · exact ⟨(hL x hx).1, hd.trans (hL x hx).2⟩
    · simp only [List.length_cons]; omega

theorem acc_of_not_circular {files : Files I} {m : Mod} (h : ¬ Circular files m) :
    Acc (Below files) m :=
  acc_aux (files.length + 1) [] m List.nodup_nil (by simp) (by simp) h

open Classical in
/-- What a module elaborates to, by recursion on the modules it needs. -/
noncomputable def value (El : Elaborator E I σ) (files : Files I) (m : Mod)
    (h : Acc (Below files) m) : Option E :=
  Acc.rec (motive := fun _ _ => Option E)
    (fun m _ ih => buildFile El files (fun x => if hx : Below files x m then ih x hx else none) m) h

open Classical in
theorem value_eq (El : Elaborator E I σ) (files : Files I) (m : Mod)
    (h : Acc (Below files) m) :
    value El files m h = buildFile El files
      (fun x => if hx : Below files x m then value El files x (h.inv hx) else none) m := by
  cases h with
  | intro _ h => rfl

open Classical in
theorem result_exists (El : Elaborator E I σ) (files : Files I) (hl : Local El files) :
    ∃ V, Result El files V := by
  refine ⟨fun m => if h : Circular files m then none
    else value El files m (acc_of_not_circular h), ?_, ?_⟩
  · intro m hm
    simp only [dif_neg hm]
    rw [value_eq]
    apply buildFile_local _ hl
    intro x hx
    have : ¬ Circular files x := fun k => hm (k.of_below hx)
    simp only [dif_pos hx, dif_neg this]
  · intro m hm
    simp only [dif_pos hm]

theorem result_unique {El : Elaborator E I σ} {files : Files I} (hl : Local El files)
    {V W : Mod → Option E} (hV : Result El files V) (hW : Result El files W) : V = W := by
  funext m
  by_cases h : Circular files m
  · rw [hV.circular m h, hW.circular m h]
  · have ha := acc_of_not_circular h
    induction ha with
    | intro m _ ih =>
      rw [hV.build m h, hW.build m h]
      apply buildFile_local _ hl
      intro x hx
      exact ih x hx (fun k => h (k.of_below hx))

/-! ### Files that read the same -/

theorem needs_congr {f g : Files I} (h : ∀ m, f.lookup m = g.lookup m) {d m : Mod} :
    Needs f d m ↔ Needs g d m := by
  unfold Needs
  rw [h m]

theorem below_congr {f g : Files I} (h : ∀ m, f.lookup m = g.lookup m) {d m : Mod}
    (k : Below f d m) : Below g d m := by
  induction k with
  | direct n => exact .direct ((needs_congr h).1 n)
  | through _ n ih => exact .through ih ((needs_congr h).1 n)

theorem circular_congr {f g : Files I} (h : ∀ m, f.lookup m = g.lookup m) {m : Mod}
    (k : Circular f m) : Circular g m := by
  rcases k with k | ⟨x, k1, k2⟩
  · exact .inl (below_congr h k)
  · exact .inr ⟨x, below_congr h k1, below_congr h k2⟩

theorem result_congr {El : Elaborator E I σ} {f g : Files I} (h : ∀ m, f.lookup m = g.lookup m)
    {V : Mod → Option E} (k : Result El f V) : Result El g V := by
  constructor
  · intro m hm
    rw [k.build m (fun c => hm (circular_congr h c))]
    unfold buildFile
    rw [h m]
  · intro m hm
    exact k.circular m (circular_congr (fun m => (h m).symm) hm)

theorem local_congr {El : Elaborator E I σ} {f g : Files I} (h : ∀ m, f.lookup m = g.lookup m)
    (k : Local El f) : Local El g :=
  fun m V W hV => k m V W (fun x hx => hV x (below_congr h hx))

/-! ### Projects -/

/-- The table of a project is right for the files that can be read now, and nothing is being
loaded. -/
def Settled (El : Elaborator E I σ) (P : Project E I) : Prop :=
  ∀ V, Result El P.files V → Local El P.files → ¬ Circular P.files preludeMod →
    Inv P.files V P.table ∧ ∀ x, P.table.states x ≠ some .loading

theorem inv_empty (files : Files I) (V : Mod → Option E) : Inv files V (Table.empty : Table E) := by
  constructor <;> simp [Table.empty, Finished]

theorem settled_empty (El : Elaborator E I σ) (P : Project E I) (h : P.table = .empty) :
    Settled El P := by
  intro V _ _ _
  rw [h]
  exact ⟨inv_empty _ _, by simp [Table.empty]⟩

theorem register_states (p : Table E) (disk : List Mod) (x : Mod) :
    (p.register disk).states x = p.states x ∨
      (p.states x = none ∧ (p.register disk).states x = some .registered) := by
  unfold Table.register
  cases h : p.states x with
  | some s => exact .inl (by simp only [h])
  | none =>
    simp only [h]
    split
    · exact .inr ⟨trivial, rfl⟩
    · exact .inl rfl

theorem register_grows (p : Table E) (disk : List Mod) : Grows p (p.register disk) := by
  constructor
  · intro x hx
    rcases register_states p disk x with h | ⟨h, _⟩
    · exact h
    · rcases hx with ⟨_, k⟩ | ⟨_, k⟩ <;> rw [h] at k <;> cases k
  · intro x
    rcases register_states p disk x with h | ⟨h, k⟩
    · rw [h]
    · rw [h, k]; simp

theorem register_back {p : Table E} {disk : List Mod} {x : Mod}
    (h : Finished (p.register disk) x) : Finished p x := by
  rcases register_states p disk x with k | ⟨_, k⟩
  · unfold Finished at h ⊢; rw [k] at h; exact h
  · rcases h with ⟨_, h⟩ | ⟨_, h⟩ <;> rw [k] at h <;> cases h

theorem Inv.register {files : Files I} {V : Mod → Option E} {p : Table E} (h : Inv files V p)
    (disk : List Mod) : Inv files V (p.register disk) := by
  have same : ∀ x, Finished (p.register disk) x → (p.register disk).states x = p.states x :=
    fun x hx => (register_grows p disk).stays x (register_back hx)
  constructor
  · intro x e hx; exact h.ok x e ((same x (.inl ⟨e, hx⟩)) ▸ hx)
  · intro x c hx; exact h.err x c ((same x (.inr ⟨c, hx⟩)) ▸ hx)
  · intro x hx; exact h.cyc x ((same x (.inr ⟨true, hx⟩)) ▸ hx)
  · exact h.dep
  · intro x hx; exact h.file x (register_back hx)
  · intro x hx d hd
    exact (register_grows p disk).known (h.closed x (register_back hx) d hd)

theorem left_le (files : Files I) (p : Table E) : left files p ≤ files.length := by
  unfold Proj.left
  exact Nat.le_trans (List.length_filter_le _ _) (by rw [List.length_map]; exact Nat.le_refl _)

/-- What loading one module of a settled project does. -/
theorem project_load {El : Elaborator E I σ} {P : Project E I} (hP : Settled El P)
    {V : Mod → Option E} (hV : Result El P.files V) (hl : Local El P.files)
    (hpre : ¬ Circular P.files preludeMod) (m : Mod) :
    (P.load El m).2 ≠ .stuck ∧
      Outcome P.files V P.table m ((P.load El m).1.table, (P.load El m).2) := by
  obtain ⟨hi, hn⟩ := hP V hV hl hpre
  have hg := register_grows P.table (P.disk.map (·.1))
  have h := load_spec hV hl hpre P.depth (P.table.register (P.disk.map (·.1))) m
    (hi.register _) (fun x hx => absurd ((hg.loading x).1 hx) (hn x))
  have hs := h.2 (Nat.lt_of_le_of_lt (left_le _ _) (by unfold Project.depth; omega))
  have o := h.1 hs
  exact ⟨hs, ⟨o.inv, hg.trans o.grows, o.ok, o.circ, o.missing, o.known⟩⟩

theorem load_files {El : Elaborator E I σ} (P : Project E I) (m : Mod) :
    (P.load El m).1.files = P.files := rfl

theorem settled_load {El : Elaborator E I σ} {P : Project E I} (hP : Settled El P) (m : Mod) :
    Settled El (P.load El m).1 := by
  intro V hV hl hpre
  rw [load_files] at *
  obtain ⟨_, o⟩ := project_load hP hV hl hpre m
  exact ⟨o.inv, fun x hx => (hP V hV hl hpre).2 x ((o.grows.loading x).1 hx)⟩

theorem settled_addTarget {El : Elaborator E I σ} {P : Project E I} (hP : Settled El P)
    (m : Mod) : Settled El (P.addTarget m) := hP

theorem settled_loads {El : Elaborator E I σ} (ts : List Mod) {P : Project E I}
    (hP : Settled El P) : Settled El (ts.foldl (fun P t => (P.load El t).1) P) := by
  induction ts generalizing P with
  | nil => exact hP
  | cons t ts ih => exact ih (settled_load hP t)

theorem settled_reload {El : Elaborator E I σ} {P : Project E I} (hP : Settled El P) :
    Settled El (P.reload El) := settled_loads _ hP

theorem updateState_cases (P : Project E I) (m : Mod) (f : File I) (v : Int) :
    ((∃ g, P.opened.lookup m = some (g, v)) ∧ P.updateState m f v = (P, false)) ∨
    ((∀ g, P.opened.lookup m ≠ some (g, v)) ∧ P.updateState m f v =
      (({ P with opened := (m, f, v) :: P.opened.filter (fun x => x.1 ≠ m), table := .empty }).addTarget m,
        true)) := by
  unfold Project.updateState
  split
  · rename_i g w hg
    by_cases h : v = w
    · left; subst h; exact ⟨⟨g, hg⟩, by simp⟩
    · right
      refine ⟨?_, by simp [h]⟩
      intro g' hg'
      rw [hg] at hg'
      simp only [Option.some.injEq, Prod.mk.injEq] at hg'
      exact h hg'.2.symm
  · rename_i hg
    right
    exact ⟨fun g h => (by rw [hg] at h; cases h), rfl⟩

theorem settled_handle {El : Elaborator E I σ} {P : Project E I} (hP : Settled El P)
    (r : Request I) : Settled El (P.handle El r) := by
  cases r with
  | update m f v =>
    simp only [Project.handle, Project.update]
    rcases updateState_cases P m f v with ⟨_, h⟩ | ⟨_, h⟩
    · rw [h]; exact hP
    · rw [h]; exact settled_reload (settled_empty El _ rfl)
  | updateIde m f v =>
    simp only [Project.handle, Project.updateIde]
    rcases updateState_cases P m f v with ⟨_, h⟩ | ⟨_, h⟩
    · rw [h]; exact hP
    · rw [h]; exact settled_empty El _ rfl
  | close m =>
    simp only [Project.handle, Project.close]
    split
    · exact hP
    · exact settled_reload (settled_empty El _ rfl)
  | target m => exact settled_load hP m
  | load m => exact settled_load hP m
  | reload => exact settled_reload hP

theorem settled_run {El : Elaborator E I σ} (h : List (Request I)) {P : Project E I}
    (hP : Settled El P) : Settled El (h.foldl (Project.handle El) P) := by
  induction h generalizing P with
  | nil => exact hP
  | cons r h ih => exact ih (settled_handle hP r)

/-! ### What is open -/

theorem loads_opened {El : Elaborator E I σ} (ts : List Mod) (P : Project E I) :
    (ts.foldl (fun P t => (P.load El t).1) P).opened = P.opened ∧
    (ts.foldl (fun P t => (P.load El t).1) P).disk = P.disk ∧
    (ts.foldl (fun P t => (P.load El t).1) P).targets = P.targets := by
  induction ts generalizing P with
  | nil => exact ⟨rfl, rfl, rfl⟩
  | cons t ts ih =>
    obtain ⟨a, b, c⟩ := ih (P := (P.load El t).1)
    exact ⟨a, b, c⟩

theorem reload_opened {El : Elaborator E I σ} (P : Project E I) :
    (P.reload El).opened = P.opened ∧ (P.reload El).disk = P.disk ∧
      (P.reload El).targets = P.targets := loads_opened _ P

theorem lookup_filter_ne {α : Type} (l : List (Mod × α)) (n m : Mod) :
    (l.filter (fun x => x.1 ≠ n)).lookup m = if n = m then none else l.lookup m := by
  induction l with
  | nil => simp
  | cons a l ih =>
    obtain ⟨k, v⟩ := a
    rw [List.filter_cons]
    by_cases h : k = n
    · subst h
      simp only [ne_eq, not_true_eq_false, decide_false, Bool.false_eq_true, if_false, ih,
        List.lookup_cons]
      by_cases e : k = m
      · simp [e]
      · have : (m == k) = false := beq_false_of_ne (fun x => e x.symm)
        simp [e, this]
    · simp only [ne_eq, h, not_false_eq_true, decide_true, if_true, List.lookup_cons, ih]
      by_cases e : n = m
      · subst e
        have : (n == k) = false := beq_false_of_ne (fun x => h x.symm)
        simp [this]
      · simp [e]

/-- One request changes what is open as the history says. -/
theorem handle_opened {El : Elaborator E I σ} (P : Project E I) (r : Request I) (m : Mod) :
    (P.handle El r).disk = P.disk ∧
    openAfter m (P.opened.lookup m) [r] = (P.handle El r).opened.lookup m := by
  have upd : ∀ n f v, (P.updateState n f v).1.disk = P.disk ∧
      (if n = m then (if (P.opened.lookup m).map (·.2) = some v then P.opened.lookup m
        else some (f, v)) else P.opened.lookup m) = (P.updateState n f v).1.opened.lookup m := by
    intro n f v
    rcases updateState_cases P n f v with ⟨⟨g, hg⟩, h⟩ | ⟨hg, h⟩
    · rw [h]
      refine ⟨rfl, ?_⟩
      split
      · rename_i e; subst e; simp [hg]
      · rfl
    · rw [h]
      refine ⟨rfl, ?_⟩
      simp only [Project.addTarget, List.lookup_cons]
      by_cases e : n = m
      · subst e
        simp only [if_true, beq_self_eq_true]
        rw [if_neg]
        cases ho : P.opened.lookup n with
        | none => simp
        | some x =>
          obtain ⟨g, w⟩ := x
          simp only [Option.map_some, Option.some.injEq]
          rintro rfl
          exact hg g ho
      · have : (m == n) = false := beq_false_of_ne (fun x => e x.symm)
        rw [if_neg e, this]
        simp only
        rw [lookup_filter_ne, if_neg e]
  cases r with
  | update n f v =>
    simp only [Project.handle, Project.update, openAfter]
    obtain ⟨a, b⟩ := upd n f v
    by_cases h : (P.updateState n f v).2 = true
    · rw [if_pos h, (reload_opened _).1, (reload_opened _).2.1]; exact ⟨a, b⟩
    · rw [if_neg h]; exact ⟨a, b⟩
  | updateIde n f v => exact upd n f v
  | close n =>
    simp only [Project.handle, Project.close, openAfter]
    split
    · rename_i h
      refine ⟨rfl, ?_⟩
      split
      · rename_i e; rw [← e, h]
      · rfl
    · rw [(reload_opened _).1, (reload_opened _).2.1]
      refine ⟨rfl, ?_⟩
      exact (lookup_filter_ne _ _ _).symm
  | target n => exact ⟨rfl, rfl⟩
  | load n => exact ⟨rfl, rfl⟩
  | reload =>
    simp only [Project.handle, openAfter]
    rw [(reload_opened _).1, (reload_opened _).2.1]; exact ⟨rfl, rfl⟩

theorem run_opened {El : Elaborator E I σ} (h : List (Request I)) (P : Project E I) (m : Mod) :
    (h.foldl (Project.handle El) P).disk = P.disk ∧
    openAfter m (P.opened.lookup m) h = (h.foldl (Project.handle El) P).opened.lookup m := by
  induction h generalizing P with
  | nil => exact ⟨rfl, rfl⟩
  | cons r h ih =>
    obtain ⟨a, b⟩ := handle_opened (El := El) P r m
    obtain ⟨c, d⟩ := ih (P.handle El r)
    refine ⟨c.trans a, ?_⟩
    rw [List.foldl_cons, ← d, ← b]
    rfl

theorem files_lookup (P : Project E I) (m : Mod) :
    P.files.lookup m = match P.opened.lookup m with
      | some (f, _) => some f
      | none => P.disk.lookup m := by
  unfold Project.files
  induction P.opened with
  | nil => rfl
  | cons a l ih =>
    obtain ⟨k, f, v⟩ := a
    simp only [List.map_cons, List.cons_append, List.lookup_cons]
    split
    · rfl
    · exact ih

/-- Loading several modules finishes each that has a file. -/
theorem loads_finish {El : Elaborator E I σ} (ts : List Mod) {P : Project E I}
    (hP : Settled El P) {V : Mod → Option E} (hV : Result El P.files V) (hl : Local El P.files)
    (hpre : ¬ Circular P.files preludeMod) :
    (∀ x, Finished P.table x → Finished (ts.foldl (fun P t => (P.load El t).1) P).table x) ∧
    ∀ t ∈ ts, P.files.lookup t ≠ none →
      Finished (ts.foldl (fun P t => (P.load El t).1) P).table t := by
  induction ts generalizing P with
  | nil => exact ⟨fun _ h => h, by simp⟩
  | cons t ts ih =>
    obtain ⟨_, o⟩ := project_load hP hV hl hpre t
    obtain ⟨a, b⟩ := ih (settled_load hP t) hV hl hpre
    refine ⟨fun x hx => a x (o.grows.finished hx), fun x hx hf => ?_⟩
    rcases List.mem_cons.1 hx with rfl | hx
    · apply a
      rcases o.known with h | h | h
      · exact h
      · exact absurd ((o.grows.loading _).1 h) ((hP V hV hl hpre).2 _)
      · exact absurd h hf
    · exact b x hx hf

end Acorn.Proj
