/-
Helper lemmas for C64.
-/
import Verif.Spec.Lint
namespace Acorn
namespace Lint

/-- A usage has something. -/
def Usage.Has (u : Usage) : Use → Prop
  | .key k => k ∈ u.exact
  | .module m => m ∈ u.modules

variable {x : Use}

theorem has_empty : ¬ Usage.Has {} x := by cases x <;> simp [Usage.Has]

theorem has_add {u : Usage} {k : Key} : (u.add k).Has x ↔ u.Has x ∨ x = .key k := by
  cases x <;> simp [Usage.Has, Usage.add, or_comm]

theorem has_touch {u : Usage} {m : Nat} : (u.touch m).Has x ↔ u.Has x ∨ x = .module m := by
  cases x <;> simp [Usage.Has, Usage.touch, or_comm]

theorem has_mark {u : Usage} {i : Import} : (u.mark i).Has x ↔ u.Has x ∨ ImportUses i x := by
  unfold Usage.mark ImportUses; rw [has_touch, has_add, or_assoc]

theorem has_fold {α : Type} {f : Usage → α → Usage} {Q : α → Prop} (h : ∀ u a, (f u a).Has x ↔ u.Has x ∨ Q a) :
    ∀ (l : List α) (u : Usage), (l.foldl f u).Has x ↔ u.Has x ∨ ∃ a ∈ l, Q a
  | [], u => by simp
  | a :: l, u => by
    rw [List.foldl_cons, has_fold h l, h, or_assoc]
    simp

theorem has_atom {names : Names} (u : Usage) (a : Atom) : (atomUsage names u a).Has x ↔ u.Has x ∨ AtomUses names a x := by
  cases a with
  | constant m i =>
    simp only [atomUsage]
    split
    · rename_i n h
      rw [has_add]
      refine or_congr_right ⟨fun e => e ▸ .named h, fun e => ?_⟩
      cases e with
      | named h' => rw [h] at h'; cases h'; rfl
      | unnamed h' => rw [h] at h'; cases h'
    · rename_i h
      rw [has_touch]
      refine or_congr_right ⟨fun e => e ▸ .unnamed h, fun e => ?_⟩
      cases e with
      | named h' => rw [h] at h'; cases h'
      | unnamed h' => rfl
  | type m =>
    simp only [atomUsage]
    rw [has_touch]
    exact or_congr_right ⟨fun e => e ▸ .type m, fun e => by cases e; rfl⟩
  | typeclass m =>
    simp only [atomUsage]
    rw [has_touch]
    exact or_congr_right ⟨fun e => e ▸ .typeclass m, fun e => by cases e; rfl⟩
  | other => simp only [atomUsage]; exact ⟨.inl, fun h => h.elim id fun h => by cases h⟩

theorem has_clause {names : Names} (u : Usage) (c : Clause) :
    (clauseUsage names u c).Has x ↔ u.Has x ∨ ClauseUses names c x := by
  unfold clauseUsage ClauseUses
  rw [has_fold (Q := fun t => ∃ a ∈ t, AtomUses names a x) fun u t => has_fold has_atom t u]
  simp only [List.mem_append]

theorem has_param (u : Usage) (p : Option Thing) : (paramUsage u p).Has x ↔ u.Has x ∨ ParamUses p x := by
  cases p with
  | none => simp [paramUsage, ParamUses]
  | some c => simp only [paramUsage, has_touch, has_add, ParamUses, ClassUses, or_assoc]; simp

theorem has_const (u : Usage) (ns : List String) : (constantUsage u ns).Has x ↔ u.Has x ∨ ConstUses ns x :=
  has_fold (f := fun u n => u.add (.constant n)) (Q := fun n => x = .key (.constant n)) (fun _ _ => has_add) ns u

mutual
  theorem has_type : ∀ (t : AType) (u : Usage), (t.usage u).Has x ↔ u.Has x ∨ t.Uses x
    | .data d ts, u => by
      simp only [AType.usage, AType.Uses, has_types ts, has_touch, has_add, DataUses, or_assoc]
    | .family d as, u => by
      simp only [AType.usage, AType.Uses, has_args as, has_touch, has_add, DataUses, or_assoc]
    | .variable c, u => by simp only [AType.usage, AType.Uses, has_param]
    | .arbitrary c, u => by simp only [AType.usage, AType.Uses, has_param]
    | .function ts r, u => by simp only [AType.usage, AType.Uses, has_type r, has_types ts, or_assoc]
    | .constraint c, u => by simp only [AType.usage, AType.Uses, has_touch, has_add, ClassUses, or_assoc]
    | .bool, u => by simp [AType.usage, AType.Uses]
    | .type0, u => by simp [AType.usage, AType.Uses]
  theorem has_types : ∀ (ts : ATypes) (u : Usage), (ts.usage u).Has x ↔ u.Has x ∨ ts.Uses x
    | .nil, u => by simp [ATypes.usage, ATypes.Uses]
    | .cons t ts, u => by simp only [ATypes.usage, ATypes.Uses, has_types ts, has_type t, or_assoc]
  theorem has_args : ∀ (as : AArgs) (u : Usage), (as.usage u).Has x ↔ u.Has x ∨ as.Uses x
    | .nil, u => by simp [AArgs.usage, AArgs.Uses]
    | .type t as, u => by simp only [AArgs.usage, AArgs.Uses, has_args as, has_type t, or_assoc]
    | .value ns ts as, u => by simp only [AArgs.usage, AArgs.Uses, has_args as, has_types ts, has_const, or_assoc]
end

theorem has_certStep {names : Names} {u u' : Usage} {s : CertStep} (e : certStepUsage names u s = some u') :
    u'.Has x ↔ u.Has x ∨ StepUses names s x := by
  cases s with
  | claim g s =>
    cases s with
    | none => cases e
    | some c =>
      cases e
      rw [has_clause, has_clause, or_assoc]
      simp [StepUses]
  | satisfy ps as r ns ts g s more ws =>
    cases s with
    | none => cases e
    | some c =>
      cases e
      rw [has_fold has_clause, has_fold has_clause, has_clause, has_clause, has_types, has_const, has_type, has_types,
        has_fold has_param]
      simp only [StepUses, or_assoc]
      refine or_congr_right (or_congr_right (or_congr_right (or_congr_right (or_congr_right (or_congr_right ?_)))))
      constructor
      · rintro (h | h | ⟨a, ha, h⟩ | ⟨a, ha, h⟩)
        · exact ⟨g, .inl rfl, h⟩
        · exact ⟨c, .inr (.inl rfl), h⟩
        · exact ⟨a, .inr (.inr (.inl (by simpa using ha))), h⟩
        · exact ⟨a, .inr (.inr (.inr ha)), h⟩
      · rintro ⟨a, rfl | h | h | h, k⟩
        · exact .inl k
        · cases h; exact .inr (.inl k)
        · exact .inr (.inr (.inl ⟨a, by simp [h], k⟩))
        · exact .inr (.inr (.inr ⟨a, h, k⟩))

theorem certStep_readable {names : Names} {u : Usage} {s : CertStep} {l : String} :
    certStepUsage names u s = none ↔ ¬ Readable (l, some s) := by
  cases s with
  | claim g s => cases s <;> simp [certStepUsage, Readable]
  | satisfy ps as r ns ts g s more ws => cases s <;> simp [certStepUsage, Readable]

theorem hasPart_iff {p : List Char} : ∀ {l : List Char}, hasPart p l = true ↔ ∃ a b, l = a ++ p ++ b
  | [] => by
    simp only [hasPart, List.isEmpty_iff]
    constructor
    · rintro rfl; exact ⟨[], [], rfl⟩
    · rintro ⟨a, b, h⟩
      have := congrArg List.length h
      simp at this
      exact List.length_eq_zero_iff.1 (by omega)
  | c :: cs => by
    simp only [hasPart, Bool.or_eq_true, List.isPrefixOf_iff_prefix, hasPart_iff]
    constructor
    · rintro (⟨b, h⟩ | ⟨a, b, h⟩)
      · exact ⟨[], b, by simp [h]⟩
      · exact ⟨c :: a, b, by simp [h]⟩
    · rintro ⟨a, b, h⟩
      cases a with
      | nil => exact .inl ⟨b, by simpa using h.symm⟩
      | cons d a =>
        simp only [List.cons_append, List.cons.injEq] at h
        exact .inr ⟨a, b, h.2⟩

theorem contains_iff {text part : String} : contains text part = true ↔ PartOf part text := hasPart_iff

theorem has_text {is : List Import} (u : Usage) (claim : String) :
    (textUsage is u claim).Has x ↔ u.Has x ∨ TextUses (· ∈ is) claim x := by
  unfold textUsage TextUses
  refine has_fold (Q := fun i => (PartOf i.importName claim ∨ PartOf ("lib(" ++ i.moduleName ++ ")") claim) ∧
    ImportUses i x) (fun u i => ?_) is u
  split
  · rename_i h
    rw [Bool.or_eq_true, contains_iff, contains_iff] at h
    rw [has_mark]
    simp [h]
  · rename_i h
    rw [Bool.or_eq_true, contains_iff, contains_iff] at h
    simp [h]

theorem has_trace {is : List Import} {names : Names} : ∀ {ls : List (String × Option CertStep)} {u u' : Usage},
    traceUsage is names u ls = some u' → (∀ l ∈ ls, Readable l) ∧
    (u'.Has x ↔ u.Has x ∨ ∃ l ∈ ls, TextUses (· ∈ is) l.1 x ∨ ∃ s, l.2 = some s ∧ StepUses names s x)
  | [], u, u', e => by cases e; simp
  | (claim, s) :: ls, u, u', e => by
    simp only [traceUsage, Option.bind_eq_bind, Option.bind_eq_some_iff] at e
    obtain ⟨s', rfl, u1, e1, e⟩ := e
    obtain ⟨h1, h2⟩ := has_trace e
    refine ⟨fun l hl => ?_, ?_⟩
    · rcases List.mem_cons.1 hl with rfl | hl
      · refine Classical.byContradiction fun hn => ?_
        rw [certStep_readable.2 hn] at e1; cases e1
      · exact h1 l hl
    · rw [h2, has_certStep e1, has_text]
      simp [or_assoc]

theorem trace_none {is : List Import} {names : Names} : ∀ {ls : List (String × Option CertStep)} {u : Usage},
    traceUsage is names u ls = none → ∃ l ∈ ls, ¬ Readable l
  | [], u, e => by cases e
  | (claim, none) :: ls, u, e => ⟨_, List.mem_cons_self .., fun h => h⟩
  | (claim, some s) :: ls, u, e => by
    simp only [traceUsage, Option.bind_eq_bind, Option.bind_some] at e
    cases h : certStepUsage names (textUsage is u claim) s with
    | none => exact ⟨_, List.mem_cons_self .., certStep_readable.1 h⟩
    | some u1 =>
      rw [h] at e
      obtain ⟨l, hl, hn⟩ := trace_none e
      exact ⟨l, List.mem_cons_of_mem _ hl, hn⟩

/-- What a certificate uses. -/
def CertUses (is : List Import) (g : Goal) (c : Cert) (x : Use) : Prop :=
  ∃ l ∈ (g.read c).lines, TextUses (· ∈ is) l.1 x ∨ ∃ s, l.2 = some s ∧ StepUses g.names s x

theorem has_certs {is : List Import} {g : Goal} : ∀ {cs : List Cert} {u u' : Usage}, certsUsage is g u cs = some u' →
    (∀ c ∈ cs, ¬ Unreadable g c) ∧ (u'.Has x ↔ u.Has x ∨ ∃ c ∈ cs, CertUses is g c x)
  | [], u, u', e => by cases e; simp
  | c :: cs, u, u', e => by
    unfold certsUsage at e
    split at e
    · cases e
    · rename_i hl
      simp only [Option.bind_eq_bind, Option.bind_eq_some_iff] at e
      obtain ⟨u1, e1, e⟩ := e
      obtain ⟨h1, h2⟩ := has_trace (x := x) e1
      obtain ⟨h3, h4⟩ := has_certs e
      refine ⟨fun d hd => ?_, ?_⟩
      · rcases List.mem_cons.1 hd with rfl | hd
        · rintro (h | ⟨l, hl, hn⟩)
          · simp [h] at hl
          · exact hn (h1 l hl)
        · exact h3 d hd
      · rw [h4, h2, or_assoc]
        simp [CertUses]

theorem certs_none {is : List Import} {g : Goal} : ∀ {cs : List Cert} {u : Usage}, certsUsage is g u cs = none →
    ∃ c ∈ cs, Unreadable g c
  | [], u, e => by cases e
  | c :: cs, u, e => by
    unfold certsUsage at e
    split at e
    · rename_i hl
      exact ⟨c, by simp, .inl (by simpa using hl)⟩
    · cases h : traceUsage is g.names u (g.read c).lines with
      | none =>
        obtain ⟨l, hl, hn⟩ := trace_none h
        exact ⟨c, by simp, .inr ⟨l, hl, hn⟩⟩
      | some u1 =>
        simp only [h, Option.bind_eq_bind, Option.bind_some] at e
        obtain ⟨d, hd, hu⟩ := certs_none e
        exact ⟨d, by simp [hd], hu⟩

theorem has_all {is : List Import} (u : Usage) : (markAll is u).Has x ↔ u.Has x ∨ ∃ i ∈ is, ImportUses i x :=
  has_fold (f := Usage.mark) (Q := fun i => ImportUses i x) (fun _ _ => has_mark) is u

/-- What the goals use, if the certificates are good. -/
theorem goals_ok {is : List Import} {cs : List Cert} : ∀ {gs : List Goal} {u u' : Usage},
    goalsUsage is cs u gs = .ok u' →
    ((∃ g ∈ gs, ∃ c ∈ cs, c.goal = g.name ∧ Unreadable g c) ∧ ∀ i ∈ is, ∀ x, ImportUses i x → u'.Has x) ∨
    ((¬ ∃ g ∈ gs, ∃ c ∈ cs, c.goal = g.name ∧ Unreadable g c) ∧
      ∀ x, u'.Has x ↔ u.Has x ∨ ∃ g ∈ gs, ∃ c ∈ cs, c.goal = g.name ∧ CertUses is g c x)
  | [], u, u', e => by cases e; exact .inr ⟨by simp, by simp⟩
  | g :: gs, u, u', e => by
    unfold goalsUsage at e
    split at e
    · cases e
    · rename_i c more hc
      rw [← hc] at e
      have hm : ∀ d, d ∈ cs.filter (fun c => c.goal = g.name) ↔ d ∈ cs ∧ d.goal = g.name := by simp
      split at e
      · rename_i hn
        cases e
        obtain ⟨d, hd, hu⟩ := certs_none hn
        obtain ⟨h1, h2⟩ := (hm d).1 hd
        exact .inl ⟨⟨g, by simp, d, h1, h2, hu⟩, fun i hi x hx => (has_all u).2 (.inr ⟨i, hi, hx⟩)⟩
      · rename_i u1 h1
        rcases goals_ok e with ⟨⟨g', hg', h⟩, k⟩ | ⟨hn, k⟩
        · exact .inl ⟨⟨g', by simp [hg'], h⟩, k⟩
        · refine .inr ⟨?_, fun x => ?_⟩
          · rintro ⟨g', hg', d, hd, he, hu⟩
            rcases List.mem_cons.1 hg' with rfl | hg'
            · exact (has_certs (x := .module 0) h1).1 d ((hm d).2 ⟨hd, he⟩) hu
            · exact hn ⟨g', hg', d, hd, he, hu⟩
          · rw [k x, (has_certs h1).2, or_assoc]
            simp only [hm, List.mem_cons, exists_eq_or_imp, and_assoc]

mutual
  theorem mem_imports : ∀ {e : Env} {i : Import}, i ∈ e.allImports ↔ Imports e i
    | .mk is ts bs, i => by
      simp only [Env.allImports, List.mem_append, mem_blockImports]
      constructor
      · rintro (h | h)
        · exact .here h
        · exact .block h
      · rintro (h | h)
        · exact .inl h
        · exact .inr h
  theorem mem_blockImports : ∀ {bs : Envs} {i : Import}, i ∈ bs.allImports ↔ BlockImports bs i
    | .nil, i => by
      simp only [Envs.allImports, List.not_mem_nil, false_iff]
      intro h; cases h
    | .cons b bs, i => by
      simp only [Envs.allImports, List.mem_append, mem_blockImports, mem_imports]
      constructor
      · rintro (h | h)
        · exact .head h
        · exact .tail h
      · rintro (h | h)
        · exact .inl h
        · exact .inr h
end

mutual
  theorem written_imports : ∀ (e : Env), Written e e.allImports
    | .mk _ _ bs => .mk (written_blocks bs)
  theorem written_blocks : ∀ (bs : Envs), BlocksWritten bs bs.allImports
    | .nil => .nil
    | .cons b bs => .cons (written_imports b) (written_blocks bs)
end

mutual
  theorem written_unique : ∀ {e : Env} {is js : List Import}, Written e is → Written e js → is = js
    | .mk _ _ _, _, _, .mk h, .mk k => by rw [blocksWritten_unique h k]
  theorem blocksWritten_unique : ∀ {bs : Envs} {is js : List Import}, BlocksWritten bs is → BlocksWritten bs js → is = js
    | .nil, _, _, .nil, .nil => rfl
    | .cons _ _, _, _, .cons h1 h2, .cons k1 k2 => by rw [written_unique h1 k1, blocksWritten_unique h2 k2]
end

theorem has_tokenFold {keys : List Nat} (u : Usage) (ts : List (Nat × Entity)) :
    (ts.foldl (fun u t => if keys.contains t.1 then u else u.add t.2.key) u).Has x ↔
      u.Has x ∨ ∃ t ∈ ts, t.1 ∉ keys ∧ x = .key t.2.key := by
  refine has_fold (fun u t => ?_) ts u
  split
  · rename_i h
    have h : t.1 ∈ keys := by simpa using h
    simp [h]
  · rename_i h
    have h : t.1 ∉ keys := by simpa using h
    rw [has_add]
    simp [h]

mutual
  theorem has_tokens {keys : List Nat} : ∀ (e : Env) (u : Usage), (e.tokenUsage keys u).Has x ↔
      u.Has x ∨ ∃ k n, Tokens e k n ∧ k ∉ keys ∧ x = .key n.key
    | .mk is ts bs, u => by
      simp only [Env.tokenUsage, has_blockTokens bs, has_tokenFold, or_assoc]
      refine or_congr_right ?_
      constructor
      · rintro (⟨⟨k, n⟩, h, hk⟩ | ⟨k, n, h, hk⟩)
        · exact ⟨k, n, .here h, hk⟩
        · exact ⟨k, n, .block h, hk⟩
      · rintro ⟨k, n, h | h, hk⟩
        · exact .inl ⟨(k, n), h, hk⟩
        · exact .inr ⟨k, n, h, hk⟩
  theorem has_blockTokens {keys : List Nat} : ∀ (bs : Envs) (u : Usage), (bs.tokenUsage keys u).Has x ↔
      u.Has x ∨ ∃ k n, BlockTokens bs k n ∧ k ∉ keys ∧ x = .key n.key
    | .nil, u => by
      simp only [Envs.tokenUsage]
      refine ⟨.inl, fun h => h.elim id ?_⟩
      rintro ⟨k, n, h, _⟩; cases h
    | .cons b bs, u => by
      simp only [Envs.tokenUsage, has_blockTokens bs, has_tokens b, or_assoc]
      refine or_congr_right ?_
      constructor
      · rintro (⟨k, n, h, hk⟩ | ⟨k, n, h, hk⟩)
        · exact ⟨k, n, .head h, hk⟩
        · exact ⟨k, n, .tail h, hk⟩
      · rintro ⟨k, n, h | h, hk⟩
        · exact .inl ⟨k, n, h, hk⟩
        · exact .inr ⟨k, n, h, hk⟩
end

theorem has_exported {ex : String → Entity → Bool} {is : List Import} (u : Usage) :
    (exportedUsage ex is u).Has x ↔ u.Has x ∨ ∃ i ∈ is, ex i.importName i.entity = true ∧ ImportUses i x := by
  refine has_fold (fun u i => ?_) is u
  split
  · rename_i h; rw [has_mark]; simp [h]
  · rename_i h; simp [h]

theorem has_lowered {m : Module} (u : Usage) : (loweredUsage m u).Has x ↔
    u.Has x ∨ (∃ f ∈ m.facts, ∃ c ∈ f.2, ClauseUses f.1 c x) ∨ ∃ g ∈ m.goals, ∃ c ∈ g.clauses, ClauseUses g.names c x := by
  simp only [loweredUsage]
  rw [has_fold (Q := fun g : Goal => ∃ c ∈ g.clauses, ClauseUses g.names c x) (fun u g => has_fold has_clause _ u),
    has_fold (Q := fun f : Names × List Clause => ∃ c ∈ f.2, ClauseUses f.1 c x) (fun u f => has_fold has_clause _ u),
    or_assoc]

/-- The usage before the certificates are looked at. -/
def baseUsage (m : Module) : Usage :=
  loweredUsage m (m.env.tokenUsage (m.env.allImports.map (·.key)) (exportedUsage m.exported m.env.imports {}))

/-- What a module uses without its certificates. -/
def BaseUses (m : Module) (x : Use) : Prop :=
  (∃ i ∈ m.env.imports, m.exported i.importName i.entity = true ∧ ImportUses i x) ∨
  (∃ k n, Tokens m.env k n ∧ (∀ i, Imports m.env i → i.key ≠ k) ∧ x = .key n.key) ∨
  (∃ f ∈ m.facts, ∃ c ∈ f.2, ClauseUses f.1 c x) ∨ ∃ g ∈ m.goals, ∃ c ∈ g.clauses, ClauseUses g.names c x

theorem has_base {m : Module} : (baseUsage m).Has x ↔ BaseUses m x := by
  unfold baseUsage BaseUses
  rw [has_lowered, has_tokens, has_exported, or_assoc, or_assoc]
  simp only [has_empty, false_or, List.mem_map, mem_imports, not_exists, not_and, ne_eq]

theorem uses_iff {m : Module} : Uses m x ↔ BaseUses m x ∨ ∃ g c, CertOf m g c ∧ CertUses m.env.allImports g c x := by
  have hi : (fun i => i ∈ m.env.allImports) = Imports m.env := funext fun i => propext mem_imports
  unfold CertUses
  rw [hi]
  constructor
  · intro h
    cases h with
    | exported h1 h2 h3 => exact .inl (.inl ⟨_, h1, h2, h3⟩)
    | token h1 h2 => exact .inl (.inr (.inl ⟨_, _, h1, h2, rfl⟩))
    | fact h1 h2 h3 => exact .inl (.inr (.inr (.inl ⟨_, h1, _, h2, h3⟩)))
    | goal h1 h2 h3 => exact .inl (.inr (.inr (.inr ⟨_, h1, _, h2, h3⟩)))
    | text h1 h2 h3 => exact .inr ⟨_, _, h1, _, h2, .inl h3⟩
    | step h1 h2 h3 => exact .inr ⟨_, _, h1, _, h2, .inr ⟨_, rfl, h3⟩⟩
  · rintro ((⟨i, h1, h2, h3⟩ | ⟨k, n, h1, h2, rfl⟩ | ⟨f, h1, c, h2, h3⟩ | ⟨g, h1, c, h2, h3⟩) | ⟨g, c, h1, ⟨l, s⟩, h2, h3⟩)
    · exact .exported h1 h2 h3
    · exact .token h1 h2
    · exact .fact h1 h2 h3
    · exact .goal h1 h2 h3
    · rcases h3 with h3 | ⟨s', rfl, h3⟩
      · exact .text h1 h2 h3
      · exact .step h1 h2 h3

theorem isUsed_iff {u : Usage} {i : Import} : u.isUsed i = true ↔ u.Has (.key i.entity.key) ∨ u.Has (.module i.moduleId) := by
  simp [Usage.isUsed, Usage.Has]

theorem certificate_ok {m : Module} {u' : Usage} (e : certificateUsage m m.env.allImports (baseUsage m) = .ok u')
    {i : Import} (hi : i ∈ m.env.allImports) : u'.isUsed i = true ↔ Counts m i := by
  rw [isUsed_iff]
  unfold Counts
  unfold certificateUsage at e
  split at e
  · rename_i hs
    cases e
    have hno : ∀ g c, ¬ CertOf m g c := by
      rintro g c ⟨⟨h1, h2⟩, _⟩
      simp [h1, h2] at hs
    rw [uses_iff, uses_iff, has_base, has_base]
    simp [hno]
  · rename_i hs
    have hN : NeedsCerts m := by
      simp only [Bool.or_eq_true, not_or, List.isEmpty_iff, Bool.not_eq_true] at hs
      exact hs
    split at e
    · cases e
    · rename_i cs hcs
      have hof : ∀ g c, CertOf m g c ↔ g ∈ m.goals ∧ c ∈ cs ∧ c.goal = g.name := by
        intro g c
        unfold CertOf
        rw [hcs]
        simp [hN]
      rcases goals_ok e with ⟨⟨g, hg, c, hc, he, hu⟩, k⟩ | ⟨hn, k⟩
      · refine ⟨fun _ => .inl ⟨g, c, (hof g c).2 ⟨hg, hc, he⟩, hu⟩, fun _ => .inl (k i hi _ (.inl rfl))⟩
      · have hn' : ¬ ∃ g c, CertOf m g c ∧ Unreadable g c := by
          rintro ⟨g, c, h, hu⟩
          obtain ⟨h1, h2, h3⟩ := (hof g c).1 h
          exact hn ⟨g, h1, c, h2, h3, hu⟩
        have hx : ∀ x, u'.Has x ↔ Uses m x := by
          intro x
          rw [k x, uses_iff, has_base]
          refine or_congr_right ?_
          constructor
          · rintro ⟨g, h1, c, h2, h3, h4⟩; exact ⟨g, c, (hof g c).2 ⟨h1, h2, h3⟩, h4⟩
          · rintro ⟨g, c, h, h4⟩
            obtain ⟨h1, h2, h3⟩ := (hof g c).1 h
            exact ⟨g, h1, c, h2, h3, h4⟩
        rw [hx, hx]
        simp [hn']

theorem lintModule_eq (m : Module) : lintModule m =
    match certificateUsage m m.env.allImports (baseUsage m) with
    | .error p => .error p
    | .ok u => .ok ((m.env.allImports.filter fun i => !u.isUsed i).map (warn m.path)) := rfl

theorem goals_error {is : List Import} {cs : List Cert} {p : Problem} : ∀ {gs : List Goal} {u : Usage},
    goalsUsage is cs u gs = .error p ↔ ∃ pre g post, gs = pre ++ g :: post ∧ p = .noCertificate g.name ∧
      (∀ c ∈ cs, c.goal ≠ g.name) ∧
      ∀ g' ∈ pre, (∃ c ∈ cs, c.goal = g'.name) ∧ ∀ c ∈ cs, c.goal = g'.name → ¬ Unreadable g' c
  | [], u => by simp [goalsUsage]
  | g :: gs, u => by
    have hm : ∀ d, d ∈ cs.filter (fun c => c.goal = g.name) ↔ d ∈ cs ∧ d.goal = g.name := by simp
    unfold goalsUsage
    split
    · rename_i hc
      rw [hc] at hm
      have hno : ∀ c ∈ cs, c.goal ≠ g.name := fun c h1 h2 => by simpa using (hm c).2 ⟨h1, h2⟩
      constructor
      · intro e; cases e; exact ⟨[], g, gs, rfl, rfl, hno, by simp⟩
      · rintro ⟨pre, g', post, e, rfl, _, h⟩
        cases pre with
        | nil => cases e; rfl
        | cons a pre =>
          cases e
          obtain ⟨⟨c, h1, h2⟩, _⟩ := h g (by simp)
          exact absurd h2 (hno c h1)
    · rename_i c more hc
      rw [← hc]
      have hhas : ∃ c ∈ cs, c.goal = g.name := ⟨c, (hm c).1 (by rw [hc]; simp)⟩
      split
      · rename_i hn
        obtain ⟨d, hd, hu⟩ := certs_none hn
        refine ⟨fun e => (by cases e), ?_⟩
        rintro ⟨pre, g', post, e, rfl, hno, h⟩
        cases pre with
        | nil => cases e; obtain ⟨c, h1, h2⟩ := hhas; exact absurd h2 (hno c h1)
        | cons a pre => cases e; exact absurd hu ((h g (by simp)).2 d ((hm d).1 hd).1 ((hm d).1 hd).2)
      · rename_i u1 h1
        rw [goals_error]
        constructor
        · rintro ⟨pre, g', post, rfl, rfl, hno, h⟩
          refine ⟨g :: pre, g', post, rfl, rfl, hno, fun a ha => ?_⟩
          rcases List.mem_cons.1 ha with rfl | ha
          · exact ⟨hhas, fun c k1 k2 => (has_certs (x := .module 0) h1).1 c ((hm c).2 ⟨k1, k2⟩)⟩
          · exact h a ha
        · rintro ⟨pre, g', post, e, rfl, hno, h⟩
          cases pre with
          | nil => cases e; obtain ⟨c, h1, h2⟩ := hhas; exact absurd h2 (hno c h1)
          | cons a pre => cases e; exact ⟨pre, g', post, rfl, rfl, hno, fun a ha => h a (by simp [ha])⟩

theorem lintModule_error {m : Module} {p : Problem} : lintModule m = .error p ↔
    certificateUsage m m.env.allImports (baseUsage m) = .error p := by
  rw [lintModule_eq]
  split <;> simp_all

theorem lintAll_ok : ∀ {ms : List Module} {ws : List Warning}, lintAll ms = .ok ws →
    ∃ wss : List (List Warning), ms.map lintModule = wss.map .ok ∧ ws = wss.flatten
  | [], ws, e => by cases e; exact ⟨[], rfl, rfl⟩
  | m :: ms, ws, e => by
    unfold lintAll at e
    split at e
    · cases e
    · rename_i ws1 h1
      split at e
      · cases e
      · rename_i ws2 h2
        cases e
        obtain ⟨wss, h, rfl⟩ := lintAll_ok h2
        exact ⟨ws1 :: wss, by simp [h1, h], by simp⟩

theorem lintAll_error : ∀ {ms : List Module} {p : Problem}, lintAll ms = .error p →
    ∃ m ∈ ms, lintModule m = .error p
  | [], p, e => by cases e
  | m :: ms, p, e => by
    unfold lintAll at e
    split at e
    · rename_i p h
      cases e
      exact ⟨m, by simp, h⟩
    · split at e
      · rename_i h2
        cases e
        obtain ⟨m', h, k⟩ := lintAll_error h2
        exact ⟨m', by simp [h], k⟩
      · cases e

theorem le_iff {a b : Warning} : a.le b = true ↔ Before a b := by
  simp [Warning.le, Before]

theorem before_trans {a b c : Warning} (h : Before a b) (k : Before b c) : Before a c := by
  unfold Before at *
  grind

theorem before_total (a b : Warning) : Before a b ∨ Before b a := by
  unfold Before
  grind

end Lint
end Acorn
