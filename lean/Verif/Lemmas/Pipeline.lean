import Verif.Spec.Pipeline
import Verif.Lemmas.BuildSkip
/-
Lemmas about parallel builds.
-/
namespace Acorn.Build
open Spec Paths

/-! ### Agreement of builders -/

theorem _root_.Acorn.Spec.SameReport.refl (b : Builder) : SameReport b b := ⟨rfl, rfl, rfl, rfl, rfl, rfl⟩

theorem _root_.Acorn.Spec.SameReport.trans {a b c : Builder} (h : SameReport a b) (h' : SameReport b c) :
    SameReport a c :=
  ⟨h.id.trans h'.id, h.status.trans h'.status, h.metrics.trans h'.metrics, h.used.trans h'.used,
    h.certs.trans h'.certs, h.log.trans h'.log⟩

theorem withoutTotal_relay (id : Nat) (d t t' : Int) (e : Event) :
    withoutTotal (e.relay id d t) = withoutTotal (e.relay id d t') := by
  obtain ⟨i, pr, m, tx⟩ := e
  cases pr <;> rfl

theorem _root_.Acorn.Spec.SameReport.merge {a b : Builder} (h : SameReport a b) (r : Result) :
    SameReport (a.merge r) (b.merge r) := by
  obtain ⟨h1, h2, h3, h4, h5, h6⟩ := h
  refine ⟨h1, ?_, ?_, ?_, ?_, ?_⟩
  · simp only [Builder.merge, h2]
  · simp only [Builder.merge, h3]
  · simp only [Builder.merge, h4]
  · simp only [Builder.merge]
    cases r.cache with
    | none => exact h5
    | some c => simp only [Cache.mergeUpdates, h5]
  · simp only [Builder.merge, List.map_append, h6, h1, h3]

theorem recordUnchanged_certs (src : Path) (p : Project) (c : Cache) (d : Desc) :
    (recordUnchanged src p c d).certs = c.certs := by
  unfold recordUnchanged
  cases p.hash d with
  | none => rfl
  | some h =>
    dsimp only
    unfold Cache.record
    cases sourceOfDesc p.exist src d with
    | none => rfl
    | some source =>
      dsimp only
      have hcase : ∀ o : Option Path, o = none ∨ ∃ r, o = some r := by intro o; cases o <;> simp
      obtain hpr | ⟨root, hpr⟩ := hcase (packageRoot p.exist src source) <;> simp only [hpr]

/-- The totals that loading adds. -/
def loadMetrics (m : Metrics) : Item → Metrics
  | .interface _ => m
  | .module surface goals _ =>
    if surface then { m with pendingModules := m.pendingModules + 1, pendingGoals := m.pendingGoals + goals }
    else { m with goalsTotal := m.goalsTotal + goals }

theorem prepareOne_fields (src : Path) (p : Project) (b : Builder) (i : Item) :
    (b.prepareOne src p i).id = b.id ∧ (b.prepareOne src p i).status = b.status ∧
    (b.prepareOne src p i).metrics = loadMetrics b.metrics i ∧
    (b.prepareOne src p i).used = b.used ∧ (b.prepareOne src p i).cache.certs = b.cache.certs ∧
    (b.prepareOne src p i).log = b.log := by
  cases i with
  | interface d => exact ⟨rfl, rfl, rfl, rfl, recordUnchanged_certs src p b.cache d, rfl⟩
  | module s g r => exact ⟨rfl, rfl, by cases s <;> rfl, rfl, rfl, rfl⟩

theorem prepare_fields (src : Path) (p : Project) (b : Builder) (batch : List Item) :
    (b.prepare src p batch).id = b.id ∧ (b.prepare src p batch).status = b.status ∧
    (b.prepare src p batch).metrics =
      { batch.foldl loadMetrics b.metrics with
        modulesTotal := (batch.foldl loadMetrics b.metrics).modulesTotal + (itemResults batch).length } ∧
    (b.prepare src p batch).used = b.used ∧ (b.prepare src p batch).cache.certs = b.cache.certs ∧
    (b.prepare src p batch).log = b.log := by
  have key : ∀ (l : List Item) (b : Builder),
      (l.foldl (Builder.prepareOne src p) b).id = b.id ∧
      (l.foldl (Builder.prepareOne src p) b).status = b.status ∧
      (l.foldl (Builder.prepareOne src p) b).metrics = l.foldl loadMetrics b.metrics ∧
      (l.foldl (Builder.prepareOne src p) b).used = b.used ∧
      (l.foldl (Builder.prepareOne src p) b).cache.certs = b.cache.certs ∧
      (l.foldl (Builder.prepareOne src p) b).log = b.log := by
    intro l
    induction l with
    | nil => intro b; exact ⟨rfl, rfl, rfl, rfl, rfl, rfl⟩
    | cons i l ih =>
      intro b
      obtain ⟨h1, h2, h3, h4, h5, h6⟩ := ih (b.prepareOne src p i)
      obtain ⟨k1, k2, k3, k4, k5, k6⟩ := prepareOne_fields src p b i
      simp only [List.foldl_cons]
      exact ⟨h1.trans k1, h2.trans k2, by rw [h3, k3], h4.trans k4, h5.trans k5, h6.trans k6⟩
  obtain ⟨h1, h2, h3, h4, h5, h6⟩ := key batch b
  exact ⟨h1, h2, by simp only [Builder.prepare, h3], h4, h5, h6⟩

theorem _root_.Acorn.Spec.SameReport.prepare {a b : Builder} (h : SameReport a b) (src : Path) (p : Project)
    (batch : List Item) : SameReport (a.prepare src p batch) (b.prepare src p batch) := by
  obtain ⟨h1, h2, h3, h4, h5, h6⟩ := prepare_fields src p a batch
  obtain ⟨k1, k2, k3, k4, k5, k6⟩ := prepare_fields src p b batch
  refine ⟨?_, ?_, ?_, ?_, ?_, ?_⟩
  · rw [h1, k1, h.id]
  · rw [h2, k2, h.status]
  · rw [h3, k3, h.metrics]
  · rw [h4, k4, h.used]
  · rw [h5, k5, h.certs]
  · rw [h6, k6, h.log]

theorem loadMetrics_addResult (m r : Metrics) (i : Item) :
    loadMetrics (m.addResult r) i = (loadMetrics m i).addResult r := by
  cases i with
  | interface d => rfl
  | module s g q => cases s <;> rfl

theorem foldl_loadMetrics_addResult (l : List Item) (m r : Metrics) :
    l.foldl loadMetrics (m.addResult r) = (l.foldl loadMetrics m).addResult r := by
  induction l generalizing m with
  | nil => rfl
  | cons i l ih => rw [List.foldl_cons, List.foldl_cons, loadMetrics_addResult, ih]

theorem foldl_loadMetrics_done (l : List Item) (m : Metrics) :
    (l.foldl loadMetrics m).goalsDone = m.goalsDone := by
  induction l generalizing m with
  | nil => rfl
  | cons i l ih =>
    rw [List.foldl_cons, ih]
    cases i with
    | interface d => rfl
    | module s g q => cases s <;> rfl

theorem prepare_merge (src : Path) (p : Project) (b : Builder) (batch : List Item) (r : Result) :
    SameReport ((b.merge r).prepare src p batch) ((b.prepare src p batch).merge r) := by
  obtain ⟨h1, h2, h3, h4, h5, h6⟩ := prepare_fields src p (b.merge r) batch
  obtain ⟨k1, k2, k3, k4, k5, k6⟩ := prepare_fields src p b batch
  refine ⟨?_, ?_, ?_, ?_, ?_, ?_⟩
  · rw [h1]; simp only [Builder.merge, k1]
  · rw [h2]; simp only [Builder.merge, k2]
  · rw [h3]
    simp only [Builder.merge, k3, foldl_loadMetrics_addResult]
    simp only [Metrics.addResult]
  · rw [h4]; simp only [Builder.merge, k4]
  · rw [h5]
    simp only [Builder.merge]
    cases r.cache with
    | none => exact k5.symm
    | some c => simp only [Cache.mergeUpdates, k5]
  · rw [h6]
    simp only [Builder.merge, List.map_append, List.map_map, k6, k1, k3]
    congr 1
    apply List.map_congr_left
    intro e _
    simp only [Function.comp]
    have : (({ batch.foldl loadMetrics b.metrics with
        modulesTotal := (batch.foldl loadMetrics b.metrics).modulesTotal +
          ((itemResults batch).length : Int) } : Metrics).addResult r.metrics).goalsDone =
        (b.metrics.addResult r.metrics).goalsDone := by
      simp only [Metrics.addResult, foldl_loadMetrics_done]
    rw [this]
    exact withoutTotal_relay _ _ _ _ _

theorem _root_.Acorn.Spec.SameReport.foldl_merge {a b : Builder} (h : SameReport a b) (l : List Result) :
    SameReport (l.foldl Builder.merge a) (l.foldl Builder.merge b) := by
  induction l generalizing a b with
  | nil => exact h
  | cons r l ih => exact ih (h.merge r)

theorem prepare_foldl_merge (src : Path) (p : Project) (b : Builder) (batch : List Item)
    (l : List Result) :
    SameReport ((l.foldl Builder.merge b).prepare src p batch)
      (l.foldl Builder.merge (b.prepare src p batch)) := by
  induction l generalizing b with
  | nil => exact SameReport.refl _
  | cons r l ih => exact (ih (b.merge r)).trans ((prepare_merge src p b batch r).foldl_merge l)

/-! ### What is recorded -/

theorem hashAt_mergeUpdates (c o : Cache) (k : Place) :
    hashAt (c.mergeUpdates o) k = (hashAt o k).or (hashAt c k) := by
  cases k with
  | interface r =>
    simp only [hashAt, interfaceOf, (Cache.manifest_mergeUpdates c o r).1]
    cases (o.manifest r).interface <;> rfl
  | implementation r k =>
    simp only [hashAt, implementationOf, (Cache.manifest_mergeUpdates c o r).2.1, get?_insertAll]
    cases (o.manifest r).implementation.get? k <;> rfl
  | dependency r k =>
    simp only [hashAt, dependencyOf, (Cache.manifest_mergeUpdates c o r).2.2, get?_insertAll]
    cases (o.manifest r).dependencies.get? k <;> rfl

theorem get?_foldl_pairs {κ ν : Type} [DecidableEq κ] (es : List (κ × ν)) (m : AMap κ ν) (k : κ) :
    (es.foldl (fun ds e => ds.insert e.1 e.2) m).get? k =
      ((es.foldl (fun ds e => ds.insert e.1 e.2) (.empty : AMap κ ν)).get? k).or (m.get? k) := by
  induction es generalizing m with
  | nil => rfl
  | cons e es ih =>
    rw [List.foldl_cons, List.foldl_cons, ih, ih (AMap.empty.insert e.1 e.2)]
    simp only [AMap.get?_insert]
    split <;> simp

theorem hashAt_recordUnchanged (src : Path) (p : Project) (c : Cache) (d : Desc) (k : Place) :
    hashAt (recordUnchanged src p c d) k =
      (hashAt (recordUnchanged src p .empty d) k).or (hashAt c k) := by
  have hemp : ∀ k, hashAt Cache.empty k = none := by intro k; cases k <;> rfl
  unfold recordUnchanged
  cases p.hash d with
  | none => simp [hemp]
  | some h =>
    dsimp only
    unfold Cache.record
    cases sourceOfDesc p.exist src d with
    | none => simp [hemp]
    | some source =>
      dsimp only
      have hcase : ∀ o : Option Path, o = none ∨ ∃ r, o = some r := by intro o; cases o <;> simp
      obtain hpr | ⟨root, hpr⟩ := hcase (packageRoot p.exist src source)
      · simp only [hpr, hemp]; simp
      · simp only [hpr]
        by_cases hi : isInterfacePath p.exist src source = true
        · simp only [hi, if_true]
          cases k with
          | interface r =>
            simp only [hashAt, interfaceOf, Cache.manifest, AMap.get?_insert]
            by_cases e : r = root <;> simp [e, Cache.empty, Manifest.empty]
          | implementation r k =>
            simp only [hashAt, implementationOf, Cache.manifest, AMap.get?_insert]
            by_cases e : r = root <;> simp [e, Cache.empty, Manifest.empty]
          | dependency r k =>
            simp only [hashAt, dependencyOf, Cache.manifest, AMap.get?_insert]
            by_cases e : r = root
            · simp only [e, if_true, Option.getD_some]
              exact get?_foldl_pairs _ _ _
            · simp [e, Cache.empty, Manifest.empty]
        · simp only [hi, Bool.false_eq_true, if_false]
          cases hs : stripPrefix root source with
          | none =>
            cases k with
            | interface r =>
              simp only [hashAt, interfaceOf, Cache.manifest, AMap.get?_insert]
              by_cases e : r = root <;> simp [e, Cache.empty, Manifest.empty]
            | implementation r k =>
              simp only [hashAt, implementationOf, Cache.manifest, AMap.get?_insert]
              by_cases e : r = root <;> simp [e, Cache.empty, Manifest.empty]
            | dependency r k =>
              simp only [hashAt, dependencyOf, Cache.manifest, AMap.get?_insert]
              by_cases e : r = root
              · simp only [e, if_true, Option.getD_some]
                exact get?_foldl_pairs _ _ _
              · simp [e, Cache.empty, Manifest.empty]
          | some key =>
            cases k with
            | interface r =>
              simp only [hashAt, interfaceOf, Cache.manifest, AMap.get?_insert]
              by_cases e : r = root <;> simp [e, Cache.empty, Manifest.empty]
            | implementation r k =>
              simp only [hashAt, implementationOf, Cache.manifest, AMap.get?_insert]
              by_cases e : r = root
              · simp only [e, if_true, Option.getD_some, AMap.get?_insert]
                by_cases e' : k = key <;> simp [e', Cache.empty, Manifest.empty]
              · simp [e, Cache.empty, Manifest.empty]
            | dependency r k =>
              simp only [hashAt, dependencyOf, Cache.manifest, AMap.get?_insert]
              by_cases e : r = root
              · simp only [e, if_true, Option.getD_some]
                exact get?_foldl_pairs _ _ _
              · simp [e, Cache.empty, Manifest.empty]

/-- The cache holds exactly what the writes recorded, for each place one of them. -/
def Holds (c : Cache) (W : Cache → Prop) : Prop :=
  ∀ k, (∀ h, hashAt c k = some h → ∃ w, W w ∧ hashAt w k = some h) ∧
    (hashAt c k = none → ∀ w, W w → hashAt w k = none)

theorem Holds.over {c c' w : Cache} {W : Cache → Prop} (h : Holds c W)
    (hc : ∀ k, hashAt c' k = (hashAt w k).or (hashAt c k)) :
    Holds c' (fun x => W x ∨ x = w) := by
  intro k
  rw [hc k]
  cases hw : hashAt w k with
  | some g =>
    refine ⟨fun h' e => ?_, fun e => by simp at e⟩
    simp at e
    exact ⟨w, Or.inr rfl, by rw [hw, e]⟩
  | none =>
    simp only [Option.none_or]
    refine ⟨fun h' e => ?_, fun e x hx => ?_⟩
    · obtain ⟨x, hx, hk⟩ := (h k).1 h' e
      exact ⟨x, Or.inl hx, hk⟩
    · rcases hx with hx | rfl
      · exact (h k).2 e x hx
      · exact hw

theorem Holds.congr {c : Cache} {W W' : Cache → Prop} (h : Holds c W) (e : ∀ x, W x ↔ W' x) :
    Holds c W' := by
  have : W = W' := funext fun x => propext (e x)
  rwa [← this]

/-- What a merged result records. -/
def resultWrites (l : List Result) (c : Cache) : Prop := ∃ r ∈ l, r.cache = some c

/-- What loading records. -/
def loadWrites (src : Path) (p : Project) (l : List Item) (c : Cache) : Prop :=
  ∃ d, Item.interface d ∈ l ∧ c = recordUnchanged src p .empty d

theorem Holds.merge {b : Builder} {W : Cache → Prop} (h : Holds b.cache W) (r : Result) :
    Holds (b.merge r).cache (fun x => W x ∨ r.cache = some x) := by
  simp only [Builder.merge]
  cases hr : r.cache with
  | none => simpa using h
  | some c =>
    exact (h.over (hashAt_mergeUpdates b.cache c)).congr fun x => by simp [eq_comm]

theorem Holds.foldl_merge {b : Builder} {W : Cache → Prop} (h : Holds b.cache W) (l : List Result) :
    Holds (l.foldl Builder.merge b).cache (fun x => W x ∨ resultWrites l x) := by
  induction l generalizing b W with
  | nil => exact h.congr fun x => by simp [resultWrites]
  | cons r l ih => exact (ih (h.merge r)).congr fun x => by simp [resultWrites, or_assoc]

theorem Holds.prepare {b : Builder} {W : Cache → Prop} (h : Holds b.cache W) (src : Path)
    (p : Project) (batch : List Item) :
    Holds (b.prepare src p batch).cache (fun x => W x ∨ loadWrites src p batch x) := by
  have : (b.prepare src p batch).cache = (batch.foldl (Builder.prepareOne src p) b).cache := rfl
  rw [this]
  clear this
  induction batch generalizing b W with
  | nil => exact h.congr fun x => by simp [loadWrites]
  | cons i l ih =>
    cases i with
    | interface d =>
      have h' : Holds (b.prepareOne src p (.interface d)).cache
          (fun x => W x ∨ x = recordUnchanged src p .empty d) :=
        h.over (hashAt_recordUnchanged src p b.cache d)
      refine (ih h').congr fun x => ?_
      simp only [loadWrites, List.mem_cons, Item.interface.injEq]
      constructor
      · rintro ((h | h) | ⟨d', h, e⟩)
        · exact Or.inl h
        · exact Or.inr ⟨d, Or.inl rfl, h⟩
        · exact Or.inr ⟨d', Or.inr h, e⟩
      · rintro (h | ⟨d', h | h, e⟩)
        · exact Or.inl (Or.inl h)
        · subst h; exact Or.inl (Or.inr e)
        · exact Or.inr ⟨d', h, e⟩
    | module s g r =>
      have h' : Holds (b.prepareOne src p (.module s g r)).cache W := h
      exact (ih h').congr fun x => by simp [loadWrites]

theorem Holds.unique {c c' : Cache} {W : Cache → Prop} (h : Holds c W) (h' : Holds c' W)
    (hc : ∀ x y, W x → W y → ∀ k g g', hashAt x k = some g → hashAt y k = some g' → g = g')
    (k : Place) : hashAt c k = hashAt c' k := by
  cases e : hashAt c k with
  | none =>
    cases e' : hashAt c' k with
    | none => rfl
    | some g =>
      obtain ⟨w, hw, hk⟩ := (h' k).1 g e'
      rw [(h k).2 e w hw] at hk; cases hk
  | some g =>
    obtain ⟨w, hw, hk⟩ := (h k).1 g e
    cases e' : hashAt c' k with
    | none => rw [(h' k).2 e' w hw] at hk; cases hk
    | some g' =>
      obtain ⟨w', hw', hk'⟩ := (h' k).1 g' e'
      rw [hc w w' hw hw' k g g' hk hk']

/-! ### Draining -/

theorem length_erase_of_get? {κ ν : Type} [DecidableEq κ] {m : AMap κ ν} {k : κ} {v : ν}
    (h : m.get? k = some v) : (m.erase k).entries.length < m.entries.length := by
  have hm := AMap.get?_eq_some.1 h
  have : (m.erase k).entries.length = (m.entries.filter fun e => e.1 != k).length := rfl
  rw [this]
  apply List.length_filter_lt_length_iff_exists.2
  exact ⟨(k, v), hm, by simp⟩

theorem drain_spec (n : Nat) (b : Builder) (pending : AMap Nat Result) (next : Nat)
    (hn : pending.entries.length < n) :
    ∃ rs : List Result, (drain n b pending next).1 = rs.foldl Builder.merge b ∧
      (drain n b pending next).2.2 = next + rs.length ∧
      (∀ j (h : j < rs.length), pending.get? (next + j) = some rs[j]) ∧
      (∀ i, (drain n b pending next).2.1.get? i =
        if next ≤ i ∧ i < next + rs.length then none else pending.get? i) ∧
      (drain n b pending next).2.1.get? (next + rs.length) = none := by
  induction n generalizing b pending next with
  | zero => exact absurd hn (Nat.not_lt_zero _)
  | succ n ih =>
    rw [drain]
    split
    · rename_i h
      refine ⟨[], rfl, rfl, fun j hj => absurd hj (Nat.not_lt_zero _), fun i => ?_, by simpa using h⟩
      simp
      intro h1 h2; omega
    · rename_i r h
      obtain ⟨rs, h1, h2, h3, h4, h5⟩ := ih (b.merge r) (pending.erase next) (next + 1)
        (by have := length_erase_of_get? h; omega)
      refine ⟨r :: rs, h1, by rw [h2]; simp; omega, ?_, ?_, ?_⟩
      · intro j hj
        cases j with
        | zero => simpa using h
        | succ j =>
          have := h3 j (by simpa using hj)
          rw [AMap.get?_erase] at this
          split at this
          · cases this
          · rw [show next + (j + 1) = next + 1 + j by omega]; simpa using this
      · intro i
        rw [h4, AMap.get?_erase]
        simp only [List.length_cons]
        by_cases e : i = next
        · subst e; simp
        · by_cases e1 : next + 1 ≤ i ∧ i < next + 1 + rs.length
          · rw [if_pos e1, if_pos (by omega)]
          · rw [if_neg e1, if_neg e, if_neg (by omega)]
      · rw [show next + (r :: rs).length = next + 1 + rs.length by simp; omega]; exact h5

/-! ### The invariant of the pipeline -/

/-- What holds at every moment of a parallel build of `batches`. -/
structure PipeInv (src : Path) (p : Project) (id : Nat) (batches : List (List Item)) (s : Pipe) :
    Prop where
  loaded : ∃ done, batches = done ++ s.todo ∧
    (allResults batches).drop s.nextIndex = s.enq ++ allResults s.todo ∧
    SameReport s.builder (((allResults batches).take s.nextMerge).foldl Builder.merge
      (done.foldl (Builder.prepare src p) { id })) ∧
    Holds s.builder.cache (fun c => loadWrites src p done.flatten c ∨
      resultWrites ((allResults batches).take s.nextMerge) c)
  index : s.nextIndex ≤ (allResults batches).length
  merge : s.nextMerge ≤ s.nextIndex
  flight : ∀ i r, (i, r) ∈ s.flight → (allResults batches)[i]? = some r ∧ s.nextMerge ≤ i ∧
    i < s.nextIndex ∧ s.pending.get? i = none
  nodup : (s.flight.map Prod.fst).Nodup
  pending : ∀ i r, s.pending.get? i = some r → (allResults batches)[i]? = some r ∧ s.nextMerge ≤ i ∧
    i < s.nextIndex
  every : ∀ i, s.nextMerge ≤ i → i < s.nextIndex →
    (∃ r, (i, r) ∈ s.flight) ∨ (∃ r, s.pending.get? i = some r)
  drained : s.pending.get? s.nextMerge = none

theorem allResults_append (a b : List (List Item)) :
    allResults (a ++ b) = allResults a ++ allResults b := by
  simp [allResults, itemResults]

theorem allResults_cons (a : List Item) (b : List (List Item)) :
    allResults (a :: b) = itemResults a ++ allResults b := by
  simp [allResults, itemResults]

theorem PipeInv.start (src : Path) (p : Project) (id : Nat) (batches : List (List Item)) :
    PipeInv src p id batches (.start id batches) := by
  refine ⟨⟨[], rfl, rfl, SameReport.refl _, ?_⟩, Nat.zero_le _, Nat.le_refl _, ?_, ?_, ?_, ?_, rfl⟩
  · intro k
    have hemp : ∀ k, hashAt Cache.empty k = none := by intro k; cases k <;> rfl
    refine ⟨fun h e => ?_, fun _ w hw => ?_⟩
    · rw [show (Pipe.start id batches).builder.cache = Cache.empty from rfl, hemp] at e; cases e
    · rcases hw with ⟨d, hd, _⟩ | ⟨r, hr, _⟩
      · cases hd
      · simp [Pipe.start] at hr
  · intro i r h; cases h
  · exact List.nodup_nil
  · intro i r h; cases h
  · intro i h1 h2
    simp [Pipe.start] at h2

theorem PipeInv.step {src : Path} {p : Project} {w : Bool} {id : Nat} {batches : List (List Item)}
    {s s' : Pipe} (h : PipeInv src p id batches s) (hs : Pipe.Step src p w s s') :
    PipeInv src p id batches s' := by
  obtain ⟨⟨done, hl1, hl2, hl3, hl4⟩, hix, hmg, hfl, hnd, hpe, hev, hdr⟩ := h
  cases hs with
  | load batch rest hstop he ht =>
    refine ⟨⟨done ++ [batch], ?_, ?_, ?_, ?_⟩, hix, hmg, hfl, hnd, hpe, hev, hdr⟩
    · rw [hl1, ht]; simp
    · rw [hl2, he, ht, allResults_cons]; rfl
    · rw [List.foldl_append]
      exact (hl3.prepare src p batch).trans (prepare_foldl_merge src p _ batch _)
    · refine (hl4.prepare src p batch).congr fun x => ?_
      simp only [List.flatten_append, List.flatten_cons, List.flatten_nil, List.append_nil,
        loadWrites, List.mem_append]
      constructor
      · rintro ((⟨d, h, e⟩ | h) | ⟨d, h, e⟩)
        · exact Or.inl ⟨d, Or.inl h, e⟩
        · exact Or.inr h
        · exact Or.inl ⟨d, Or.inr h, e⟩
      · rintro (⟨d, h | h, e⟩ | h)
        · exact Or.inl (Or.inl ⟨d, h, e⟩)
        · exact Or.inr ⟨d, h, e⟩
        · exact Or.inl (Or.inr h)
  | enqueue r rest hstop he =>
    have hget : (allResults batches)[s.nextIndex]? = some r := by
      have : ((allResults batches).drop s.nextIndex)[0]? = some r := by rw [hl2, he]; rfl
      simpa using this
    have hlt : s.nextIndex < (allResults batches).length := (List.getElem?_eq_some_iff.1 hget).1
    have hnp : s.pending.get? s.nextIndex = none := by
      cases e : s.pending.get? s.nextIndex with
      | none => rfl
      | some q => exact absurd (hpe _ _ e).2.2 (Nat.lt_irrefl _)
    refine ⟨⟨done, hl1, ?_, hl3, hl4⟩, hlt, Nat.le_succ_of_le hmg, ?_, ?_, ?_, ?_, hdr⟩
    · rw [← List.drop_drop, hl2, he]; rfl
    · intro i q hq
      rcases List.mem_append.1 hq with hq | hq
      · obtain ⟨a, b, c, d⟩ := hfl i q hq
        exact ⟨a, b, Nat.lt_succ_of_lt c, d⟩
      · have hq := List.mem_singleton.1 hq
        cases hq
        exact ⟨hget, hmg, Nat.lt_succ_self _, hnp⟩
    · simp only [List.map_append, List.map_cons, List.map_nil]
      rw [List.nodup_append]
      refine ⟨hnd, by simp, ?_⟩
      intro a ha b hb
      simp at hb
      subst hb
      obtain ⟨⟨i, q⟩, hq, rfl⟩ := List.mem_map.1 ha
      exact Nat.ne_of_lt (hfl i q hq).2.2.1
    · intro i q hq
      obtain ⟨a, b, c⟩ := hpe i q hq
      exact ⟨a, b, Nat.lt_succ_of_lt c⟩
    · intro i h1 h2
      by_cases e : i = s.nextIndex
      · exact Or.inl ⟨r, by simp [e]⟩
      · rcases hev i h1 (by simp only at h2; omega) with ⟨q, hq⟩ | hq
        · exact Or.inl ⟨q, List.mem_append_left _ hq⟩
        · exact Or.inr hq
  | receive i r before after hf =>
    have hin : (i, r) ∈ s.flight := by rw [hf]; simp
    obtain ⟨hi1, hi2, hi3, hi4⟩ := hfl i r hin
    have hpend : ∀ j q, (s.pending.insert i r).get? j = some q → (allResults batches)[j]? = some q ∧
        s.nextMerge ≤ j ∧ j < s.nextIndex := by
      intro j q hj
      rw [AMap.get?_insert] at hj
      split at hj
      · rename_i e
        cases hj; subst e; exact ⟨hi1, hi2, hi3⟩
      · exact hpe j q hj
    obtain ⟨rs, d1, d2, d3, d4, d5⟩ := drain_spec ((s.pending.insert i r).entries.length + 1)
      s.builder (s.pending.insert i r) s.nextMerge (Nat.lt_succ_self _)
    have hrs : ∀ j (h : j < rs.length), (allResults batches)[s.nextMerge + j]? = some rs[j] :=
      fun j h => (hpend _ _ (d3 j h)).1
    have hle : s.nextMerge + rs.length ≤ s.nextIndex := by
      cases hlen : rs.length with
      | zero => omega
      | succ m =>
        have := (hpend _ _ (d3 m (by omega))).2.2
        omega
    have htake : (allResults batches).take (s.nextMerge + rs.length) =
        (allResults batches).take s.nextMerge ++ rs := by
      rw [List.take_add]
      congr 1
      apply List.ext_getElem?
      intro j
      rw [List.getElem?_take]
      split
      · rename_i hj
        rw [List.getElem?_drop, hrs j hj, List.getElem?_eq_getElem hj]
      · rename_i hj
        rw [List.getElem?_eq_none (by omega)]
    have hndf : (before.map Prod.fst ++ i :: after.map Prod.fst).Nodup := by
      have := hnd
      rw [hf] at this
      simpa using this
    have hmem : ∀ x, x ∈ before ++ after → x ∈ s.flight := by
      intro x hx
      rw [hf]
      rcases List.mem_append.1 hx with hx | hx
      · exact List.mem_append_left _ hx
      · exact List.mem_append_right _ (List.mem_cons_of_mem _ hx)
    have hni : ∀ j q, (j, q) ∈ before ++ after → j ≠ i := by
      intro j q hj e
      subst e
      rw [List.nodup_append] at hndf
      obtain ⟨_, h2, h3⟩ := hndf
      rcases List.mem_append.1 hj with hj | hj
      · exact h3 j (List.mem_map.2 ⟨(j, q), hj, rfl⟩) j (by simp) rfl
      · exact (List.nodup_cons.1 h2).1 (List.mem_map.2 ⟨(j, q), hj, rfl⟩)
    have hb : (({ s with flight := before ++ after } : Pipe).receive i r).builder =
        rs.foldl Builder.merge s.builder := d1
    have hnm : (({ s with flight := before ++ after } : Pipe).receive i r).nextMerge =
        s.nextMerge + rs.length := d2
    have hpg : ∀ j, (({ s with flight := before ++ after } : Pipe).receive i r).pending.get? j =
        if s.nextMerge ≤ j ∧ j < s.nextMerge + rs.length then none
        else (s.pending.insert i r).get? j := d4
    have hpn : (({ s with flight := before ++ after } : Pipe).receive i r).pending.get?
        (s.nextMerge + rs.length) = none := d5
    generalize hq : ({ s with flight := before ++ after } : Pipe).receive i r = t at *
    have ht1 : t.todo = s.todo := by rw [← hq]; rfl
    have ht2 : t.enq = s.enq := by rw [← hq]; rfl
    have ht3 : t.nextIndex = s.nextIndex := by rw [← hq]; rfl
    have ht4 : t.flight = before ++ after := by rw [← hq]; rfl
    refine ⟨⟨done, by rw [ht1]; exact hl1, by rw [ht1, ht2, ht3]; exact hl2, ?_, ?_⟩,
      by rw [ht3]; exact hix, by rw [hnm, ht3]; exact hle, ?_, ?_, ?_, ?_, by rw [hnm]; exact hpn⟩
    · rw [hb, hnm, htake, List.foldl_append]
      exact hl3.foldl_merge rs
    · rw [hb, hnm, htake]
      refine (hl4.foldl_merge rs).congr fun x => ?_
      simp only [resultWrites, List.mem_append, or_assoc]
      constructor
      · rintro (h | ⟨q, h, e⟩ | ⟨q, h, e⟩)
        · exact Or.inl h
        · exact Or.inr ⟨q, Or.inl h, e⟩
        · exact Or.inr ⟨q, Or.inr h, e⟩
      · rintro (h | ⟨q, h | h, e⟩)
        · exact Or.inl h
        · exact Or.inr (Or.inl ⟨q, h, e⟩)
        · exact Or.inr (Or.inr ⟨q, h, e⟩)
    · intro j q hj
      rw [ht4] at hj
      obtain ⟨a, b, c, d⟩ := hfl j q (hmem _ hj)
      have hnej := hni j q hj
      have hnone : (s.pending.insert i r).get? j = none := by
        rw [AMap.get?_insert, if_neg hnej]; exact d
      refine ⟨a, ?_, by rw [ht3]; exact c, ?_⟩
      · rw [hnm]
        rcases Nat.lt_or_ge j (s.nextMerge + rs.length) with hlt | hge
        · have := d3 (j - s.nextMerge) (by omega)
          rw [show s.nextMerge + (j - s.nextMerge) = j by omega, hnone] at this
          cases this
        · exact hge
      · rw [hpg]; split
        · rfl
        · exact hnone
    · rw [ht4, List.map_append]
      rw [List.nodup_append] at hndf ⊢
      exact ⟨hndf.1, (List.nodup_cons.1 hndf.2.1).2, fun a ha b hb' =>
        hndf.2.2 a ha b (List.mem_cons_of_mem _ hb')⟩
    · intro j q hj
      rw [hpg] at hj
      split at hj
      · cases hj
      · rename_i hno
        obtain ⟨a, b, c⟩ := hpend j q hj
        exact ⟨a, by rw [hnm]; omega, by rw [ht3]; exact c⟩
    · intro j h1 h2
      rw [hnm] at h1
      rw [ht3] at h2
      rw [ht4]
      by_cases e : j = i
      · refine Or.inr ⟨r, ?_⟩
        rw [hpg, if_neg (by omega), AMap.get?_insert, if_pos e]
      · rcases hev j (by omega) h2 with ⟨q, hq'⟩ | ⟨q, hq'⟩
        · refine Or.inl ⟨q, ?_⟩
          rw [hf] at hq'
          rcases List.mem_append.1 hq' with hq' | hq'
          · exact List.mem_append_left _ hq'
          · rcases List.mem_cons.1 hq' with hq' | hq'
            · cases hq'; exact absurd rfl e
            · exact List.mem_append_right _ hq'
        · refine Or.inr ⟨q, ?_⟩
          rw [hpg, if_neg (by omega), AMap.get?_insert, if_neg e]
          exact hq'

theorem PipeInv.reachable {src : Path} {p : Project} {w : Bool} {id : Nat}
    {batches : List (List Item)} {s : Pipe} (h : Reachable src p w id batches s) :
    PipeInv src p id batches s := by
  induction h with
  | refl => exact PipeInv.start src p id batches
  | tail _ hs ih => exact ih.step hs

/-- When nothing is left and it was not stopped, everything has been merged. -/
theorem PipeInv.all_merged {src : Path} {p : Project} {id : Nat} {batches : List (List Item)}
    {s : Pipe} (h : PipeInv src p id batches s) (hf : s.flight = []) (he : s.enq = [])
    (ht : s.todo = []) : s.nextMerge = (allResults batches).length := by
  obtain ⟨done, _, hl2, _, _⟩ := h.loaded
  have hlen : (allResults batches).length ≤ s.nextIndex := by
    rw [he, ht] at hl2
    exact List.drop_eq_nil_iff.1 hl2
  have h1 := h.index
  have h2 := h.merge
  rcases Nat.lt_or_ge s.nextMerge s.nextIndex with hlt | hge
  · rcases h.every s.nextMerge (Nat.le_refl _) hlt with ⟨r, hr⟩ | ⟨r, hr⟩
    · rw [hf] at hr; cases hr
    · rw [h.drained] at hr; cases hr
  · omega

/-! ### The status -/

theorem prepare_foldl_status (src : Path) (p : Project) (l : List (List Item)) (b : Builder) :
    (l.foldl (Builder.prepare src p) b).status = b.status := by
  induction l generalizing b with
  | nil => rfl
  | cons a l ih => rw [List.foldl_cons, ih, (prepare_fields src p b a).2.1]

theorem foldl_merge_good (l : List Result) (b : Builder) :
    (l.foldl Builder.merge b).status = .good ↔ b.status = .good ∧ ∀ r ∈ l, r.status = .good := by
  induction l generalizing b with
  | nil => simp
  | cons r l ih =>
    rw [List.foldl_cons, ih]
    have : (b.merge r).status = .good ↔ b.status = .good ∧ r.status = .good := by
      simp only [Builder.merge]
      cases b.status <;> cases r.status <;> simp [Status.merge]
    rw [this]
    simp [and_assoc]

theorem foldl_merge_error (l : List Result) (b : Builder) :
    (l.foldl Builder.merge b).status = .error ↔ b.status = .error ∨ ∃ r ∈ l, r.status = .error := by
  induction l generalizing b with
  | nil => simp
  | cons r l ih =>
    rw [List.foldl_cons, ih]
    have : (b.merge r).status = .error ↔ b.status = .error ∨ r.status = .error := by
      simp only [Builder.merge]
      cases b.status <;> cases r.status <;> simp [Status.merge]
    rw [this]
    simp [or_assoc]

theorem PipeInv.status {src : Path} {p : Project} {id : Nat} {batches : List (List Item)}
    {s : Pipe} (h : PipeInv src p id batches s) :
    (s.builder.status = .good ↔
      ∀ r ∈ (allResults batches).take s.nextMerge, r.status = .good) ∧
    (s.builder.status = .error ↔
      ∃ r ∈ (allResults batches).take s.nextMerge, r.status = .error) := by
  obtain ⟨done, _, _, hl3, _⟩ := h.loaded
  rw [hl3.status, foldl_merge_good, foldl_merge_error, prepare_foldl_status]
  simp

end Acorn.Build
