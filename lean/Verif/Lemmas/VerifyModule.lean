import Verif.Spec.VerifyModule
/-
Lemmas about the walk over the lowered items of a module: what is known at each goal.
-/
namespace Acorn.Vrf
open Elab (LowItem visibleFor visibleItem)
open Paths (Desc)

variable {Fact : Type} {S : Setting Fact} {M : Source Fact}

/-- The facts known are those of the modules needed by `base` and the facts `ids` of the module. -/
structure Knows (M : Source Fact) (base : List Desc) (ids : List Nat) (P : Known Fact) : Prop where
  nodup : P.imported.Nodup
  mem : ∀ m, m ∈ P.imported ↔ Needs M base m
  perm : P.facts.Perm (P.imported.flatMap (exported M) ++ ids.map M.fact)
  sub : (ids.map M.fact).Sublist P.facts

theorem knows_empty : Knows M [] [] ({} : Known Fact) :=
  ⟨List.nodup_nil, fun m => ⟨(fun h => by cases h), (by rintro ⟨_, h, _⟩; cases h)⟩, List.Perm.refl _,
    List.Sublist.refl _⟩

theorem Knows.add {base : List Desc} {ids : List Nat} {P : Known Fact} (h : Knows M base ids P) (i : Nat) :
    Knows M base (ids ++ [i]) (P.add (M.fact i)) where
  nodup := h.nodup
  mem := h.mem
  perm := by
    show (P.facts ++ [M.fact i]).Perm _
    rw [List.map_append, ← List.append_assoc]
    exact h.perm.append_right _
  sub := by
    show List.Sublist _ (P.facts ++ [M.fact i])
    rw [List.map_append]
    exact h.sub.append (List.Sublist.refl _)

theorem Knows.addAll {base : List Desc} : ∀ (new ids : List Nat) {P : Known Fact}, Knows M base ids P →
    Knows M base (ids ++ new) ((new.map M.fact).foldl Known.add P)
  | [], ids, P, h => by simpa using h
  | i :: new, ids, P, h => by
    have := Knows.addAll new (ids ++ [i]) (h.add i)
    simpa using this

/-- Importing modules that are loaded. -/
theorem addModules_spec : ∀ (ms : List Desc) (P : Known Fact), P.imported.Nodup →
    (∀ m ∈ ms, (M.exports m).isSome) →
    ∃ P' new, P.addModules M ms = .ok P' ∧ P'.imported = new ++ P.imported ∧ P'.imported.Nodup ∧
      (∀ m, m ∈ P'.imported ↔ m ∈ P.imported ∨ m ∈ ms) ∧
      P'.facts.Perm (new.flatMap (exported M) ++ P.facts) ∧ P.facts.Sublist P'.facts
  | [], P, hn, _ => ⟨P, [], rfl, rfl, hn, by simp, List.Perm.refl _, List.Sublist.refl _⟩
  | m :: ms, P, hn, hl => by
    by_cases hm : m ∈ P.imported
    · obtain ⟨P', new, e, h1, h2, h3, h4, h5⟩ := addModules_spec ms P hn fun x hx => hl x (List.mem_cons_of_mem _ hx)
      refine ⟨P', new, ?_, h1, h2, fun x => ?_, h4, h5⟩
      · rw [Known.addModules, Known.addModule, if_pos hm]; exact e
      · rw [h3 x, List.mem_cons]
        constructor
        · rintro (h | h)
          · exact .inl h
          · exact .inr (.inr h)
        · rintro (h | h | h)
          · exact .inl h
          · subst h; exact .inl hm
          · exact .inr h
    · obtain ⟨fs, hfs⟩ := Option.isSome_iff_exists.mp (hl m List.mem_cons_self)
      obtain ⟨P', new, e, h1, h2, h3, h4, h5⟩ := addModules_spec ms ⟨P.facts ++ fs, m :: P.imported⟩
        (List.nodup_cons.mpr ⟨hm, hn⟩) fun x hx => hl x (List.mem_cons_of_mem _ hx)
      refine ⟨P', new ++ [m], ?_, by rw [h1]; simp, h2, fun x => ?_, ?_, ?_⟩
      · rw [Known.addModules, Known.addModule, if_neg hm, hfs]; exact e
      · rw [h3 x, List.mem_cons, List.mem_cons]
        constructor
        · rintro ((h | h) | h)
          · exact .inr (.inl h)
          · exact .inl h
          · exact .inr (.inr h)
        · rintro (h | h | h)
          · exact .inl (.inr h)
          · exact .inl (.inl h)
          · exact .inr h
      · refine h4.trans ?_
        have hx : [m].flatMap (exported M) = fs := by simp [exported, hfs]
        rw [List.flatMap_append, hx, List.append_assoc]
        exact List.Perm.append_left _ List.perm_append_comm
      · exact (List.sublist_append_left _ _).trans h5

/-- Importing what the bindings of a goal need. -/
theorem addImports_spec {base direct : List Desc} {ids : List Nat} {P : Known Fact} (h : Knows M base ids P)
    (hc : ∀ d m, m ∈ M.deps d → ∀ x ∈ M.deps m, x ∈ M.deps d) (hg : ∀ d ∈ base, d ∈ direct)
    (hl : ∀ m, Needs M direct m → (M.exports m).isSome) :
    ∃ P', P.addImports M direct = .ok P' ∧ Knows M direct ids P' ∧ P'.hasImports direct = true := by
  by_cases hi : P.hasImports direct = true
  · refine ⟨P, by rw [Known.addImports, if_pos hi], ⟨h.nodup, fun m => ?_, h.perm, h.sub⟩, hi⟩
    constructor
    · intro hm
      obtain ⟨d, hd, hm⟩ := (h.mem m).mp hm
      exact ⟨d, hg d hd, hm⟩
    · rintro ⟨d, hd, hm⟩
      have hd : d ∈ P.imported := by
        have := List.all_eq_true.mp hi d hd
        simpa using this
      obtain rfl | hm := hm
      · exact hd
      · obtain ⟨b, hb, rfl | hdb⟩ := (h.mem d).mp hd
        · exact (h.mem m).mpr ⟨d, hb, .inr hm⟩
        · exact (h.mem m).mpr ⟨b, hb, .inr (hc b d hdb m hm)⟩
  · obtain ⟨P', new, e, h1, h2, h3, h4, h5⟩ := addModules_spec (M := M) (direct.flatMap fun d => M.deps d ++ [d]) P
      h.nodup fun m hm => hl m (by
        obtain ⟨d, hd, hm⟩ := List.mem_flatMap.mp hm
        rcases List.mem_append.mp hm with hm | hm
        · exact ⟨d, hd, .inr hm⟩
        · exact ⟨d, hd, .inl (List.mem_singleton.mp hm)⟩)
    have hmem : ∀ m, m ∈ P'.imported ↔ Needs M direct m := by
      intro m
      rw [h3 m]
      constructor
      · rintro (hm | hm)
        · obtain ⟨d, hd, hm⟩ := (h.mem m).mp hm
          exact ⟨d, hg d hd, hm⟩
        · obtain ⟨d, hd, hm⟩ := List.mem_flatMap.mp hm
          rcases List.mem_append.mp hm with hm | hm
          · exact ⟨d, hd, .inr hm⟩
          · exact ⟨d, hd, .inl (List.mem_singleton.mp hm)⟩
      · rintro ⟨d, hd, hm⟩
        refine .inr (List.mem_flatMap.mpr ⟨d, hd, ?_⟩)
        rcases hm with rfl | hm
        · simp
        · simp [hm]
    refine ⟨P', by rw [Known.addImports, if_neg hi]; exact e, ⟨h2, hmem, ?_, h.sub.trans h5⟩, ?_⟩
    · rw [h1, List.flatMap_append, List.append_assoc]
      exact h4.trans (h.perm.append_left _)
    · refine List.all_eq_true.mpr fun d hd => ?_
      have := (hmem d).mpr ⟨d, hd, .inl rfl⟩
      simpa using this

/-! ### The goals of the walk -/

/-- What is known after importing for a goal. -/
def withImports (M : Source Fact) (P : Known Fact) (direct : List Desc) : Known Fact :=
  match P.addImports M direct with
  | .ok P' => P'
  | .error _ => P

/-- What is known after an item. -/
def afterItem (M : Source Fact) (P : Known Fact) : LowItem → Known Fact
  | .fact i => P.add (M.fact i)
  | .claim g i => (withImports M P (M.direct g)).add (M.fact i)
  | .block _ external => (external.toList.map M.fact).foldl Known.add P

mutual

/-- The goals of an item, each with the facts known at it. -/
def facedIn (M : Source Fact) (P : Known Fact) : LowItem → List (List Fact × Nat)
  | .fact _ => []
  | .claim g _ => [((withImports M P (M.direct g)).facts, g)]
  | .block items _ => faced M P items

/-- The goals of several items, each with the facts known at it. -/
def faced (M : Source Fact) (P : Known Fact) : List LowItem → List (List Fact × Nat)
  | [] => []
  | item :: items => facedIn M P item ++ faced M (afterItem M P item) items

end

mutual

theorem facedIn_goals (P : Known Fact) : ∀ item, (facedIn M P item).map Prod.snd = goalsOf item
  | .fact _ => rfl
  | .claim _ _ => rfl
  | .block items _ => by rw [facedIn, goalsOf]; exact faced_goals P items

theorem faced_goals (P : Known Fact) : ∀ items, (faced M P items).map Prod.snd = goalIds items
  | [] => rfl
  | item :: items => by rw [faced, goalIds, List.map_append, facedIn_goals P item, faced_goals _ items]

end

mutual

theorem visibleItem_absent {g : Nat} (v : List Nat) : ∀ item, g ∉ goalsOf item →
    visibleItem g v item = .inr (v ++ match item with | .fact i => [i] | .claim _ i => [i] | .block _ e => e.toList)
  | .fact i, _ => rfl
  | .claim j i, h => by
    rw [visibleItem, if_neg (by rintro rfl; simp [goalsOf] at h)]
  | .block items e, h => by
    rw [visibleItem, visibleFor_absent v items (by simpa [goalsOf] using h)]

theorem visibleFor_absent {g : Nat} (v : List Nat) : ∀ items, g ∉ goalIds items → visibleFor g v items = none
  | [], _ => rfl
  | item :: items, h => by
    simp only [goalIds, List.mem_append, not_or] at h
    rw [visibleFor, visibleItem_absent v item h.1]
    exact visibleFor_absent _ items h.2

end

/-- Everything that the goals of some items need is loaded. -/
def AllLoaded (M : Source Fact) (goals : List Nat) : Prop :=
  ∀ g ∈ goals, ∀ m, Needs M (M.direct g) m → (M.exports m).isSome

/-- A goal is faced with what it may use. -/
def Faces (M : Source Fact) (found : Option (List Nat)) (p : List Fact × Nat) : Prop :=
  ∃ ids P, found = some ids ∧ p.1 = P.facts ∧ Knows M (M.direct p.2) ids P

theorem withImports_spec {base : List Desc} {ids : List Nat} {P : Known Fact} {g : Nat} (h : Knows M base ids P)
    (hc : ∀ d m, m ∈ M.deps d → ∀ x ∈ M.deps m, x ∈ M.deps d) (hg : ∀ d ∈ base, d ∈ M.direct g)
    (hl : ∀ m, Needs M (M.direct g) m → (M.exports m).isSome) :
    P.addImports M (M.direct g) = .ok (withImports M P (M.direct g)) ∧
      Knows M (M.direct g) ids (withImports M P (M.direct g)) ∧
      (withImports M P (M.direct g)).hasImports (M.direct g) = true := by
  obtain ⟨P', e, h1, h2⟩ := addImports_spec h hc hg hl
  have : withImports M P (M.direct g) = P' := by rw [withImports, e]
  rw [this]
  exact ⟨e, h1, h2⟩

/-- The imports after an item. -/
def baseAfter (M : Source Fact) (base : List Desc) : LowItem → List Desc
  | .claim g _ => M.direct g
  | _ => base

/-- The facts of the module that an item makes known. -/
def idsOf : LowItem → List Nat
  | .fact i => [i]
  | .claim _ i => [i]
  | .block _ e => e.toList

theorem afterItem_knows {base : List Desc} {ids : List Nat} {P : Known Fact} (h : Knows M base ids P)
    (hc : ∀ d m, m ∈ M.deps d → ∀ x ∈ M.deps m, x ∈ M.deps d) : ∀ (item : LowItem), GrowsItem M base item →
    AllLoaded M (goalsOf item) →
    Knows M (baseAfter M base item) (ids ++ idsOf item) (afterItem M P item)
  | .fact i, _, _ => h.add i
  | .claim g i, hg, hl => (withImports_spec h hc hg (hl g (by simp [goalsOf]))).2.1.add i
  | .block _ e, _, _ => h.addAll e.toList ids

mutual

theorem facedIn_spec (hc : ∀ d m, m ∈ M.deps d → ∀ x ∈ M.deps m, x ∈ M.deps d) {base : List Desc}
    {ids : List Nat} {P : Known Fact} (h : Knows M base ids P) : ∀ (item : LowItem), GrowsItem M base item →
    AllLoaded M (goalsOf item) → (goalsOf item).Nodup → ∀ p ∈ facedIn M P item,
      ∃ r, visibleItem p.2 ids item = .inl r ∧ Faces M (some r) p
  | .fact i, _, _, _, p, hp => by cases hp
  | .claim g i, hg, hl, _, p, hp => by
    obtain rfl := List.mem_singleton.mp hp
    exact ⟨ids, by simp [visibleItem], ids, _, rfl, rfl,
      (withImports_spec h hc hg (hl g (by simp [goalsOf]))).2.1⟩
  | .block items e, hg, hl, hn, p, hp => by
    obtain ⟨r, P', e1, h1⟩ := faced_spec hc h items hg hl hn p hp
    exact ⟨r, by rw [visibleItem, e1], r, P', rfl, h1⟩

theorem faced_spec (hc : ∀ d m, m ∈ M.deps d → ∀ x ∈ M.deps m, x ∈ M.deps d) {base : List Desc}
    {ids : List Nat} {P : Known Fact} (h : Knows M base ids P) : ∀ (items : List LowItem), Grows M base items →
    AllLoaded M (goalIds items) → (goalIds items).Nodup → ∀ p ∈ faced M P items,
      Faces M (visibleFor p.2 ids items) p
  | [], _, _, _, p, hp => by cases hp
  | item :: items, hg, hl, hn, p, hp => by
    have hl1 : AllLoaded M (goalsOf item) := fun g h => hl g (by simp [goalIds, h])
    have hl2 : AllLoaded M (goalIds items) := fun g h => hl g (by simp [goalIds, h])
    obtain ⟨n1, n2, n3⟩ := List.nodup_append.mp (show (goalsOf item ++ goalIds items).Nodup from hn)
    rcases List.mem_append.mp (show p ∈ facedIn M P item ++ faced M (afterItem M P item) items from hp) with hp | hp
    · obtain ⟨r, e, h1⟩ := facedIn_spec hc h item hg.1 hl1 n1 p hp
      rw [visibleFor, e]
      exact h1
    · have hm : p.2 ∈ goalIds items := by rw [← faced_goals]; exact List.mem_map_of_mem hp
      have hk := afterItem_knows h hc item hg.1 hl1
      have hg2 : Grows M (baseAfter M base item) items := by
        have := hg.2
        cases item <;> exact this
      have := faced_spec hc hk items hg2 hl2 n2 p hp
      rw [visibleFor, visibleItem_absent ids item fun h => n3 _ h _ hm rfl]
      cases item <;> exact this

end

/-! ### The walk is the goals in turn -/

theorem inTurn_append {st : Progress} (a b : List (List Fact × Nat)) (hs : S.stops st = false) :
    inTurn S st (a ++ b) = (do
      let st ← inTurn S st a
      if S.stops st then return st
      inTurn S st b) := by
  induction a generalizing st with
  | nil =>
    show inTurn S st b = if S.stops st then pure st else inTurn S st b
    rw [hs]; rfl
  | cons p a ih =>
    obtain ⟨facts, g⟩ := p
    simp only [List.cons_append, inTurn]
    cases attempt S st facts g with
    | error e => rfl
    | ok st1 =>
      have := ih (st := st1)
      simp only [bind, Except.bind] at this ⊢
      cases h1 : S.stops st1 with
      | true => simp [h1, pure, Except.pure]
      | false =>
        rw [if_neg (by simp), if_neg (by simp)]
        exact this h1

theorem verifyClaim_eq {P : Known Fact} {g : Nat} (st : Progress) (h : P.hasImports (S.src.direct g) = true) :
    verifyClaim S st P g = attempt S st P.facts g := by
  have e : P.addImports S.src (S.src.direct g) = .ok P := by rw [Known.addImports, if_pos h]
  unfold verifyClaim attempt
  rw [e]
  rfl

/-- The walk over some items does what the goals in turn do. -/
def Walks (S : Setting Fact) (st : Progress) (P' : Known Fact) (goals : List (List Fact × Nat))
    (r : Except GaveUp (Progress × Known Fact)) : Prop :=
  match inTurn S st goals with
  | .error e => r = .error e
  | .ok st' => ∃ Q, r = .ok (st', Q) ∧ (S.stops st' = false → Q = P')

mutual

theorem verifyItem_walks (hc : ∀ d m, m ∈ S.src.deps d → ∀ x ∈ S.src.deps m, x ∈ S.src.deps d) {base : List Desc}
    {ids : List Nat} {P : Known Fact} (h : Knows S.src base ids P) (top : Bool) (st : Progress) (hs : S.stops st = false) :
    ∀ (item : LowItem), GrowsItem S.src base item → AllLoaded S.src (goalsOf item) →
      Walks S st (afterItem S.src P item) (facedIn S.src P item) (verifyItem S top st P item)
  | .fact i, _, _ => ⟨_, rfl, fun _ => rfl⟩
  | .claim g i, hg, hl => by
    obtain ⟨e, _, h2⟩ := withImports_spec h hc hg (hl g (by simp [goalsOf]))
    have e2 := verifyClaim_eq st h2
    unfold Walks
    rw [facedIn, inTurn, verifyItem, e]
    simp only [bind, Except.bind]
    rw [e2]
    cases ha : attempt S st (withImports S.src P (S.src.direct g)).facts g with
    | error x => rfl
    | ok st1 =>
      simp only [inTurn]
      have : (if S.stops st1 = true then pure st1 else Except.ok (ε := GaveUp) st1) = .ok st1 := by split <;> rfl
      rw [this]
      exact ⟨(withImports S.src P (S.src.direct g)).add (S.src.fact i), rfl, fun _ => rfl⟩
  | .block items ext, hg, hl => by
    have ih := verifyItems_walks hc h false st hs items hg hl
    unfold Walks at ih ⊢
    rw [facedIn, verifyItem]
    by_cases hb : (items.isEmpty && top) = true
    · rw [if_pos hb]
      have : items = [] := by
        cases items with
        | nil => rfl
        | cons a b => cases hb
      subst this
      exact ⟨_, rfl, fun _ => rfl⟩
    · rw [if_neg hb]
      cases ht : inTurn S st (faced S.src P items) with
      | error x =>
        rw [ht] at ih
        dsimp only at ih ⊢
        rw [ih]; rfl
      | ok st1 =>
        rw [ht] at ih
        obtain ⟨Q, e, _⟩ := ih
        dsimp only
        rw [e]
        exact ⟨_, rfl, fun _ => rfl⟩

theorem verifyItems_walks (hc : ∀ d m, m ∈ S.src.deps d → ∀ x ∈ S.src.deps m, x ∈ S.src.deps d) {base : List Desc}
    {ids : List Nat} {P : Known Fact} (h : Knows S.src base ids P) (top : Bool) (st : Progress) (hs : S.stops st = false) :
    ∀ (items : List LowItem), Grows S.src base items → AllLoaded S.src (goalIds items) →
      Walks S st (items.foldl (afterItem S.src) P) (faced S.src P items) (verifyItems S top st P items)
  | [], _, _ => ⟨P, rfl, fun _ => rfl⟩
  | item :: items, hg, hl => by
    have hl1 : AllLoaded S.src (goalsOf item) := fun g h => hl g (by simp [goalIds, h])
    have hl2 : AllLoaded S.src (goalIds items) := fun g h => hl g (by simp [goalIds, h])
    have h1 := verifyItem_walks hc h top st hs item hg.1 hl1
    have hk := afterItem_knows h hc item hg.1 hl1
    have hg2 : Grows S.src (baseAfter S.src base item) items := by
      have := hg.2
      cases item <;> exact this
    unfold Walks at h1 ⊢
    rw [faced, inTurn_append _ _ hs, verifyItems]
    cases ht : inTurn S st (facedIn S.src P item) with
    | error x =>
      rw [ht] at h1
      dsimp only at h1 ⊢
      rw [h1]; rfl
    | ok st1 =>
      rw [ht] at h1
      obtain ⟨Q, e, hQ⟩ := h1
      rw [e]
      show match (if S.stops st1 then pure st1 else inTurn S st1 _) with
        | .error e => (if S.stops st1 then pure (st1, Q) else verifyItems S top st1 Q items) = .error e
        | .ok st' => ∃ R, (if S.stops st1 then pure (st1, Q) else verifyItems S top st1 Q items) = .ok (st', R) ∧ _
      cases h2 : S.stops st1 with
      | true =>
        refine ⟨Q, rfl, fun h => ?_⟩
        rw [h2] at h; cases h
      | false =>
        have hQ := hQ h2
        subst hQ
        exact verifyItems_walks hc hk top st1 h2 items hg2 hl2

end

/-- A module is its goals in turn. -/
theorem verifyModule_inTurn {items : List LowItem} (h : LoadedModule M items) :
    ∃ goals : List (List Fact × Nat), goals.map Prod.snd = goalIds items ∧ (∀ p ∈ goals, MayUse M items p.2 p.1) ∧
      ∀ S : Setting Fact, S.src = M → ∀ (status : Status) (stored : List Cert) (order : Worklist → List String),
        S.stops (.start status stored) = false →
        verifyModule S status stored order items = (inTurn S (.start status stored) goals).map (Progress.leaves S order) := by
  obtain ⟨P, e, hk, _⟩ := addImports_spec (direct := M.initial) (knows_empty (M := M)) h.closed
    (fun d hd => by cases hd) fun m hm => h.loaded m (.inl hm)
  have hl : AllLoaded M (goalIds items) := fun g hg m hm => h.loaded m (.inr ⟨g, hg, hm⟩)
  refine ⟨faced M P items, faced_goals P items, fun p hp => ?_, fun S hS status stored order hs => ?_⟩
  · obtain ⟨ids, Q, e1, e2, hQ⟩ := faced_spec h.closed hk items h.grows hl h.distinct p hp
    exact ⟨Q.imported, ids, hQ.nodup, hQ.mem, e1, by rw [e2]; exact hQ.perm, by rw [e2]; exact hQ.sub⟩
  · subst hS
    unfold verifyModule
    by_cases hi : items.isEmpty = true
    · obtain rfl := List.isEmpty_iff.mp hi
      rfl
    · rw [if_neg hi, e]
      have hw := verifyItems_walks h.closed hk true (.start status stored) hs items h.grows hl
      unfold Walks at hw
      cases ht : inTurn S (.start status stored) (faced S.src P items) with
      | error x =>
        rw [ht] at hw
        dsimp only at hw
        simp only [bind, Except.bind]
        rw [hw]; rfl
      | ok st' =>
        rw [ht] at hw
        obtain ⟨Q, e2, _⟩ := hw
        simp only [bind, Except.bind]
        rw [e2]; rfl

/-- Looking a certificate up uses the same facts. -/
theorem lookupFacts_spec {items : List LowItem} (h : LoadedModule M items) {g : Nat} (hg : g ∈ goalIds items)
    {facts : List Fact} (hu : MayUse M items g facts) : ∃ fs, lookupFacts M items g = some fs ∧ fs.Perm facts := by
  obtain ⟨mods, ids, h1, h2, h3, h4, _⟩ := hu
  obtain ⟨P, e, hk, _⟩ := addImports_spec (direct := M.direct g) (knows_empty (M := M)) h.closed
    (fun d hd => by cases hd) fun m hm => h.loaded m (.inr ⟨g, hg, hm⟩)
  have hk2 := hk.addAll ids []
  refine ⟨_, by rw [lookupFacts, e, h3], ?_⟩
  have hp : P.imported.Perm mods := (List.perm_ext_iff_of_nodup hk.nodup h1).mpr fun m => by rw [hk.mem, h2]
  have hi : ∀ (l : List Fact) (P : Known Fact), (l.foldl Known.add P).imported = P.imported := by
    intro l
    induction l with
    | nil => intro P; rfl
    | cons f l ih => intro P; rw [List.foldl_cons, ih]; rfl
  have := hk2.perm
  rw [hi, List.nil_append] at this
  exact this.trans (((hp.flatMap_right _).append_right _).trans h4.symm)

end Acorn.Vrf
