/-
The equality graph is closed under congruence: the table of applications is complete, up to the
equalities still waiting to be processed.
-/
import Verif.Lemmas.EGraphNoPanic
namespace Acorn
namespace EGraph

variable {g g' : EGraph} {n : Nat}

/-- Equivalence relations. -/
structure Eqv (E : Nat → Nat → Prop) : Prop where
  refl : ∀ x, E x x
  symm : ∀ {x y}, E x y → E y x
  trans : ∀ {x y z}, E x y → E y z → E x z

/-- The equality waiting in an operation. -/
def opPair : Op → Option (Nat × Nat)
  | .rewrite s => some (s.left, s.right)
  | .eq a b => some (a, b)
  | _ => none

/-- Two terms in the same group. -/
def Same (g : EGraph) (x y : Nat) : Prop := ∃ k, g.group? x = some k ∧ g.group? y = some k

/-- A relation covers the groups and the waiting equalities. -/
structure Covers (E : Nat → Nat → Prop) (g : EGraph) : Prop where
  same : ∀ x y, Same g x y → E x y
  pend : ∀ op ∈ g.pending, ∀ x y, opPair op = some (x, y) → E x y

/-- An application is listed with a group. -/
def Lists (g : EGraph) (k j : Nat) : Prop := ∃ i, g.info? k = some i ∧ j ∈ i.apps

/-- The table of applications agrees with the list of applications. -/
structure Table (g : EGraph) : Prop where
  index : ∀ k r, g.appMap.get? k = some r →
    ∃ j : Nat, g.apps[j]? = some (some ⟨k, r⟩) ∧ Lists g k.1 j ∧ Lists g k.2 j
  back : ∀ (j : Nat) k r, g.apps[j]? = some (some ⟨k, r⟩) → g.appMap.get? k = some r
  inj : ∀ (j j' : Nat) k r r', g.apps[j]? = some (some ⟨k, r⟩) → g.apps[j']? = some (some ⟨k, r'⟩) → j = j'

/-- The decomposition of a term. -/
def decomp? (g : EGraph) (t : Nat) : Option GDecomp := (g.terms[t]?).map (·.decomp)

/-- The application with the given id has an entry in the table, up to the relation. -/
def InTable (E : Nat → Nat → Prop) (g : EGraph) (id f a : Nat) : Prop :=
  ∃ fk ak r, g.group? f = some fk ∧ g.group? a = some ak ∧ g.appMap.get? (fk, ak) = some r ∧ E r id

/-- Closure under congruence, up to a relation. -/
structure Cong (E : Nat → Nat → Prop) (g : EGraph) : Prop where
  table : Table g
  cong : ∀ id f a, g.decomp? id = some (.application f a) → InTable E g id f a

theorem Cong.mono {E E' : Nat → Nat → Prop} (h : Cong E g) (hE : ∀ x y, E x y → E' x y) : Cong E' g :=
  ⟨h.table, fun id f a hd => by
    obtain ⟨fk, ak, r, h1, h2, h3, h4⟩ := h.cong id f a hd
    exact ⟨fk, ak, r, h1, h2, h3, hE _ _ h4⟩⟩

/-- Changes outside of the table. -/
theorem Cong.same {E : Nat → Nat → Prop} (h : Cong E g) (hg : ∀ t, g'.group? t = g.group? t)
    (hd : ∀ t, g'.decomp? t = g.decomp? t) (ha : g'.apps = g.apps) (hm : g'.appMap = g.appMap)
    (hl : ∀ k j, Lists g k j → Lists g' k j) : Cong E g' where
  table :=
    { index := by
        intro k r hk
        rw [hm] at hk
        obtain ⟨j, h1, h2, h3⟩ := h.table.index k r hk
        exact ⟨j, by rw [ha]; exact h1, hl _ _ h2, hl _ _ h3⟩
      back := by rw [ha, hm]; exact h.table.back
      inj := by rw [ha]; exact h.table.inj }
  cong := by
    intro id f a hid
    rw [hd] at hid
    obtain ⟨fk, ak, r, h1, h2, h3, h4⟩ := h.cong id f a hid
    exact ⟨fk, ak, r, by rw [hg]; exact h1, by rw [hg]; exact h2, by rw [hm]; exact h3, h4⟩

/-- Invariant of the loop over the applications of a merged group. -/
structure Loop (E : Nat → Nat → Prop) (old new : Nat) (is keep : List Nat) (g : EGraph) : Prop where
  cong : ∀ id f a, g.decomp? id = some (.application f a) → ∃ fk ak k r, g.group? f = some fk ∧
    g.group? a = some ak ∧ remapKey old new k = (fk, ak) ∧ g.appMap.get? k = some r ∧ E r id
  index : ∀ k r, g.appMap.get? k = some r → ∃ j : Nat, g.apps[j]? = some (some ⟨k, r⟩) ∧
    ((k.1 = old ∨ k.2 = old) → j ∈ is) ∧
    (k.1 = old ∨ Lists g k.1 j ∨ (k.1 = new ∧ j ∈ keep)) ∧
    (k.2 = old ∨ Lists g k.2 j ∨ (k.2 = new ∧ j ∈ keep))
  back : ∀ (j : Nat) k r, g.apps[j]? = some (some ⟨k, r⟩) → g.appMap.get? k = some r
  inj : ∀ (j j' : Nat) k r r', g.apps[j]? = some (some ⟨k, r⟩) → g.apps[j']? = some (some ⟨k, r'⟩) → j = j'

theorem remapKey_idem {old new : Nat} (hne : old ≠ new) (k : Nat × Nat) :
    remapKey old new (remapKey old new k) = remapKey old new k := by
  simp only [remapKey, Prod.mk.injEq]
  constructor
  · by_cases h : k.1 = old
    · simp [h]
    · simp [h]
  · by_cases h : k.2 = old
    · simp [h]
    · simp [h]

theorem remapKey_no_old {old new : Nat} (hne : old ≠ new) (k : Nat × Nat) :
    (remapKey old new k).1 ≠ old ∧ (remapKey old new k).2 ≠ old := by
  simp only [remapKey]
  constructor
  · split
    · exact Ne.symm hne
    · assumption
  · split
    · exact Ne.symm hne
    · assumption

theorem loop_rekey {E : Nat → Nat → Prop} (hE : Eqv E) {old new : Nat} (hne : old ≠ new) :
    ∀ (is keep : List Nat) {g : EGraph} {r : List Nat × EGraph}, Loop E old new is keep g →
    rekeyApps old new is keep g = some r →
    (∀ op ∈ r.2.pending, ∀ x y, opPair op = some (x, y) → E x y) →
    Loop E old new [] r.1 r.2 ∧ ∀ op ∈ g.pending, op ∈ r.2.pending := by
  intro is
  induction is with
  | nil => intro keep g r h e _; cases e; exact ⟨h, fun _ h => h⟩
  | cons i is ih =>
    intro keep g r h e hp
    simp only [rekeyApps] at e
    split at e
    · cases e
    · rename_i hi
      refine ih keep ⟨h.cong, ?_, h.back, h.inj⟩ e hp
      intro k r' hk
      obtain ⟨j, h1, h2, h3, h4⟩ := h.index k r' hk
      refine ⟨j, h1, fun ho => ?_, h3, h4⟩
      rcases List.mem_cons.1 (h2 ho) with rfl | hj
      · rw [hi] at h1; cases h1
      · exact hj
    · rename_i app hi
      obtain ⟨key, res⟩ := app
      have hkey := h.back i key res hi
      have hlt : i < g.apps.length := (List.getElem?_eq_some_iff.1 hi).1
      simp only at e
      split at e
      · -- the new key is taken
        rename_i ex hex
        rw [AMap.get?_erase] at hex
        have hkk : remapKey old new key ≠ key := fun hh => by rw [if_pos hh] at hex; cases hex
        rw [if_neg hkk] at hex
        have hget : ∀ j : Nat, ∀ k r', (g.apps.set i none)[j]? = some (some ⟨k, r'⟩) →
            j ≠ i ∧ g.apps[j]? = some (some ⟨k, r'⟩) := by
          intro j k r' hj
          rw [List.getElem?_set] at hj
          split at hj
          · first | cases hj | (split at hj <;> cases hj)
          · rename_i hij; exact ⟨Ne.symm hij, hj⟩
        have main : ∀ {g1 : EGraph}, rekeyApps old new is keep g1 = some r →
            g1.pending = .eq res ex :: g.pending → g1.apps = g.apps.set i none →
            g1.appMap = g.appMap.erase key → g1.terms = g.terms → g1.groups = g.groups →
            Loop E old new [] r.1 r.2 ∧ ∀ op ∈ g.pending, op ∈ r.2.pending := by
          intro g1 e hpe hap hma hte hgr
          have hg : ∀ t, g1.group? t = g.group? t := fun t => by simp only [group?, hte]
          have hdd : ∀ t, g1.decomp? t = g.decomp? t := fun t => by simp only [decomp?, hte]
          have hL : ∀ k j, Lists g1 k j ↔ Lists g k j := fun k j => by simp only [Lists, info?, hgr]
          have hgrow : ∀ (is keep : List Nat) {g : EGraph} {r : List Nat × EGraph},
              rekeyApps old new is keep g = some r → ∀ op ∈ g.pending, op ∈ r.2.pending := by
            intro is
            induction is with
            | nil => intro keep g r e op hop; cases e; exact hop
            | cons i is ih =>
              intro keep g r e op hop
              simp only [rekeyApps] at e
              split at e
              · cases e
              · exact ih _ e op hop
              · split at e
                · exact ih _ e op (List.mem_cons_of_mem _ hop)
                · exact ih _ e op hop
          have hpex : E res ex := hp (.eq res ex) (hgrow _ _ e _ (by rw [hpe]; exact List.mem_cons_self))
            res ex rfl
          refine ⟨(ih keep ⟨?_, ?_, ?_, ?_⟩ e hp).1, fun op hop => hgrow _ _ e op
            (by rw [hpe]; exact List.mem_cons_of_mem _ hop)⟩
          · intro id f a hid
            rw [hdd] at hid
            obtain ⟨fk, ak, k, r', h1, h2, h3, h4, h5⟩ := h.cong id f a hid
            by_cases hk : k = key
            · subst hk
              rw [hkey] at h4; cases h4
              refine ⟨fk, ak, remapKey old new k, ex, by rw [hg]; exact h1, by rw [hg]; exact h2,
                by rw [remapKey_idem hne, h3], ?_, hE.trans (hE.symm hpex) h5⟩
              rw [hma, AMap.get?_erase, if_neg hkk]; exact hex
            · exact ⟨fk, ak, k, r', by rw [hg]; exact h1, by rw [hg]; exact h2, h3,
                by rw [hma, AMap.get?_erase, if_neg hk]; exact h4, h5⟩
          · intro k r' hk
            rw [hma, AMap.get?_erase] at hk
            split at hk
            · cases hk
            · rename_i hkne
              obtain ⟨j, h1, h2, h3, h4⟩ := h.index k r' hk
              have hji : j ≠ i := by
                rintro rfl
                rw [hi] at h1; cases h1; exact hkne rfl
              refine ⟨j, by rw [hap, List.getElem?_set, if_neg (Ne.symm hji)]; exact h1, fun ho => ?_,
                by rw [hL]; exact h3, by rw [hL]; exact h4⟩
              rcases List.mem_cons.1 (h2 ho) with hj | hj
              · exact absurd hj hji
              · exact hj
          · intro j k r' hj
            rw [hap] at hj
            obtain ⟨h1, h2⟩ := hget j k r' hj
            have hkne : k ≠ key := by
              rintro rfl
              exact h1 (h.inj j i _ _ _ h2 hi)
            rw [hma, AMap.get?_erase, if_neg hkne]; exact h.back j k r' h2
          · intro j j' k r1 r2 hj hj'
            rw [hap] at hj hj'
            exact h.inj j j' k r1 r2 (hget _ _ _ hj).2 (hget _ _ _ hj').2
        exact main e rfl rfl rfl rfl rfl
      · -- the application moves to the new key
        rename_i hnone
        rw [AMap.get?_erase] at hnone
        have hget : ∀ j : Nat, ∀ k r', (g.apps.set i (some ⟨remapKey old new key, res⟩))[j]? =
            some (some ⟨k, r'⟩) → (j = i ∧ k = remapKey old new key ∧ r' = res) ∨
            (j ≠ i ∧ g.apps[j]? = some (some ⟨k, r'⟩)) := by
          intro j k r' hj
          rw [List.getElem?_set] at hj
          split at hj
          · rename_i hij
            left
            first
            | (cases hj; exact ⟨hij.symm, rfl, rfl⟩)
            | (split at hj
               · cases hj; exact ⟨hij.symm, rfl, rfl⟩
               · cases hj)
          · rename_i hij; exact Or.inr ⟨Ne.symm hij, hj⟩
        -- no other application has the new key
        have hfree : ∀ k r', k ≠ key → g.appMap.get? k = some r' → k ≠ remapKey old new key := by
          rintro k r' hk hg rfl
          rw [if_neg hk, hg] at hnone; cases hnone
        have main : ∀ {g1 : EGraph}, rekeyApps old new is (keep ++ [i]) g1 = some r →
            g1.pending = g.pending → g1.apps = g.apps.set i (some ⟨remapKey old new key, res⟩) →
            g1.appMap = (g.appMap.erase key).insert (remapKey old new key) res → g1.terms = g.terms →
            g1.groups = g.groups →
            Loop E old new [] r.1 r.2 ∧ ∀ op ∈ g.pending, op ∈ r.2.pending := by
          intro g1 e hpe hap hma hte hgr
          have hg : ∀ t, g1.group? t = g.group? t := fun t => by simp only [group?, hte]
          have hdd : ∀ t, g1.decomp? t = g.decomp? t := fun t => by simp only [decomp?, hte]
          have hL : ∀ k j, Lists g1 k j ↔ Lists g k j := fun k j => by simp only [Lists, info?, hgr]
          have hapi : g1.apps[i]? = some (some ⟨remapKey old new key, res⟩) := by
            rw [hap, List.getElem?_set, if_pos rfl, if_pos hlt]
          have hmm : ∀ k, g1.appMap.get? k = if k = remapKey old new key then some res else
              if k = key then none else g.appMap.get? k := by
            intro k; rw [hma, AMap.get?_insert, AMap.get?_erase]
          suffices hl : Loop E old new is (keep ++ [i]) g1 by
            obtain ⟨x1, x2⟩ := ih (keep ++ [i]) hl e hp
            exact ⟨x1, fun op hop => x2 op (by rw [hpe]; exact hop)⟩
          refine ⟨?_, ?_, ?_, ?_⟩
          · intro id f a hid
            rw [hdd] at hid
            obtain ⟨fk, ak, k, r', h1, h2, h3, h4, h5⟩ := h.cong id f a hid
            by_cases hk : k = key
            · subst hk
              rw [hkey] at h4; cases h4
              exact ⟨fk, ak, remapKey old new k, res, by rw [hg]; exact h1, by rw [hg]; exact h2,
                by rw [remapKey_idem hne, h3], by rw [hmm, if_pos rfl], h5⟩
            · exact ⟨fk, ak, k, r', by rw [hg]; exact h1, by rw [hg]; exact h2, h3,
                by rw [hmm, if_neg (hfree k r' hk h4), if_neg hk]; exact h4, h5⟩
          · intro k r' hk
            rw [hmm] at hk
            split at hk
            · rename_i hkk
              cases hk; subst hkk
              obtain ⟨j, h1, h2, h3, h4⟩ := h.index key _ hkey
              have hji : j = i := h.inj _ _ _ _ _ h1 hi
              subst hji
              have hno := remapKey_no_old hne key
              refine ⟨j, hapi, fun ho => ?_, Or.inr ?_, Or.inr ?_⟩
              · rcases ho with ho | ho
                · exact absurd ho hno.1
                · exact absurd ho hno.2
              · rw [hL]
                simp only [remapKey]
                by_cases ho : key.1 = old
                · rw [if_pos ho]; exact Or.inr ⟨rfl, by simp⟩
                · rw [if_neg ho]
                  rcases h3 with h3 | h3 | ⟨h3, h3'⟩
                  · exact absurd h3 ho
                  · exact Or.inl h3
                  · exact Or.inr ⟨h3, List.mem_append_left _ h3'⟩
              · rw [hL]
                simp only [remapKey]
                by_cases ho : key.2 = old
                · rw [if_pos ho]; exact Or.inr ⟨rfl, by simp⟩
                · rw [if_neg ho]
                  rcases h4 with h3 | h3 | ⟨h3, h3'⟩
                  · exact absurd h3 ho
                  · exact Or.inl h3
                  · exact Or.inr ⟨h3, List.mem_append_left _ h3'⟩
            · rename_i hkk
              split at hk
              · cases hk
              · rename_i hkne
                obtain ⟨j, h1, h2, h3, h4⟩ := h.index k r' hk
                have hji : j ≠ i := by
                  rintro rfl
                  rw [hi] at h1; cases h1; exact hkne rfl
                refine ⟨j, by rw [hap, List.getElem?_set, if_neg (Ne.symm hji)]; exact h1,
                  fun ho => ?_, ?_, ?_⟩
                · rcases List.mem_cons.1 (h2 ho) with hj | hj
                  · exact absurd hj hji
                  · exact hj
                · rw [hL]
                  rcases h3 with h3 | h3 | ⟨h3, h3'⟩
                  · exact Or.inl h3
                  · exact Or.inr (Or.inl h3)
                  · exact Or.inr (Or.inr ⟨h3, List.mem_append_left _ h3'⟩)
                · rw [hL]
                  rcases h4 with h3 | h3 | ⟨h3, h3'⟩
                  · exact Or.inl h3
                  · exact Or.inr (Or.inl h3)
                  · exact Or.inr (Or.inr ⟨h3, List.mem_append_left _ h3'⟩)
          · intro j k r' hj
            rw [hap] at hj
            rcases hget j k r' hj with ⟨rfl, rfl, rfl⟩ | ⟨h1, h2⟩
            · rw [hmm, if_pos rfl]
            · have hkne : k ≠ key := by
                rintro rfl
                exact h1 (h.inj j i _ _ _ h2 hi)
              have := h.back j k r' h2
              rw [hmm, if_neg (hfree k r' hkne this), if_neg hkne]; exact this
          · intro j j' k r1 r2 hj hj'
            rw [hap] at hj hj'
            have hcross : ∀ (j : Nat) r', j ≠ i → g.apps[j]? = some (some ⟨remapKey old new key, r'⟩) →
                False := by
              intro j r' hji hj
              have hkne : remapKey old new key ≠ key := by
                intro hh
                rw [hh] at hj
                exact hji (h.inj j i _ _ _ hj hi)
              exact hfree _ r' hkne (h.back _ _ _ hj) rfl
            rcases hget j k r1 hj with ⟨rfl, rfl, rfl⟩ | ⟨h1, h2⟩
            · rcases hget j' _ r2 hj' with ⟨rfl, _, rfl⟩ | ⟨h3, h4⟩
              · rfl
              · exact (hcross j' r2 h3 h4).elim
            · rcases hget j' _ r2 hj' with ⟨rfl, rfl, rfl⟩ | ⟨h3, h4⟩
              · exact (hcross j r1 h1 h2).elim
              · exact h.inj j j' k r1 r2 h2 h4
        exact main e rfl rfl rfl rfl rfl

theorem Merged.group {old new : Nat} {oi ni : GroupInfo} {keep : List Nat} {g2 : EGraph}
    (m : Merged g old new oi ni keep g2 g') (t : Nat) :
    g'.group? t = (g.group? t).map fun k => if k = old then new else k := by
  have := congrArg (Option.map fun x : Term × GDecomp × Nat => x.2.2) (m.terms t)
  simp only [Option.map_map, Function.comp_def] at this
  simp only [group?, this, Option.map_map, Function.comp_def]

theorem Merged.decomp {old new : Nat} {oi ni : GroupInfo} {keep : List Nat} {g2 : EGraph}
    (m : Merged g old new oi ni keep g2 g') (t : Nat) : g'.decomp? t = g.decomp? t := by
  have := congrArg (Option.map fun x : Term × GDecomp × Nat => x.2.1) (m.terms t)
  simp only [Option.map_map, Function.comp_def] at this
  simp only [decomp?, this]

theorem Merged.term {old new : Nat} {oi ni : GroupInfo} {keep : List Nat} {g2 : EGraph}
    (m : Merged g old new oi ni keep g2 g') (t : Nat) : g'.term? t = g.term? t := by
  have := congrArg (Option.map fun x : Term × GDecomp × Nat => x.1) (m.terms t)
  simp only [Option.map_map, Function.comp_def] at this
  simp only [term?, this]

theorem lists_iff {k j : Nat} :
    Lists g k j ↔ ∃ p : List Nat × List Nat, (g.groups.map ash)[k]? = some (.inr p) ∧ j ∈ p.2 := by
  simp only [ash_inr]
  exact ⟨fun ⟨i, h1, h2⟩ => ⟨_, ⟨i, h1, rfl⟩, h2⟩, fun ⟨_, ⟨i, h1, rfl⟩, h2⟩ => ⟨i, h1, h2⟩⟩

/-- Waiting operations are kept by a merge. -/
theorem rekeyApps_pending {old new : Nat} : ∀ (is keep : List Nat) {g : EGraph} {r : List Nat × EGraph},
    rekeyApps old new is keep g = some r → ∀ op ∈ g.pending, op ∈ r.2.pending := by
  intro is
  induction is with
  | nil => intro keep g r e op hop; cases e; exact hop
  | cons i is ih =>
    intro keep g r e op hop
    simp only [rekeyApps] at e
    split at e
    · cases e
    · exact ih _ e op hop
    · split at e
      · exact ih _ e op (List.mem_cons_of_mem _ hop)
      · exact ih _ e op hop

theorem Cong.merge {E : Nat → Nat → Prop} (hE : Eqv E) (hw : Wf n g) (h : Cong E g) {old new : Nat}
    {oi ni : GroupInfo} {keep : List Nat} {g2 : EGraph} (ho : g.info? old = some oi)
    (hn : g.info? new = some ni) (hne : old ≠ new) (m : Merged g old new oi ni keep g2 g')
    (hp : ∀ op ∈ g'.pending, ∀ x y, opPair op = some (x, y) → E x y) : Cong E g' := by
  have hlo := info?_lt ho
  have hln := info?_lt hn
  -- the state at the start of the loop
  have hg1 : ∀ t, (regrouped g old new oi).group? t = g'.group? t := by
    intro t
    rw [m.group]
    show ((oi.terms.foldl (fun ts t => ts.modify t fun i => { i with group := new }) g.terms)[t]?).map _ = _
    rw [get?_regroup]
    cases e : g.terms[t]? with
    | none => simp [group?, e]
    | some ti =>
      have hgt : g.group? t = some ti.group := by simp [group?, e]
      rw [hgt]
      simp only [Option.map_some]
      by_cases hm : t ∈ oi.terms
      · have := hw.grp.members old t ⟨oi, ho, hm⟩
        rw [hgt] at this; cases this
        simp [hm]
      · have : ti.group ≠ old := by
          rintro hto
          rw [hto] at hgt
          obtain ⟨j, j1, j2⟩ := hw.grp.live _ _ hgt
          rw [ho] at j1; cases j1; exact hm j2
        simp [hm, this]
  have hd1 : ∀ t, (regrouped g old new oi).decomp? t = g.decomp? t := by
    intro t
    show ((oi.terms.foldl (fun ts t => ts.modify t fun i => { i with group := new }) g.terms)[t]?).map _ = _
    rw [get?_regroup]
    simp only [decomp?, Option.map_map]
    congr 1
    funext ti
    simp only [Function.comp]
    split <;> rfl
  have hi1 : ∀ k, (regrouped g old new oi).info? k = if k = old then none else g.info? k := by
    intro k
    have e : (regrouped g old new oi).groups[k]? = (g.groups.set old (.remapped new))[k]? := rfl
    rw [List.getElem?_set] at e
    by_cases hk : k = old
    · subst hk; simp only [if_true, hlo] at e; simp [info?, e]
    · rw [if_neg (Ne.symm hk)] at e; simp [info?, e, hk]
  have hL1 : ∀ k j, k ≠ old → Lists g k j → Lists (regrouped g old new oi) k j := by
    intro k j hk ⟨i, h1, h2⟩
    exact ⟨i, by rw [hi1, if_neg hk]; exact h1, h2⟩
  have L0 : Loop E old new oi.apps [] (regrouped g old new oi) := by
    refine ⟨?_, ?_, h.table.back, h.table.inj⟩
    · intro id f a hid
      rw [hd1] at hid
      obtain ⟨fk, ak, r, h1, h2, h3, h4⟩ := h.cong id f a hid
      refine ⟨_, _, (fk, ak), r, ?_, ?_, rfl, h3, h4⟩
      · rw [hg1, m.group, h1]; rfl
      · rw [hg1, m.group, h2]; rfl
    · intro k r hk
      obtain ⟨j, h1, h2, h3⟩ := h.table.index k r hk
      refine ⟨j, h1, ?_, ?_, ?_⟩
      · rintro (he | he)
        · rw [he] at h2
          obtain ⟨i, a1, a2⟩ := h2
          rw [ho] at a1; cases a1; exact a2
        · rw [he] at h3
          obtain ⟨i, a1, a2⟩ := h3
          rw [ho] at a1; cases a1; exact a2
      · by_cases he : k.1 = old
        · exact Or.inl he
        · exact Or.inr (Or.inl (hL1 _ _ he h2))
      · by_cases he : k.2 = old
        · exact Or.inl he
        · exact Or.inr (Or.inl (hL1 _ _ he h3))
  obtain ⟨L, _⟩ := loop_rekey hE hne _ _ L0 m.rekey (fun op hop x y he => hp op (m.pending op hop) x y he)
  obtain ⟨s1, s2, s3, s4, s5, s6⟩ := rekeyApps_same _ _ m.rekey
  have hg2 : ∀ t, g2.group? t = g'.group? t := fun t => by
    rw [← hg1]; simp only [group?]; rw [s1]
  have hd2 : ∀ t, g2.decomp? t = g'.decomp? t := fun t => by
    rw [m.decomp, ← hd1]; simp only [decomp?]; rw [s1]
  have hget : ∀ k : Nat, (g'.groups.map ash)[k]? =
      if k = new then some (.inr (ni.terms ++ oi.terms, ni.apps ++ keep)) else if k = old then some (.inl new)
      else (g.groups.map ash)[k]? := by
    intro k
    rw [m.groups, List.getElem?_set, List.getElem?_set]
    simp only [List.length_set, List.length_map, hlo, hln, if_true]
    by_cases h1 : new = k
    · simp [h1]
    · rw [if_neg h1, if_neg (Ne.symm h1)]
      by_cases h2 : old = k
      · simp [h2]
      · rw [if_neg h2, if_neg (Ne.symm h2)]
  have hLg : ∀ k j, Lists g2 k j → Lists g' k j := by
    intro k j ⟨i, h1, h2⟩
    have : (regrouped g old new oi).info? k = some i := by
      have e : g2.groups = (regrouped g old new oi).groups := s2
      simpa only [info?, e] using h1
    rw [hi1] at this
    by_cases hk : k = old
    · rw [if_pos hk] at this; cases this
    · rw [if_neg hk] at this
      rw [lists_iff, hget]
      by_cases hkn : k = new
      · subst hkn
        rw [hn] at this; cases this
        rw [if_pos rfl]
        exact ⟨_, rfl, List.mem_append_left _ h2⟩
      · rw [if_neg hkn, if_neg hk]
        exact ⟨_, ash_inr.2 ⟨i, this, rfl⟩, h2⟩
  have hLk : ∀ j, j ∈ keep → Lists g' new j := by
    intro j hj
    rw [lists_iff, hget, if_pos rfl]
    exact ⟨_, rfl, List.mem_append_right _ hj⟩
  have hold : ∀ k r, g2.appMap.get? k = some r → k.1 ≠ old ∧ k.2 ≠ old := by
    intro k r hk
    obtain ⟨j, _, h2, _⟩ := L.index k r hk
    exact ⟨fun e => absurd (h2 (Or.inl e)) List.not_mem_nil,
      fun e => absurd (h2 (Or.inr e)) List.not_mem_nil⟩
  refine ⟨⟨?_, ?_, ?_⟩, ?_⟩
  · intro k r hk
    rw [m.appMap] at hk
    obtain ⟨j, h1, h2, h3, h4⟩ := L.index k r hk
    obtain ⟨o1, o2⟩ := hold k r hk
    refine ⟨j, by rw [m.apps]; exact h1, ?_, ?_⟩
    · rcases h3 with h3 | h3 | ⟨h3, h3'⟩
      · exact absurd h3 o1
      · exact hLg _ _ h3
      · rw [h3]; exact hLk j h3'
    · rcases h4 with h3 | h3 | ⟨h3, h3'⟩
      · exact absurd h3 o2
      · exact hLg _ _ h3
      · rw [h3]; exact hLk j h3'
  · rw [m.apps, m.appMap]; exact L.back
  · rw [m.apps]; exact L.inj
  · intro id f a hid
    rw [← hd2] at hid
    obtain ⟨fk, ak, k, r, h1, h2, h3, h4, h5⟩ := L.cong id f a hid
    obtain ⟨o1, o2⟩ := hold k r h4
    have : remapKey old new k = k := by simp only [remapKey, if_neg o1, if_neg o2]
    rw [this] at h3
    subst h3
    exact ⟨fk, ak, r, by rw [← hg2]; exact h1, by rw [← hg2]; exact h2, by rw [m.appMap]; exact h4, h5⟩

end EGraph
end Acorn
