/-
The groups of the equality graph keep a consistent structure.
-/
import Verif.Lemmas.EGraphSound
namespace Acorn
namespace EGraph

variable {g g' : EGraph}

/-- A group that has not been merged into another one. -/
def Live (g : EGraph) (k : Nat) : Prop := ∃ i, g.info? k = some i

/-- A group lists a term. -/
def Mem (g : EGraph) (k t : Nat) : Prop := ∃ i, g.info? k = some i ∧ t ∈ i.terms

/-- A group lists another one as different. -/
def Has (g : EGraph) (a b : Nat) : Prop := ∃ i, g.info? a = some i ∧ i.ineqs.contains b = true

/-- The part of a group that does not change with applications and disequalities. -/
def tsh : Group → Nat ⊕ List Nat
  | .remapped k => .inl k
  | .info i => .inr i.terms

/-- Number of merged groups. -/
def dead (g : EGraph) : Nat := (g.groups.map tsh).countP Sum.isLeft

/-- Consistency of the groups. -/
structure Grp (g : EGraph) : Prop where
  len : g.groups.length = g.terms.length
  live : ∀ t k, g.group? t = some k → Mem g k t
  members : ∀ k t, Mem g k t → g.group? t = some k
  sym : ∀ a b, Has g a b → Has g b a ∧ a ≠ b
  depth : ∃ d : Nat → Nat, (∀ a b : Nat, (g.groups.map tsh)[a]? = some (.inl b) →
    b < g.groups.length ∧ d b < d a) ∧ ∀ a, d a ≤ g.dead

theorem tsh_inl {gs : List Group} {a b : Nat} :
    (gs.map tsh)[a]? = some (.inl b) ↔ gs[a]? = some (.remapped b) := by
  rw [List.getElem?_map]
  cases gs[a]? with
  | none => simp
  | some x => cases x <;> simp [tsh]

theorem tsh_inr {a : Nat} {ts : List Nat} :
    (g.groups.map tsh)[a]? = some (.inr ts) ↔ ∃ i, g.info? a = some i ∧ i.terms = ts := by
  simp only [info?_eq]
  rw [List.getElem?_map]
  cases g.groups[a]? with
  | none => simp
  | some x => cases x <;> simp [tsh]

theorem mem_iff {k t : Nat} :
    Mem g k t ↔ ∃ ts, (g.groups.map tsh)[k]? = some (.inr ts) ∧ t ∈ ts := by
  simp only [tsh_inr]
  exact ⟨fun ⟨i, h1, h2⟩ => ⟨_, ⟨i, h1, rfl⟩, h2⟩, fun ⟨_, ⟨i, h1, rfl⟩, h2⟩ => ⟨i, h1, h2⟩⟩

theorem live_iff {k : Nat} : Live g k ↔ ∃ ts, (g.groups.map tsh)[k]? = some (.inr ts) := by
  simp only [tsh_inr]
  exact ⟨fun ⟨i, h1⟩ => ⟨_, i, h1, rfl⟩, fun ⟨_, i, h1, rfl⟩ => ⟨i, h1⟩⟩

theorem live_congr (e : g'.groups.map tsh = g.groups.map tsh) (k : Nat) : Live g' k ↔ Live g k := by
  rw [live_iff, live_iff, e]

theorem Grp.congr (h : Grp g) (hl : g'.terms.length = g.terms.length)
    (hg : ∀ t, g'.group? t = g.group? t) (e : g'.groups.map tsh = g.groups.map tsh)
    (hh : ∀ a b, Has g' a b ↔ Has g a b) : Grp g' where
  len := by
    have := congrArg List.length e
    simp only [List.length_map] at this
    rw [this, hl, h.len]
  live t k ht := by rw [mem_iff, e, ← mem_iff]; exact h.live t k (by rw [← hg]; exact ht)
  members k t ht := by rw [mem_iff, e, ← mem_iff] at ht; rw [hg]; exact h.members k t ht
  sym a b hab := by rw [hh] at hab; rw [hh]; exact h.sym a b hab
  depth := by
    obtain ⟨d, h1, h2⟩ := h.depth
    have := congrArg List.length e
    simp only [List.length_map] at this
    refine ⟨d, fun a b hab => ?_, fun a => ?_⟩
    · rw [e] at hab; rw [this]; exact h1 a b hab
    · rw [dead, e]; exact h2 a

/-- Only the terms and groups matter. -/
theorem Grp.same (h : Grp g) (ht : g'.terms = g.terms) (hg : g'.groups = g.groups) : Grp g' := by
  have hi : ∀ k, g'.info? k = g.info? k := fun k => by simp only [info?, hg]
  exact h.congr (by rw [ht]) (fun t => by simp only [group?, ht]) (by rw [hg])
    (fun a b => by simp only [Has, hi])

theorem map_setInfo {α : Type} (f : Group → α) {k : Nat} {i i' : GroupInfo} (hi : g.info? k = some i)
    (hf : f (.info i') = f (.info i)) : (g.setInfo k i').groups.map f = g.groups.map f := by
  apply List.ext_getElem?
  intro j
  rw [info?_eq] at hi
  simp only [setInfo, List.getElem?_map, List.getElem?_set]
  split
  · rename_i h; subst h
    rw [hi]; split
    · simp [hf]
    · rename_i h; exact absurd (List.getElem?_eq_some_iff.1 hi).1 h
  · rfl

theorem has_setInfo {k : Nat} {i : GroupInfo} (hk : k < g.groups.length) (a b : Nat) :
    Has (g.setInfo k i) a b ↔ if a = k then i.ineqs.contains b = true else Has g a b := by
  simp only [Has, info?_setInfo hk]
  by_cases h : a = k
  · simp [h]
  · simp [h]

theorem has_some {k : Nat} {i : GroupInfo} (hi : g.info? k = some i) (b : Nat) :
    Has g k b ↔ i.ineqs.contains b = true :=
  ⟨fun ⟨j, h1, h2⟩ => by rw [hi] at h1; cases h1; exact h2, fun h => ⟨i, hi, h⟩⟩

theorem contains_erase {ν : Type} (m : AMap Nat ν) (k k' : Nat) :
    (m.erase k).contains k' = true ↔ k' ≠ k ∧ m.contains k' = true := by
  simp only [AMap.contains, AMap.get?_erase]
  split <;> simp [*]

theorem contains_insert' {ν : Type} (m : AMap Nat ν) (k k' : Nat) (v : ν) :
    (m.insert k v).contains k' = true ↔ k' = k ∨ m.contains k' = true := by
  rw [AMap.contains_insert]; simp

/-- Everything but the groups and the contradiction flag is the same. -/
structure OnlyGroups (g g' : EGraph) : Prop where
  terms : g'.terms = g.terms
  apps : g'.apps = g.apps
  cset : g'.cset = g.cset
  appMap : g'.appMap = g.appMap
  decomps : g'.decomps = g.decomps
  pending : g'.pending = g.pending
  opaques : g'.opaques = g.opaques

theorem OnlyGroups.refl (g : EGraph) : OnlyGroups g g := ⟨rfl, rfl, rfl, rfl, rfl, rfl, rfl⟩

/-- Terms and applications of a group. -/
def ash : Group → Nat ⊕ (List Nat × List Nat)
  | .remapped k => .inl k
  | .info i => .inr (i.terms, i.apps)

theorem tsh_of_ash {gs gs' : List Group} (e : gs'.map ash = gs.map ash) :
    gs'.map tsh = gs.map tsh := by
  have : tsh = (fun x => x.map id Prod.fst) ∘ ash := by
    funext x; cases x <;> rfl
  rw [this, ← List.map_map, ← List.map_map, e]

theorem rekeyIneqs_spec {old new : Nat} : ∀ (us : List Nat) (disc : List (Nat × Nat)) (g : EGraph),
    us.Nodup → (∀ u ∈ us, Has g u old) → old ≠ new →
    ∃ disc' g', rekeyIneqs old new us disc g = some (disc', g') ∧ OnlyGroups g g' ∧
      g'.groups.map ash = g.groups.map ash ∧
      (∀ a b, Has g' a b ↔ if a ∈ us then (b ≠ old ∧ Has g a b) ∨ (b = new ∧ a ≠ new)
        else Has g a b) := by
  intro us
  induction us with
  | nil => intro disc g _ _ _; exact ⟨_, _, rfl, .refl _, rfl, fun a b => by simp⟩
  | cons u us ih =>
    intro disc g hn hu hne
    rw [List.nodup_cons] at hn
    obtain ⟨i, hi, hc⟩ := hu u List.mem_cons_self
    obtain ⟨v, hv⟩ := AMap.contains_iff.1 hc
    have hlt := info?_lt hi
    have step : ∀ (i' : GroupInfo) (c : Bool) (ci : Option (Nat × Nat × Nat)) (d : List (Nat × Nat)),
        i'.terms = i.terms → i'.apps = i.apps →
        (∀ b, i'.ineqs.contains b = true ↔
          (b ≠ old ∧ i.ineqs.contains b = true) ∨ (b = new ∧ u ≠ new)) →
        ∃ disc' g', rekeyIneqs old new us d
            { g.setInfo u i' with contra := c, contraInfo := ci } = some (disc', g') ∧
          OnlyGroups g g' ∧ g'.groups.map ash = g.groups.map ash ∧
          (∀ a b, Has g' a b ↔ if a ∈ u :: us then (b ≠ old ∧ Has g a b) ∨ (b = new ∧ a ≠ new)
            else Has g a b) := by
      intro i' c ci d ht ha hq
      have hH : ∀ a b, Has { g.setInfo u i' with contra := c, contraInfo := ci } a b ↔
          if a = u then i'.ineqs.contains b = true else Has g a b := fun a b => has_setInfo hlt a b
      obtain ⟨disc', g', e1, e2, e3, e4⟩ := ih d { g.setInfo u i' with contra := c, contraInfo := ci }
        hn.2 (fun w hw => by
          have hwu : w ≠ u := fun e => hn.1 (e ▸ hw)
          rw [hH, if_neg hwu]
          exact hu w (List.mem_cons_of_mem _ hw)) hne
      refine ⟨disc', g', e1, ⟨e2.terms, e2.apps, e2.cset, e2.appMap, e2.decomps, e2.pending,
        e2.opaques⟩, e3.trans (map_setInfo ash hi (by simp [ash, ht, ha])), fun a b => ?_⟩
      rw [e4]
      by_cases hau : a = u
      · subst hau
        rw [if_neg hn.1, hH, if_pos rfl, if_pos List.mem_cons_self, hq, has_some hi]
      · simp only [List.mem_cons, hau, false_or]
        rw [hH, if_neg hau]
    simp only [rekeyIneqs, Option.bind_eq_bind, hi, hv, Option.bind_some]
    by_cases hun : u = new
    · rw [if_pos hun]
      subst hun
      exact step { i with ineqs := i.ineqs.erase old } true (some v) disc rfl rfl
        (fun b => by rw [contains_erase]; simp)
    · rw [if_neg hun]
      by_cases hcn : (i.ineqs.erase old).contains new = true
      · rw [if_pos hcn]
        refine step { i with ineqs := i.ineqs.erase old } g.contra g.contraInfo disc rfl rfl ?_
        intro b
        rw [contains_erase] at hcn ⊢
        constructor
        · exact Or.inl
        · rintro (h | ⟨rfl, _⟩)
          · exact h
          · exact hcn
      · rw [if_neg hcn]
        refine step { i with ineqs := (i.ineqs.erase old).insert new v } g.contra g.contraInfo _ rfl
          rfl ?_
        intro b
        rw [contains_insert', contains_erase]
        constructor
        · rintro (h | h)
          · exact Or.inr ⟨h, hun⟩
          · exact Or.inl h
        · rintro (h | h)
          · exact Or.inr h
          · exact Or.inl h.1

theorem contains_mergeIneqs {new : Nat} : ∀ (es : List (Nat × (Nat × Nat × Nat)))
    (m : AMap Nat (Nat × Nat × Nat)) (u : Nat), (mergeIneqs new es m).contains u = true ↔
      m.contains u = true ∨ (u ≠ new ∧ u ∈ es.map Prod.fst) := by
  intro es
  induction es with
  | nil => intro m u; simp [mergeIneqs]
  | cons e es ih =>
    intro m u
    obtain ⟨k, v⟩ := e
    simp only [mergeIneqs, List.map_cons, List.mem_cons]
    by_cases hk : k ≠ new ∧ m.contains k = false
    · rw [if_pos hk, ih, contains_insert']
      constructor
      · rintro ((rfl | h) | ⟨h1, h2⟩)
        · exact Or.inr ⟨hk.1, Or.inl rfl⟩
        · exact Or.inl h
        · exact Or.inr ⟨h1, Or.inr h2⟩
      · rintro (h | ⟨h1, rfl | h2⟩)
        · exact Or.inl (Or.inr h)
        · exact Or.inl (Or.inl rfl)
        · exact Or.inr ⟨h1, h2⟩
    · rw [if_neg hk, ih]
      constructor
      · rintro (h | ⟨h1, h2⟩)
        · exact Or.inl h
        · exact Or.inr ⟨h1, Or.inr h2⟩
      · rintro (h | ⟨h1, rfl | h2⟩)
        · exact Or.inl h
        · left
          cases hc : m.contains u with
          | true => rfl
          | false => exact absurd ⟨h1, hc⟩ hk
        · exact Or.inr ⟨h1, h2⟩

theorem reverseIneqs_spec {new : Nat} {m : AMap Nat (Nat × Nat × Nat)} :
    ∀ (ks : List Nat) (acc : List (Nat × Nat)) (g : EGraph),
    OnlyGroups g (reverseIneqs new m ks acc g).2 ∧
    (reverseIneqs new m ks acc g).2.groups.map ash = g.groups.map ash ∧
    ∀ a b, Has (reverseIneqs new m ks acc g).2 a b ↔
      Has g a b ∨ (b = new ∧ a ∈ ks ∧ m.contains a = true ∧ Live g a) := by
  intro ks
  induction ks with
  | nil => intro acc g; exact ⟨.refl _, rfl, fun a b => by simp [reverseIneqs]⟩
  | cons k ks ih =>
    intro acc g
    simp only [reverseIneqs]
    split
    · rename_i v i hv hi
      have hmk : m.contains k = true := AMap.contains_iff.2 ⟨v, hv⟩
      split
      · rename_i hc
        obtain ⟨h1, h2, h3⟩ := ih acc g
        refine ⟨h1, h2, fun a b => ?_⟩
        rw [h3]
        constructor
        · rintro (h | ⟨h, h', h''⟩)
          · exact Or.inl h
          · exact Or.inr ⟨h, List.mem_cons_of_mem _ h', h''⟩
        · rintro (h | ⟨rfl, h', h''⟩)
          · exact Or.inl h
          · rcases List.mem_cons.1 h' with rfl | h'
            · exact Or.inl ((has_some hi _).2 hc)
            · exact Or.inr ⟨rfl, h', h''⟩
      · rename_i hc
        obtain ⟨h1, h2, h3⟩ := ih (acc ++ [(k, new)])
          (g.setInfo k { i with ineqs := i.ineqs.insert new v })
        have hm := map_setInfo ash (i' := { i with ineqs := i.ineqs.insert new v }) hi rfl
        refine ⟨⟨h1.terms, h1.apps, h1.cset, h1.appMap, h1.decomps, h1.pending, h1.opaques⟩,
          h2.trans hm, fun a b => ?_⟩
        rw [h3, has_setInfo (info?_lt hi), live_congr (tsh_of_ash hm)]
        by_cases hak : a = k
        · subst hak
          rw [if_pos rfl, contains_insert', has_some hi]
          constructor
          · rintro ((h | h) | ⟨h, h', h''⟩)
            · exact Or.inr ⟨h, List.mem_cons_self, hmk, i, hi⟩
            · exact Or.inl h
            · exact Or.inr ⟨h, List.mem_cons_of_mem _ h', h''⟩
          · rintro (h | ⟨h, _⟩)
            · exact Or.inl (Or.inr h)
            · exact Or.inl (Or.inl h)
        · rw [if_neg hak]; simp [hak]
    · rename_i hno
      obtain ⟨h1, h2, h3⟩ := ih acc g
      refine ⟨h1, h2, fun a b => ?_⟩
      rw [h3]
      constructor
      · rintro (h | ⟨h, h', h''⟩)
        · exact Or.inl h
        · exact Or.inr ⟨h, List.mem_cons_of_mem _ h', h''⟩
      · rintro (h | ⟨h, h', h2, i, hi⟩)
        · exact Or.inl h
        · rcases List.mem_cons.1 h' with rfl | h'
          · obtain ⟨v, hv⟩ := AMap.contains_iff.1 h2
            exact absurd hi (hno v i hv)
          · exact Or.inr ⟨h, h', h2, i, hi⟩

theorem handleAll_same (ω : HashOrder) : ∀ (ps : List (Nat × Nat)) (g : EGraph),
    (handleAll ω ps g).terms = g.terms ∧ (handleAll ω ps g).groups = g.groups ∧
    (handleAll ω ps g).apps = g.apps ∧ (handleAll ω ps g).appMap = g.appMap ∧
    (handleAll ω ps g).decomps = g.decomps ∧ (handleAll ω ps g).opaques = g.opaques := by
  intro ps
  induction ps with
  | nil => intro g; exact ⟨rfl, rfl, rfl, rfl, rfl, rfl⟩
  | cons p ps ih => intro g; exact ih (g.handleInequality ω p.1 p.2)

theorem migrate_same {old new : Nat} : ∀ (cs : List GClause) (g : EGraph),
    (migrate old new cs g).terms = g.terms ∧ (migrate old new cs g).groups = g.groups ∧
    (migrate old new cs g).apps = g.apps ∧ (migrate old new cs g).appMap = g.appMap ∧
    (migrate old new cs g).decomps = g.decomps ∧ (migrate old new cs g).opaques = g.opaques ∧
    (migrate old new cs g).cset = g.cset := by
  intro cs
  induction cs with
  | nil => intro g; exact ⟨rfl, rfl, rfl, rfl, rfl, rfl, rfl⟩
  | cons c cs ih =>
    intro g
    simp only [migrate]
    split
    · exact ih g
    · exact ih _
    · exact ih _

theorem rekeyApps_same {old new : Nat} : ∀ (is keep : List Nat) {g : EGraph} {r : List Nat × EGraph},
    rekeyApps old new is keep g = some r →
    r.2.terms = g.terms ∧ r.2.groups = g.groups ∧ r.2.cset = g.cset ∧ r.2.decomps = g.decomps ∧
    r.2.opaques = g.opaques ∧ r.2.apps.length = g.apps.length := by
  intro is
  induction is with
  | nil => intro keep g r e; cases e; exact ⟨rfl, rfl, rfl, rfl, rfl, rfl⟩
  | cons i is ih =>
    intro keep g r e
    simp only [rekeyApps] at e
    split at e
    · cases e
    · exact ih _ e
    · split at e
      · have := ih _ e
        simpa using this
      · have := ih _ e
        simpa using this

theorem group?_addEdge (a b : Nat) (src : Option RewriteSource) (t : Nat) :
    (g.addEdge a b src).group? t = g.group? t := by
  simp only [group?, addEdge, List.getElem?_modify, Option.map_eq_map, Option.map_map]
  split <;> rfl

theorem Grp.addEdge (h : Grp g) (a b : Nat) (src : Option RewriteSource) : Grp (g.addEdge a b src) :=
  h.congr (by simp [EGraph.addEdge]) (group?_addEdge a b src) rfl (fun _ _ => Iff.rfl)

/-- The group structure after a merge. -/
theorem Grp.remap (h : Grp g) {old new : Nat} {oi ni : GroupInfo} (ho : g.info? old = some oi)
    (hn : g.info? new = some ni) (hne : old ≠ new)
    (hl : g'.terms.length = g.terms.length)
    (hg : ∀ t, g'.group? t = if g.group? t = some old then some new else g.group? t)
    (hs : g'.groups.map tsh =
      ((g.groups.map tsh).set old (.inl new)).set new (.inr (ni.terms ++ oi.terms)))
    (hh : ∀ a b, Has g' a b ↔ a ≠ old ∧ b ≠ old ∧
      (Has g a b ∨ (a = new ∧ b ≠ new ∧ Has g old b) ∨ (b = new ∧ a ≠ new ∧ Has g a old))) :
    Grp g' := by
  have hlt := info?_lt ho
  have hlt' := info?_lt hn
  have hmo : ∀ t, Mem g old t ↔ t ∈ oi.terms := fun t =>
    ⟨fun ⟨j, h1, h2⟩ => by rw [ho] at h1; cases h1; exact h2, fun h => ⟨oi, ho, h⟩⟩
  have hmn : ∀ t, Mem g new t ↔ t ∈ ni.terms := fun t =>
    ⟨fun ⟨j, h1, h2⟩ => by rw [hn] at h1; cases h1; exact h2, fun h => ⟨ni, hn, h⟩⟩
  have hget : ∀ k : Nat, (g'.groups.map tsh)[k]? =
      if k = new then some (.inr (ni.terms ++ oi.terms)) else if k = old then some (.inl new)
      else (g.groups.map tsh)[k]? := by
    intro k
    rw [hs, List.getElem?_set, List.getElem?_set]
    simp only [List.length_set, List.length_map, hlt, hlt', if_true]
    by_cases h1 : new = k
    · simp [h1]
    · rw [if_neg h1, if_neg (Ne.symm h1)]
      by_cases h2 : old = k
      · simp [h2]
      · rw [if_neg h2, if_neg (Ne.symm h2)]
  have hmem : ∀ k t, Mem g' k t ↔ if k = new then Mem g new t ∨ Mem g old t else
      k ≠ old ∧ Mem g k t := by
    intro k t
    rw [mem_iff, hget, hmo, hmn]
    by_cases h1 : k = new
    · simp [h1]
    · rw [if_neg h1, if_neg h1]
      by_cases h2 : k = old
      · simp [h2]
      · rw [if_neg h2, ← mem_iff]; simp [h2]
  have hlen : g'.groups.length = g.groups.length := by
    have := congrArg List.length hs
    simpa using this
  refine ⟨by rw [hlen, hl, h.len], ?_, ?_, ?_, ?_⟩
  · intro t k ht
    rw [hg] at ht
    rw [hmem]
    split at ht
    · rename_i hto
      cases ht
      rw [if_pos rfl]; exact Or.inr (h.live _ _ hto)
    · rename_i hto
      have := h.live _ _ ht
      split
      · rename_i hk; subst hk; exact Or.inl this
      · exact ⟨fun e => hto (by rw [ht, e]), this⟩
  · intro k t ht
    rw [hmem] at ht
    rw [hg]
    split at ht
    · rename_i hk; subst hk
      rcases ht with ht | ht
      · have := h.members _ _ ht
        rw [this]; simp
      · rw [if_pos (h.members _ _ ht)]
    · have := h.members _ _ ht.2
      rw [this, if_neg (by simpa using ht.1)]
  · intro a b hab
    rw [hh] at hab
    rw [hh]
    obtain ⟨h1, h2, h3⟩ := hab
    rcases h3 with h3 | ⟨h3, h4, h5⟩ | ⟨h3, h4, h5⟩
    · exact ⟨⟨h2, h1, Or.inl (h.sym _ _ h3).1⟩, (h.sym _ _ h3).2⟩
    · exact ⟨⟨h2, h1, Or.inr (Or.inr ⟨h3, h4, (h.sym _ _ h5).1⟩)⟩, h3 ▸ Ne.symm h4⟩
    · exact ⟨⟨h2, h1, Or.inr (Or.inl ⟨h3, h4, (h.sym _ _ h5).1⟩)⟩, h3 ▸ h4⟩
  · obtain ⟨d, d1, d2⟩ := h.depth
    refine ⟨fun k => if k = new then 0 else d k + 1, fun a b hab => ?_, fun a => ?_⟩
    · rw [hget] at hab
      rw [hlen]
      split at hab
      · cases hab
      · rename_i ha
        show _ ∧ (if b = new then 0 else d b + 1) < if a = new then 0 else d a + 1
        rw [if_neg ha]
        split at hab
        · cases hab
          exact ⟨hlt', by simp⟩
        · have := d1 a b hab
          refine ⟨this.1, ?_⟩
          split
          · omega
          · omega
    · have hd : g'.dead = g.dead + 1 := by
        rw [dead, dead, hs, List.countP_set, List.countP_set]
        · have e1 : ((g.groups.map tsh).set old (.inl new))[new]? = some (.inr ni.terms) := by
            rw [List.getElem?_set, if_neg hne]
            exact tsh_inr.2 ⟨ni, hn, rfl⟩
          have e2 : (g.groups.map tsh)[old]? = some (.inr oi.terms) := tsh_inr.2 ⟨oi, ho, rfl⟩
          rw [(List.getElem?_eq_some_iff.1 e1).2, (List.getElem?_eq_some_iff.1 e2).2]
          simp
        · simpa using hlt
        · simpa using hlt'
      rw [hd]
      have := d2 a
      show (if a = new then 0 else d a + 1) ≤ _
      split <;> omega

/-- The groups of a clause are in range. -/
def ClauseR (n : Nat) (c : List GLit) : Prop := ∀ l ∈ c, l.left < n ∧ l.right < n

/-- The ids of an operation are in range. -/
def OpR (n : Nat) : Op → Prop
  | .rewrite s => s.left < n ∧ s.right < n
  | .eq a b => a < n ∧ b < n
  | .neq a b _ => a < n ∧ b < n
  | .clause c => ClauseR n c

/-- Results of applications and operations are in range. -/
structure AppR (n : Nat) (g : EGraph) : Prop where
  appRes : ∀ (j : Nat) (k : Nat × Nat) (r : Nat), g.apps[j]? = some (some ⟨k, r⟩) → r < n
  mapRes : ∀ k r, g.appMap.get? k = some r → r < n
  pending : ∀ op ∈ g.pending, OpR n op

/-- Stored clauses are in range and indexed. -/
structure CsR (n : Nat) (cs : ClauseSet) : Prop where
  coherent : cs.Coherent
  clauses : ∀ c ∈ cs.clauses, ClauseR n c

/-- All ids are in range. -/
structure Wf (n : Nat) (g : EGraph) : Prop where
  grp : Grp g
  tl : g.terms.length = n
  app : AppR n g
  cs : CsR n g.cset
  appIds : ∀ k i, g.info? k = some i → ∀ a ∈ i.apps, a < g.apps.length
  decomps : ∀ d id, g.decomps.get? d = some id → id < n
  opaques : ∀ t id, g.opaques.get? t = some id → id < n

theorem Wf.gl {n : Nat} (h : Wf n g) : g.groups.length = n := by rw [h.grp.len, h.tl]

theorem wf_empty : Wf 0 EGraph.empty where
  grp := ⟨rfl, by simp [group?, empty], by simp [Mem, empty, info?], by simp [Has, empty, info?],
    fun _ => 0, by simp [empty], by simp⟩
  tl := rfl
  app := ⟨by simp [empty], by simp [empty], by simp [empty]⟩
  cs := ⟨ClauseSet.coherent_empty, by simp [empty, ClauseSet.empty]⟩
  appIds := by simp [empty, info?]
  decomps := by simp [empty]
  opaques := by simp [empty]

theorem rekeyApps_ok {n old new : Nat} : ∀ (is keep : List Nat) {g : EGraph}, AppR n g →
    (∀ i ∈ is, i < g.apps.length) → (∀ i ∈ keep, i < g.apps.length) →
    ∃ keep' g', rekeyApps old new is keep g = some (keep', g') ∧ AppR n g' ∧
      (∀ i ∈ keep', i < g.apps.length) := by
  intro is
  induction is with
  | nil => intro keep g h _ hk; exact ⟨_, _, rfl, h, hk⟩
  | cons i is ih =>
    intro keep g h hi hk
    have hlt := hi i List.mem_cons_self
    have his := fun j hj => hi j (List.mem_cons_of_mem _ hj)
    simp only [rekeyApps]
    cases e : g.apps[i]? with
    | none => exact absurd hlt (Nat.not_lt.2 (List.getElem?_eq_none_iff.1 e))
    | some o =>
      cases o with
      | none => exact ih keep h his hk
      | some app =>
        obtain ⟨key, r⟩ := app
        have hr := h.appRes i key r e
        simp only
        cases e2 : (g.appMap.erase key).get? (remapKey old new key) with
        | some ex =>
          have hex : ex < n := by
            rw [AMap.get?_erase] at e2
            split at e2
            · cases e2
            · exact h.mapRes _ _ e2
          obtain ⟨k', g', e1, e2, e3⟩ := ih keep (g := { g with
            apps := g.apps.set i none
            appMap := g.appMap.erase key
            pending := .eq r ex :: g.pending }) ⟨by
              intro j k r' hj
              rw [List.getElem?_set] at hj
              split at hj
              · first | cases hj | (split at hj <;> cases hj)
              · exact h.appRes j k r' hj, by
              intro k r' hk'
              rw [AMap.get?_erase] at hk'
              split at hk'
              · cases hk'
              · exact h.mapRes _ _ hk', by
              intro op hop
              rcases List.mem_cons.1 hop with rfl | hop
              · exact ⟨hr, hex⟩
              · exact h.pending op hop⟩ (by simpa using his) (by simpa using hk)
          exact ⟨k', g', e1, e2, by simpa using e3⟩
        | none =>
          obtain ⟨k', g', e1, e2, e3⟩ := ih (keep ++ [i]) (g := { g with
            apps := g.apps.set i (some ⟨remapKey old new key, r⟩)
            appMap := (g.appMap.erase key).insert (remapKey old new key) r }) ⟨by
              intro j k r' hj
              rw [List.getElem?_set] at hj
              split at hj
              · first
                | (cases hj; exact hr)
                | (split at hj
                   · cases hj; exact hr
                   · cases hj)
              · exact h.appRes j k r' hj, by
              intro k r' hk'
              rw [AMap.get?_insert, AMap.get?_erase] at hk'
              split at hk'
              · cases hk'; exact hr
              · split at hk'
                · cases hk'
                · exact h.mapRes _ _ hk', h.pending⟩ (by simpa using his) (by
              intro j hj
              rw [List.length_set]
              rcases List.mem_append.1 hj with hj | hj
              · exact hk j hj
              · cases List.mem_singleton.1 hj; exact hlt)
          exact ⟨k', g', e1, e2, by simpa using e3⟩

theorem handleInequality_ok (ω : HashOrder) {n : Nat} (hc : CsR n g.cset) (a b : Nat) :
    CsR n (g.handleInequality ω a b).cset ∧
    (∀ op ∈ g.pending, op ∈ (g.handleInequality ω a b).pending) ∧
    ∀ op ∈ (g.handleInequality ω a b).pending, op ∈ g.pending ∨ ∃ c, op = .clause c ∧ ClauseR n c := by
  obtain ⟨c1, m1, k1⟩ := hc.coherent.removeLiteral (GLit.new a b true)
  obtain ⟨c2, m2, k2⟩ := c1.removeLiteral (GLit.new a b false)
  refine ⟨⟨c2, fun c hcc => hc.clauses c ((k1 c).1 ((k2 c).1 hcc).1).1⟩,
    fun op hop => (mem_foldl_push _ _).2 (Or.inr hop), fun op hop => ?_⟩
  rcases (mem_foldl_push _ _).1 hop with ⟨c, hcc, rfl⟩ | hop
  · refine Or.inr ⟨c, rfl, ?_⟩
    rcases List.mem_append.1 hcc with hcc | hcc
    · exact hc.clauses c ((m1 c).1 ((ω.sets_perm _).mem_iff.1 hcc)).1
    · exact hc.clauses c ((k1 c).1 ((m2 c).1 ((ω.sets_perm _).mem_iff.1 hcc)).1).1
  · exact Or.inl hop

theorem handleAll_ok (ω : HashOrder) {n : Nat} : ∀ (ps : List (Nat × Nat)) {g : EGraph},
    CsR n g.cset → CsR n (handleAll ω ps g).cset ∧
    (∀ op ∈ g.pending, op ∈ (handleAll ω ps g).pending) ∧
    ∀ op ∈ (handleAll ω ps g).pending, op ∈ g.pending ∨ ∃ c, op = .clause c ∧ ClauseR n c := by
  intro ps
  induction ps with
  | nil => intro g h; exact ⟨h, fun _ h => h, fun _ h => Or.inl h⟩
  | cons p ps ih =>
    intro g h
    obtain ⟨a1, a2, a3⟩ := handleInequality_ok ω h p.1 p.2
    obtain ⟨b1, b2, b3⟩ := ih a1
    refine ⟨b1, fun op hop => b2 op (a2 op hop), fun op hop => ?_⟩
    rcases b3 op hop with hop | hop
    · exact a3 op hop
    · exact Or.inr hop

theorem ClauseR.new {n : Nat} {ls : List GLit} (h : ClauseR n ls) {c : GClause}
    (e : GClause.new ls = .clause c) : ClauseR n c := by
  rcases GClause.new_spec ls with ⟨h1, _⟩ | ⟨h1, _⟩ | ⟨c', h1, _, _, h2, _⟩
  · rw [h1] at e; cases e
  · rw [h1] at e; cases e
  · rw [h1] at e; cases e
    exact fun l hl => h l ((h2 l).1 hl).1

theorem litR_new {n a b : Nat} {p : Bool} (ha : a < n) (hb : b < n) :
    (GLit.new a b p).left < n ∧ (GLit.new a b p).right < n := by
  unfold GLit.new; split <;> exact ⟨by assumption, by assumption⟩

theorem ClauseR.remap {n old new : Nat} (hn : new < n) {c : GClause} (h : ClauseR n c) :
    ClauseR n (c.map (remapLit old new)) := by
  intro l hl
  obtain ⟨m, hm, rfl⟩ := List.mem_map.1 hl
  obtain ⟨h1, h2⟩ := h m hm
  apply litR_new
  · split <;> assumption
  · split <;> assumption

theorem migrate_ok {n old new : Nat} (hn : new < n) : ∀ (cs : List GClause) {g : EGraph},
    (∀ c ∈ cs, ClauseR n c) → (∀ op ∈ g.pending, op ∈ (migrate old new cs g).pending) ∧
    ∀ op ∈ (migrate old new cs g).pending, op ∈ g.pending ∨ ∃ c, op = .clause c ∧ ClauseR n c := by
  intro cs
  induction cs with
  | nil => intro g h; exact ⟨fun _ h => h, fun _ h => Or.inl h⟩
  | cons c cs ih =>
    intro g h
    have hcs := fun d hd => h d (List.mem_cons_of_mem _ hd)
    simp only [migrate]
    split
    · exact ih hcs
    · exact ih (g := { g with contra := true }) hcs
    · rename_i c' e
      obtain ⟨b2, b3⟩ := ih (g := g.push (.clause c')) hcs
      refine ⟨fun op hop => b2 op (List.mem_cons_of_mem _ hop), fun op hop => ?_⟩
      rcases b3 op hop with hop | hop
      · rcases List.mem_cons.1 hop with rfl | hop
        · exact Or.inr ⟨c', rfl, ((h c List.mem_cons_self).remap hn).new e⟩
        · exact Or.inl hop
      · exact Or.inr hop

/-- The graph at the start of a merge, with the terms moved. -/
def regrouped (g : EGraph) (old new : Nat) (oi : GroupInfo) : EGraph :=
  { g with
    groups := g.groups.set old (.remapped new)
    terms := oi.terms.foldl (fun ts t => ts.modify t fun i => { i with group := new }) g.terms }

/-- What a merge does. -/
structure Merged (g : EGraph) (old new : Nat) (oi ni : GroupInfo) (keep : List Nat) (g2 g' : EGraph) :
    Prop where
  rekey : rekeyApps old new oi.apps [] (regrouped g old new oi) = some (keep, g2)
  groups : g'.groups.map ash = ((g.groups.map ash).set old (.inl new)).set new
    (.inr (ni.terms ++ oi.terms, ni.apps ++ keep))
  terms : ∀ t : Nat, (g'.terms[t]?).map (fun ti => (ti.term, ti.decomp, ti.group)) =
    (g.terms[t]?).map fun ti => (ti.term, ti.decomp, if ti.group = old then new else ti.group)
  has : ∀ a b, Has g' a b ↔ a ≠ old ∧ b ≠ old ∧
      (Has g a b ∨ (a = new ∧ b ≠ new ∧ Has g old b) ∨ (b = new ∧ a ≠ new ∧ Has g a old))
  apps : g'.apps = g2.apps
  appMap : g'.appMap = g2.appMap
  decomps : g'.decomps = g.decomps
  opaques : g'.opaques = g.opaques
  pending : ∀ op ∈ g2.pending, op ∈ g'.pending

theorem map_terms_addEdge (a b : Nat) (src : Option RewriteSource) (t : Nat) :
    ((g.addEdge a b src).terms[t]?).map (fun ti => (ti.term, ti.decomp, ti.group)) =
    (g.terms[t]?).map fun ti => (ti.term, ti.decomp, ti.group) := by
  simp only [addEdge, List.getElem?_modify, Option.map_eq_map, Option.map_map]
  split <;> rfl

theorem ash_inr {a : Nat} {p : List Nat × List Nat} :
    (g.groups.map ash)[a]? = some (.inr p) ↔ ∃ i, g.info? a = some i ∧ (i.terms, i.apps) = p := by
  simp only [info?_eq]
  rw [List.getElem?_map]
  cases g.groups[a]? with
  | none => simp
  | some x => cases x <;> simp [ash]

theorem Wf.remapGroup {n : Nat} (ω : HashOrder) (h : Wf n g) {ot old nt new : Nat}
    {src : Option RewriteSource} {oi ni : GroupInfo} (ho : g.info? old = some oi)
    (hn : g.info? new = some ni) (hne : old ≠ new) :
    ∃ keep g2 g', g.remapGroup ω ot old nt new src = some g' ∧ Wf n g' ∧
      Merged g old new oi ni keep g2 g' := by
  have hlo := info?_lt ho
  have hln := info?_lt hn
  have hln' : new < n := h.gl ▸ hln
  let g1 := regrouped g old new oi
  obtain ⟨keep, g2, e2, r2, hk⟩ := rekeyApps_ok (n := n) (old := old) (new := new) oi.apps [] (g := g1)
    ⟨h.app.appRes, h.app.mapRes, h.app.pending⟩ (h.appIds old oi ho) (by simp)
  obtain ⟨s1, s2, s3, s4, s5, s6⟩ := rekeyApps_same _ _ e2
  -- groups after the start
  have hi1 : ∀ k, g2.info? k = if k = old then none else g.info? k := by
    intro k
    have e : g2.groups[k]? = (g.groups.set old (.remapped new))[k]? := by
      have : g2.groups = g.groups.set old (.remapped new) := s2
      rw [this]
    rw [List.getElem?_set] at e
    by_cases hk : k = old
    · subst hk; simp only [if_true, hlo] at e; simp [info?, e]
    · rw [if_neg (Ne.symm hk)] at e; simp [info?, e, hk]
  have hH2 : ∀ a b, Has g2 a b ↔ a ≠ old ∧ Has g a b := by
    intro a b
    simp only [Has, hi1]
    by_cases ha : a = old
    · simp [ha]
    · simp [ha]
  have hus : ∀ u, u ∈ ω.keys oi.ineqs.keys ↔ Has g old u := by
    intro u
    rw [(ω.keys_perm _).mem_iff, AMap.mem_keys, has_some ho, AMap.contains_iff]
  obtain ⟨disc, g3, e3, o3, a3, h3⟩ := rekeyIneqs_spec (old := old) (new := new)
    (ω.keys oi.ineqs.keys) [] g2 ((ω.keys_perm _).nodup_iff.2 oi.ineqs.keys_nodup) (by
      intro u hu
      rw [hus] at hu
      rw [hH2]
      exact ⟨Ne.symm (h.grp.sym _ _ hu).2, (h.grp.sym _ _ hu).1⟩) hne
  obtain ⟨p1, p2, p3, p4, p5, p6⟩ := handleAll_same ω disc g3
  have c3 : CsR n g3.cset := by
    rw [o3.cset, s3]; exact h.cs
  obtain ⟨q1, q2, q3⟩ := handleAll_ok ω disc c3
  generalize hg4 : handleAll ω disc g3 = g4 at p1 p2 p3 p4 p5 p6 q1 q2 q3
  have a4 : g4.groups.map ash = (g.groups.map ash).set old (.inl new) := by
    rw [p2, a3, s2]
    show (g.groups.set old (.remapped new)).map ash = _
    rw [List.map_set]; rfl
  have hn4 : ∃ n4, g4.info? new = some n4 ∧ n4.terms = ni.terms ∧ n4.apps = ni.apps := by
    have : (g4.groups.map ash)[new]? = some (.inr (ni.terms, ni.apps)) := by
      rw [a4, List.getElem?_set, if_neg hne]
      exact ash_inr.2 ⟨ni, hn, rfl⟩
    obtain ⟨i, h1, h2⟩ := ash_inr.1 this
    simp only [Prod.mk.injEq] at h2; exact ⟨i, h1, h2.1, h2.2⟩
  obtain ⟨n4, hn4, ht4, ha4⟩ := hn4
  have hl4 : g4.groups.length = n := by
    have := congrArg List.length a4
    simpa [h.gl] using this
  have hH4 : ∀ a b, Has g4 a b ↔ a ≠ old ∧ ((b ≠ old ∧ Has g a b) ∨
      (b = new ∧ a ≠ new ∧ Has g a old)) := by
    intro a b
    have : Has g4 a b ↔ Has g3 a b := by simp only [Has, info?, p2]
    rw [this, h3]
    split
    · rename_i hoa
      rw [hus] at hoa
      have := h.grp.sym _ _ hoa
      rw [hH2]
      constructor
      · rintro (⟨x, y, z⟩ | ⟨x, y⟩)
        · exact ⟨y, Or.inl ⟨x, z⟩⟩
        · exact ⟨Ne.symm this.2, Or.inr ⟨x, y, this.1⟩⟩
      · rintro ⟨x, ⟨y, z⟩ | ⟨y, z, _⟩⟩
        · exact Or.inl ⟨y, x, z⟩
        · exact Or.inr ⟨y, z⟩
    · rename_i hoa
      rw [hus] at hoa
      rw [hH2]
      constructor
      · rintro ⟨x, y⟩
        refine ⟨x, Or.inl ⟨?_, y⟩⟩
        rintro rfl
        exact hoa (h.grp.sym _ _ y).1
      · rintro ⟨x, ⟨y, z⟩ | ⟨y, z, w⟩⟩
        · exact ⟨x, z⟩
        · exact absurd (h.grp.sym _ _ w).1 hoa
  let n5 : GroupInfo := { n4 with
    terms := n4.terms ++ oi.terms
    apps := n4.apps ++ keep
    ineqs := mergeIneqs new oi.ineqs.entries n4.ineqs }
  let g5 := g4.setInfo new n5
  have a5 : g5.groups.map ash = ((g.groups.map ash).set old (.inl new)).set new
      (.inr (ni.terms ++ oi.terms, ni.apps ++ keep)) := by
    show (g4.groups.set new (.info n5)).map ash = _
    rw [List.map_set, a4]
    show ((g.groups.map ash).set old (.inl new)).set new
      (.inr (n4.terms ++ oi.terms, n4.apps ++ keep)) = _
    rw [ht4, ha4]
  have hH5 : ∀ a b, Has g5 a b ↔ Has g4 a b ∨ (a = new ∧ b ≠ new ∧ Has g old b) := by
    intro a b
    rw [has_setInfo (info?_lt hn4)]
    by_cases ha : a = new
    · subst ha
      rw [if_pos rfl]
      show (mergeIneqs a oi.ineqs.entries n4.ineqs).contains b = true ↔ _
      rw [contains_mergeIneqs, has_some hn4, has_some ho]
      have : b ∈ List.map Prod.fst oi.ineqs.entries ↔ oi.ineqs.contains b = true := by
        rw [AMap.contains_iff]; exact AMap.mem_keys
      rw [this]
      constructor
      · rintro (x | ⟨x, y⟩)
        · exact Or.inl x
        · exact Or.inr ⟨rfl, x, y⟩
      · rintro (x | ⟨_, x, y⟩)
        · exact Or.inl x
        · exact Or.inr ⟨x, y⟩
    · simp [ha]
  obtain ⟨o6, a6, h6⟩ := reverseIneqs_spec (new := new) (m := n5.ineqs) (ω.keys n5.ineqs.keys) [] g5
  generalize hr6 : reverseIneqs new n5.ineqs (ω.keys n5.ineqs.keys) [] g5 = r6 at o6 a6 h6
  have hinew : g5.info? new = some n5 := by
    rw [info?_setInfo (info?_lt hn4), if_pos rfl]
  have hH6 : ∀ a b, Has r6.2 a b ↔ a ≠ old ∧ b ≠ old ∧
      (Has g a b ∨ (a = new ∧ b ≠ new ∧ Has g old b) ∨ (b = new ∧ a ≠ new ∧ Has g a old)) := by
    have key : ∀ a b, Has g5 a b ↔ a ≠ old ∧ b ≠ old ∧
      (Has g a b ∨ (a = new ∧ b ≠ new ∧ Has g old b) ∨ (b = new ∧ a ≠ new ∧ Has g a old)) := by
      intro a b
      rw [hH5, hH4]
      constructor
      · rintro (⟨x, ⟨y, z⟩ | ⟨y, z, w⟩⟩ | ⟨x, y, z⟩)
        · exact ⟨x, y, Or.inl z⟩
        · exact ⟨x, y ▸ Ne.symm hne, Or.inr (Or.inr ⟨y, z, w⟩)⟩
        · exact ⟨x ▸ Ne.symm hne, Ne.symm (h.grp.sym _ _ z).2, Or.inr (Or.inl ⟨x, y, z⟩)⟩
      · rintro ⟨x, y, z | z | z⟩
        · exact Or.inl ⟨x, Or.inl ⟨y, z⟩⟩
        · exact Or.inr z
        · exact Or.inl ⟨x, Or.inr z⟩
    intro a b
    rw [h6, key]
    constructor
    · rintro (x | ⟨rfl, x, y, z⟩)
      · exact x
      · have : Has g5 b a := ⟨n5, hinew, y⟩
        obtain ⟨x1, x2, x3⟩ := (key b a).1 this
        refine ⟨x2, x1, ?_⟩
        rcases x3 with x3 | ⟨_, x3, x4⟩ | ⟨x3, x4, _⟩
        · exact Or.inl (h.grp.sym _ _ x3).1
        · exact Or.inr (Or.inr ⟨rfl, x3, (h.grp.sym _ _ x4).1⟩)
        · exact absurd rfl x4
    · exact Or.inl
  obtain ⟨t1, t2, t3, t4, t5, t6⟩ := handleAll_same ω r6.1 r6.2
  have c6 : CsR n r6.2.cset := by rw [o6.cset]; exact q1
  obtain ⟨u1, u2, u3⟩ := handleAll_ok ω r6.1 c6
  generalize hg7 : handleAll ω r6.1 r6.2 = g7 at t1 t2 t3 t4 t5 t6 u1 u2 u3
  obtain ⟨d1, d2, d3⟩ := u1.coherent.removeGroup old
  have hmig : ∀ c ∈ ω.sets (g7.cset.removeGroup old).1, ClauseR n c := fun c hc =>
    u1.clauses c ((d2 c).1 ((ω.sets_perm _).mem_iff.1 hc)).1
  obtain ⟨v1, v2⟩ := migrate_ok (old := old) hln' (ω.sets (g7.cset.removeGroup old).1)
    (g := { g7 with cset := (g7.cset.removeGroup old).2 }) hmig
  obtain ⟨w1, w2, w3, w4, w5, w6, w7⟩ := migrate_same (old := old) (new := new)
    (ω.sets (g7.cset.removeGroup old).1) { g7 with cset := (g7.cset.removeGroup old).2 }
  generalize hg8 : migrate old new (ω.sets (g7.cset.removeGroup old).1)
    { g7 with cset := (g7.cset.removeGroup old).2 } = g8 at v1 v2 w1 w2 w3 w4 w5 w6 w7
  have hrun : g.remapGroup ω ot old nt new src =
      some ((g8.addEdge ot nt src).addEdge nt ot src) := by
    have e2' : rekeyApps old new oi.apps []
        { terms := List.foldl (fun ts t => ts.modify t fun i => { i with group := new }) g.terms oi.terms
          groups := g.groups.set old (.remapped new), apps := g.apps, cset := g.cset
          appMap := g.appMap, decomps := g.decomps, pending := g.pending, contra := g.contra
          contraInfo := g.contraInfo, opaques := g.opaques } = some (keep, g2) := e2
    simp only [EGraph.remapGroup, Option.bind_eq_bind, ho, Option.bind_some, e2', e3, hg4, hn4]
    have hr6' : reverseIneqs new (mergeIneqs new oi.ineqs.entries n4.ineqs)
      (ω.keys (mergeIneqs new oi.ineqs.entries n4.ineqs).keys) []
      (g4.setInfo new { terms := n4.terms ++ oi.terms, apps := n4.apps ++ keep
                        ineqs := mergeIneqs new oi.ineqs.entries n4.ineqs }) = r6 := hr6
    rw [hr6', hg7, hg8]
    rfl
  have hterms : g8.terms = (regrouped g old new oi).terms := by
    rw [w1]; show g7.terms = _
    rw [t1, o6.terms]; show g4.terms = _
    rw [p1, o3.terms, s1]
  have hgroups : g8.groups.map ash = ((g.groups.map ash).set old (.inl new)).set new
      (.inr (ni.terms ++ oi.terms, ni.apps ++ keep)) := by
    rw [w2]; show g7.groups.map ash = _
    rw [t2, a6, a5]
  have hT8 : ∀ t : Nat, (g8.terms[t]?).map (fun ti => (ti.term, ti.decomp, ti.group)) =
      (g.terms[t]?).map fun ti => (ti.term, ti.decomp, if ti.group = old then new else ti.group) := by
    intro t
    rw [hterms]
    show ((oi.terms.foldl (fun ts t => ts.modify t fun i => { i with group := new }) g.terms)[t]?).map _ = _
    rw [get?_regroup]
    cases e : g.terms[t]? with
    | none => rfl
    | some ti =>
      simp only [Option.map_some]
      have hgt : g.group? t = some ti.group := by simp [group?, e]
      by_cases hm : t ∈ oi.terms
      · have := h.grp.members old t ⟨oi, ho, hm⟩
        rw [hgt] at this; cases this
        simp [hm]
      · have : ti.group ≠ old := by
          rintro hto
          rw [hto] at hgt
          obtain ⟨j, j1, j2⟩ := h.grp.live _ _ hgt
          rw [ho] at j1; cases j1; exact hm j2
        simp [hm, this]
  have hH8 : ∀ a b, Has g8 a b ↔ Has r6.2 a b := by
    intro a b
    have : g8.groups = r6.2.groups := by rw [w2]; exact t2
    simp only [Has, info?, this]
  have hgrp8 : Grp g8 := by
    refine h.grp.remap ho hn hne ?_ ?_ ?_ (fun a b => (hH8 a b).trans (hH6 a b))
    · rw [hterms]
      have := congrArg List.length (map_term_regroup (k := new) oi.terms g.terms)
      simp only [List.length_map] at this
      exact this
    · intro t
      have := congrArg (Option.map fun x : Term × GDecomp × Nat => x.2.2) (hT8 t)
      simp only [Option.map_map, Function.comp_def] at this
      have e1 : g8.group? t = Option.map (fun x => if x.group = old then new else x.group) g.terms[t]? := by
        simp only [group?, this]
      rw [e1]
      by_cases hto : g.group? t = some old
      · rw [if_pos hto]
        obtain ⟨ti, q, q'⟩ := Option.map_eq_some_iff.1 hto
        rw [q]; simp [q']
      · rw [if_neg hto]
        cases q : g.terms[t]? with
        | none => simp [group?, q]
        | some ti =>
          have : ti.group ≠ old := fun e => hto (by simp [group?, q, e])
          simp [group?, q, this]
    · have : tsh = (fun x => x.map id Prod.fst) ∘ ash := by
        funext x; cases x <;> rfl
      rw [this, ← List.map_map, ← List.map_map, hgroups, List.map_set, List.map_set]
      rfl
  have hpend : ∀ op ∈ g2.pending, op ∈ g8.pending := fun op hop =>
    v1 op (u2 op (by rw [o6.pending]; exact q2 op (by rw [o3.pending]; exact hop)))
  refine ⟨keep, g2, _, hrun, ⟨(hgrp8.addEdge _ _ _).addEdge _ _ _, ?_, ⟨?_, ?_, ?_⟩, ?_, ?_, ?_, ?_⟩,
    ⟨e2, hgroups, ?_, ?_, ?_, ?_, ?_, ?_, hpend⟩⟩
  · show (((g8.terms.modify _ _).modify _ _)).length = n
    rw [List.length_modify, List.length_modify, hterms]
    have := congrArg List.length (map_term_regroup (k := new) oi.terms g.terms)
    simp only [List.length_map] at this
    exact this.trans h.tl
  · intro j k r hj
    have : g8.apps = g2.apps := by
      rw [w3]; show g7.apps = _
      rw [t3, o6.apps]; show g4.apps = _
      rw [p3, o3.apps]
    exact r2.appRes j k r (by rw [← this]; exact hj)
  · intro k r hj
    have : g8.appMap = g2.appMap := by
      rw [w4]; show g7.appMap = _
      rw [t4, o6.appMap]; show g4.appMap = _
      rw [p4, o3.appMap]
    exact r2.mapRes k r (by rw [← this]; exact hj)
  · intro op hop
    have fin : ∀ op, (∃ c, op = Op.clause c ∧ ClauseR n c) → OpR n op := by
      rintro _ ⟨c, rfl, hc⟩; exact hc
    rcases v2 op hop with hop | hop
    · rcases u3 op hop with hop | hop
      · rw [o6.pending] at hop
        rcases q3 op hop with hop | hop
        · rw [o3.pending] at hop
          exact r2.pending op hop
        · exact fin _ hop
      · exact fin _ hop
    · exact fin _ hop
  · show CsR n g8.cset
    rw [w7]
    exact ⟨d1, fun c hc => u1.clauses c ((d3 c).1 hc).1⟩
  · intro k i hi a ha
    have hap : g8.apps.length = g.apps.length := by
      rw [w3]; show g7.apps.length = _
      rw [t3, o6.apps]; show g4.apps.length = _
      rw [p3, o3.apps, s6]; rfl
    show a < g8.apps.length
    rw [hap]
    have : (g8.groups.map ash)[k]? = some (.inr (i.terms, i.apps)) := ash_inr.2 ⟨i, hi, rfl⟩
    rw [hgroups, List.getElem?_set, List.getElem?_set] at this
    simp only [List.length_set, List.length_map, hlo, hln, if_true] at this
    split at this
    · simp only [Option.some.injEq, Sum.inr.injEq, Prod.mk.injEq] at this
      rw [← this.2] at ha
      rcases List.mem_append.1 ha with ha | ha
      · exact h.appIds _ _ hn a ha
      · exact hk a ha
    · split at this
      · cases this
      · obtain ⟨j, j1, j2⟩ := ash_inr.1 this
        simp only [Prod.mk.injEq] at j2
        exact h.appIds _ _ j1 a (j2.2 ▸ ha)
  · intro d id hd
    have : g8.decomps = g.decomps := by
      rw [w5]; show g7.decomps = _
      rw [t5, o6.decomps]; show g4.decomps = _
      rw [p5, o3.decomps, s4]; rfl
    exact h.decomps d id (by rw [← this]; exact hd)
  · intro d id hd
    have : g8.opaques = g.opaques := by
      rw [w6]; show g7.opaques = _
      rw [t6, o6.opaques]; show g4.opaques = _
      rw [p6, o3.opaques, s5]; rfl
    exact h.opaques d id (by rw [← this]; exact hd)
  · intro t
    rw [map_terms_addEdge, map_terms_addEdge, hT8]
  · exact fun a b => (hH8 a b).trans (hH6 a b)
  · show g8.apps = _
    rw [w3]; show g7.apps = _
    rw [t3, o6.apps]; show g4.apps = _
    rw [p3, o3.apps]
  · show g8.appMap = _
    rw [w4]; show g7.appMap = _
    rw [t4, o6.appMap]; show g4.appMap = _
    rw [p4, o3.appMap]
  · show g8.decomps = _
    rw [w5]; show g7.decomps = _
    rw [t5, o6.decomps]; show g4.decomps = _
    rw [p5, o3.decomps, s4]; rfl
  · show g8.opaques = _
    rw [w6]; show g7.opaques = _
    rw [t6, o6.opaques]; show g4.opaques = _
    rw [p6, o3.opaques, s5]; rfl

end EGraph
end Acorn
