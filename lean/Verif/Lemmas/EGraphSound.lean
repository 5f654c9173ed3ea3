/-
Soundness of the equality graph: everything it stores is true whenever the inserted facts are.

The graph creates one term and one group at a time, so the first term of group `k` is the term with
id `k`.  The value of a group is the value of that term.
-/
import Verif.Model.EqualityGraph
import Verif.Lemmas.ClauseSet
namespace Acorn
namespace EGraph

universe u

variable {D : Type u}

/-- Values of ids: the value of the term created with that id. -/
def vals (V : Term → D) (T : List Term) (k : Nat) : Option D := (T[k]?).map V

/-- Two ids are defined and have the same value. -/
def EqV (w : Nat → Option D) (a b : Nat) : Prop := ∃ d, w a = some d ∧ w b = some d

/-- Two ids are defined and have different values. -/
def NeV (w : Nat → Option D) (a b : Nat) : Prop := ∃ d e, w a = some d ∧ w b = some e ∧ d ≠ e

/-- The value of `r` is the value of `f` applied to the value of `a`. -/
def AppV (ap : D → D → D) (w : Nat → Option D) (f a r : Nat) : Prop :=
  ∃ x y, w f = some x ∧ w a = some y ∧ w r = some (ap x y)

/-- A ground literal holds. -/
def LitV (w : Nat → Option D) (l : GLit) : Prop :=
  if l.positive then EqV w l.left l.right else NeV w l.left l.right

/-- A ground clause holds. -/
def ClauseV (w : Nat → Option D) (c : List GLit) : Prop := ∃ l ∈ c, LitV w l

/-- A pending operation is justified. -/
def OpV (w : Nat → Option D) : Op → Prop
  | .rewrite s => EqV w s.left s.right
  | .eq a b => EqV w a b
  | .neq a b _ => NeV w a b
  | .clause c => ClauseV w c

/-- `w'` knows at least the values that `w` knows. -/
def Ext (w w' : Nat → Option D) : Prop := ∀ k d, w k = some d → w' k = some d

section basics
variable {w w' : Nat → Option D} {a b c : Nat}

theorem EqV.symm (h : EqV w a b) : EqV w b a := let ⟨d, h1, h2⟩ := h; ⟨d, h2, h1⟩
theorem EqV.trans (h : EqV w a b) (h' : EqV w b c) : EqV w a c := by
  obtain ⟨d, h1, h2⟩ := h
  obtain ⟨e, h3, h4⟩ := h'
  rw [h2] at h3; cases h3
  exact ⟨d, h1, h4⟩
theorem EqV.eq (h : EqV w a b) : w a = w b := by obtain ⟨d, h1, h2⟩ := h; rw [h1, h2]
theorem NeV.symm (h : NeV w a b) : NeV w b a :=
  let ⟨d, e, h1, h2, h3⟩ := h; ⟨e, d, h2, h1, Ne.symm h3⟩
theorem NeV.not_eq (h : NeV w a b) (h' : w a = w b) : False := by
  obtain ⟨d, e, h1, h2, h3⟩ := h
  rw [h1, h2] at h'; exact h3 (Option.some.inj h')
theorem NeV.irrefl (h : NeV w a a) : False := h.not_eq rfl
theorem EqV.ext (hx : Ext w w') (h : EqV w a b) : EqV w' a b :=
  let ⟨d, h1, h2⟩ := h; ⟨d, hx _ _ h1, hx _ _ h2⟩
theorem NeV.ext (hx : Ext w w') (h : NeV w a b) : NeV w' a b :=
  let ⟨d, e, h1, h2, h3⟩ := h; ⟨d, e, hx _ _ h1, hx _ _ h2, h3⟩
theorem AppV.ext {ap : D → D → D} (hx : Ext w w') (h : AppV ap w a b c) : AppV ap w' a b c :=
  let ⟨x, y, h1, h2, h3⟩ := h; ⟨x, y, hx _ _ h1, hx _ _ h2, hx _ _ h3⟩
theorem LitV.ext (hx : Ext w w') {l : GLit} (h : LitV w l) : LitV w' l := by
  unfold LitV at *
  split
  · rename_i hp; rw [if_pos hp] at h; exact h.ext hx
  · rename_i hp; rw [if_neg hp] at h; exact h.ext hx
theorem ClauseV.ext (hx : Ext w w') {c : List GLit} (h : ClauseV w c) : ClauseV w' c :=
  let ⟨l, h1, h2⟩ := h; ⟨l, h1, h2.ext hx⟩
theorem OpV.ext (hx : Ext w w') {op : Op} (h : OpV w op) : OpV w' op := by
  cases op with
  | rewrite s => exact EqV.ext hx h
  | eq a b => exact EqV.ext hx h
  | neq a b s => exact NeV.ext hx h
  | clause c => exact ClauseV.ext hx h

theorem litV_new {p : Bool} : LitV w (GLit.new a b p) ↔ LitV w ⟨a, b, p⟩ := by
  simp only [GLit.new]
  split
  · exact Iff.rfl
  · simp only [LitV]
    split
    · exact ⟨EqV.symm, EqV.symm⟩
    · exact ⟨NeV.symm, NeV.symm⟩

/-- Literals only depend on the values of their sides. -/
theorem litV_congr {l : GLit} {x y : Nat} (h1 : w l.left = w x) (h2 : w l.right = w y) :
    LitV w l ↔ LitV w (GLit.new x y l.positive) := by
  rw [litV_new]
  simp only [LitV, EqV, NeV, h1, h2]

/-- A true clause does not normalize to falsity, and its normal form is true. -/
theorem ClauseV.new {ls : List GLit} (h : ClauseV w ls) :
    GClause.new ls ≠ .ff ∧ ∀ c, GClause.new ls = .clause c → ClauseV w c := by
  obtain ⟨l, hl, hv⟩ := h
  rcases GClause.new_spec ls with ⟨e, _⟩ | ⟨e, h⟩ | ⟨d, e, _, _, hd, _, hn⟩
  · rw [e]; exact ⟨by simp, by simp⟩
  · exfalso
    obtain ⟨h1, h2⟩ := h l hl
    simp only [LitV, h2, h1] at hv
    exact hv.irrefl
  · rw [e]
    refine ⟨by simp, fun c hc => ?_⟩
    cases hc
    refine ⟨l, (hd l).2 ⟨hl, fun e => ?_⟩, hv⟩
    simp only [LitV, hn l hl e, e] at hv
    exact hv.irrefl

/-- The normal form of a clause between defined groups has the same meaning. -/
theorem ClauseV.of_new {ls : List GLit}
    (hdef : ∀ l ∈ ls, (∃ d, w l.left = some d) ∧ ∃ d, w l.right = some d) :
    (GClause.new ls = .tt → ClauseV w ls) ∧
    ∀ c, GClause.new ls = .clause c → ClauseV w c → ClauseV w ls := by
  rcases GClause.new_spec ls with ⟨e, h⟩ | ⟨e, h⟩ | ⟨d, e, _, _, hd, _, hn⟩
  · rw [e]
    refine ⟨fun _ => ?_, by simp⟩
    rcases h with ⟨l, hl, h1, h2⟩ | ⟨x, hx, y, hy, hxy⟩
    · obtain ⟨d, hd⟩ := (hdef l hl).1
      exact ⟨l, hl, by simp only [LitV, h2, if_true]; exact ⟨d, hd, h1 ▸ hd⟩⟩
    · rw [opposite_iff] at hxy
      obtain ⟨⟨d1, h1⟩, d2, h2⟩ := hdef x hx
      have h1' := hxy.1 ▸ h1
      have h2' := hxy.2.1 ▸ h2
      by_cases e : d1 = d2
      · subst e
        cases hp : x.positive with
        | true => exact ⟨x, hx, by simp only [LitV, hp, if_true]; exact ⟨d1, h1, h2⟩⟩
        | false =>
          have hq : y.positive = true := by
            cases hq : y.positive with
            | true => rfl
            | false => rw [hp, hq] at hxy; exact absurd rfl hxy.2.2
          exact ⟨y, hy, by simp only [LitV, hq, if_true]; exact ⟨d1, h1', h2'⟩⟩
      · cases hp : x.positive with
        | false => exact ⟨x, hx, by simp [LitV, hp]; exact ⟨d1, d2, h1, h2, e⟩⟩
        | true =>
          have hq : y.positive = false := by
            cases hq : y.positive with
            | false => rfl
            | true => rw [hp, hq] at hxy; exact absurd rfl hxy.2.2
          exact ⟨y, hy, by simp [LitV, hq]; exact ⟨d1, d2, h1', h2', e⟩⟩
  · rw [e]; exact ⟨by simp, by simp⟩
  · rw [e]
    refine ⟨by simp, fun c hc => ?_⟩
    cases hc
    rintro ⟨l, hl, hv⟩
    exact ⟨l, ((hd l).1 hl).1, hv⟩

end basics

/-- Everything in the graph is true. -/
structure Sound (V : Term → D) (ap : D → D → D) (Good : Term → Prop) (T : List Term) (g : EGraph) :
    Prop where
  tl : g.terms.map (·.term) = T
  len : g.groups.length = g.terms.length
  good : ∀ t ∈ T, Good t
  term : ∀ (id : Nat) (ti : TermInfo), g.terms[id]? = some ti → vals V T ti.group = some (V ti.term)
  remapped : ∀ (k k' : Nat), g.groups[k]? = some (.remapped k') → EqV (vals V T) k k'
  terms : ∀ k i, g.info? k = some i → ∀ t ∈ i.terms, EqV (vals V T) t k
  ineqs : ∀ k i, g.info? k = some i → ∀ u v, i.ineqs.get? u = some v → NeV (vals V T) k u
  atomic : ∀ a id, g.decomps.get? (.atomic a) = some id → T[id]? = some (.atom a)
  application : ∀ f a id, g.decomps.get? (.application f a) = some id →
    ∃ s t, T[f]? = some s ∧ T[a]? = some t ∧ T[id]? = some (.app s t)
  opaques : ∀ t id, g.opaques.get? t = some id → T[id]? = some t
  appMap : ∀ f a r, g.appMap.get? (f, a) = some r → AppV ap (vals V T) f a r
  apps : ∀ (i : Nat) (k : Nat × Nat) (r : Nat), g.apps[i]? = some (some ⟨k, r⟩) → AppV ap (vals V T) k.1 k.2 r
  coherent : g.cset.Coherent
  clauses : ∀ c ∈ g.cset.clauses, ClauseV (vals V T) c
  pending : ∀ op ∈ g.pending, OpV (vals V T) op
  contra : g.contra = false

variable {V : Term → D} {ap : D → D → D} {Good : Term → Prop} {T : List Term} {g g' : EGraph}

theorem vals_ext {T T' : List Term} (h : T <+: T') : Ext (vals V T) (vals V T') := by
  intro k d hk
  obtain ⟨S, rfl⟩ := h
  simp only [vals, Option.map_eq_some_iff] at *
  obtain ⟨t, ht, hd⟩ := hk
  refine ⟨t, ?_, hd⟩
  have hlt : k < T.length := by
    rcases Nat.lt_or_ge k T.length with h | h
    · exact h
    · rw [List.getElem?_eq_none h] at ht; cases ht
  rw [List.getElem?_append_left hlt]; exact ht

theorem sound_empty (V : Term → D) (ap : D → D → D) (Good : Term → Prop) :
    Sound V ap Good [] EGraph.empty where
  tl := rfl
  len := rfl
  good := by simp
  term := by simp [empty]
  remapped := by simp [empty]
  terms := by simp [empty, info?]
  ineqs := by simp [empty, info?]
  atomic := by simp [empty]
  application := by simp [empty]
  opaques := by simp [empty]
  appMap := by simp [empty]
  apps := by simp [empty]
  coherent := ClauseSet.coherent_empty
  clauses := by simp [empty, ClauseSet.empty]
  pending := by simp [empty]
  contra := rfl

theorem Sound.val (h : Sound V ap Good T g) {id : Nat} {ti : TermInfo} (e : g.terms[id]? = some ti) :
    vals V T id = some (V ti.term) := by
  have : T[id]? = some ti.term := by rw [← h.tl, List.getElem?_map, e]; rfl
  rw [vals, this]; rfl

theorem Sound.group (h : Sound V ap Good T g) {id k : Nat} (e : g.group? id = some k) :
    EqV (vals V T) id k := by
  simp only [group?, Option.map_eq_some_iff] at e
  obtain ⟨ti, e1, rfl⟩ := e
  exact ⟨_, h.val e1, h.term _ _ e1⟩

theorem info?_eq {k : Nat} {i : GroupInfo} : g.info? k = some i ↔ g.groups[k]? = some (.info i) := by
  rw [info?]
  split
  · rename_i j e; rw [e]; simp
  · rename_i e
    constructor
    · intro h; cases h
    · intro h; exact absurd h (e i)

theorem info?_lt {k : Nat} {i : GroupInfo} (h : g.info? k = some i) : k < g.groups.length := by
  rw [info?_eq] at h
  exact (List.getElem?_eq_some_iff.1 h).1

theorem info?_setInfo {k k' : Nat} {i : GroupInfo} (hk : k < g.groups.length) :
    (g.setInfo k i).info? k' = if k' = k then some i else g.info? k' := by
  simp only [info?, setInfo, List.getElem?_set]
  by_cases h : k' = k
  · subst h; simp [hk]
  · simp [h, Ne.symm h]

theorem Sound.setInfo (h : Sound V ap Good T g) {k : Nat} {i : GroupInfo} (hk : k < g.groups.length)
    (ht : ∀ t ∈ i.terms, EqV (vals V T) t k)
    (hi : ∀ u v, i.ineqs.get? u = some v → NeV (vals V T) k u) : Sound V ap Good T (g.setInfo k i) :=
  { h with
    len := by simp [EGraph.setInfo, h.len]
    remapped := by
      intro a b e
      simp only [EGraph.setInfo, List.getElem?_set] at e
      by_cases hab : k = a
      · simp [hab] at e
      · simp only [hab, if_false] at e
        exact h.remapped a b e
    terms := by
      intro a j e
      rw [info?_setInfo hk] at e
      split at e
      · rename_i hak; subst hak; cases e; exact ht
      · exact h.terms a j e
    ineqs := by
      intro a j e
      rw [info?_setInfo hk] at e
      split at e
      · rename_i hak; subst hak; cases e; exact hi
      · exact h.ineqs a j e }

theorem Sound.push (h : Sound V ap Good T g) {op : Op} (ho : OpV (vals V T) op) :
    Sound V ap Good T (g.push op) :=
  { h with
    pending := by
      intro o hm
      rcases List.mem_cons.1 hm with rfl | hm
      · exact ho
      · exact h.pending o hm }

/-- The state after processing one group application list. -/
theorem Sound.addAppTo {app : Nat} : ∀ (ks : List Nat) {g g' : EGraph}, Sound V ap Good T g →
    addAppTo app ks g = some g' → Sound V ap Good T g' ∧ g'.apps = g.apps ∧ g'.appMap = g.appMap := by
  intro ks
  induction ks with
  | nil => intro g g' h e; cases e; exact ⟨h, rfl, rfl⟩
  | cons k ks ih =>
    intro g g' h e
    simp only [EGraph.addAppTo, Option.bind_eq_bind, Option.bind_eq_some_iff] at e
    obtain ⟨i, hi, e⟩ := e
    obtain ⟨h1, h2, h3⟩ := ih (h.setInfo (i := { i with apps := i.apps ++ [app] }) (info?_lt hi)
      (h.terms k i hi) (h.ineqs k i hi)) e
    exact ⟨h1, h2, h3⟩

theorem Sound.insertGroupApp (h : Sound V ap Good T g) {f a r : Nat}
    (hv : AppV ap (vals V T) f a r) (e : g.insertGroupApp f a r = some g') : Sound V ap Good T g' := by
  simp only [EGraph.insertGroupApp, Option.bind_eq_bind, Option.bind_eq_some_iff] at e
  obtain ⟨rg, _, e⟩ := e
  split at e
  · rename_i ex hex
    simp only [Option.bind_eq_some_iff] at e
    obtain ⟨eg, _, e⟩ := e
    split at e
    · cases e
      refine h.push ?_
      obtain ⟨x, y, h1, h2, h3⟩ := h.appMap _ _ _ hex
      obtain ⟨x', y', h1', h2', h3'⟩ := hv
      rw [h1] at h1'; rw [h2] at h2'; cases h1'; cases h2'
      exact ⟨_, h3, h3'⟩
    · cases e; exact h
  · simp only [Option.bind_eq_some_iff] at e
    obtain ⟨g1, hg1, e⟩ := e
    obtain ⟨h1, h2, h3⟩ := Sound.addAppTo _ h hg1
    cases e
    exact { h1 with
      appMap := by
        intro f' a' r' e
        rw [AMap.get?_insert] at e
        split at e
        · rename_i hk; cases hk; cases e; exact hv
        · exact h1.appMap _ _ _ e
      apps := by
        intro i k r' e
        simp only [List.getElem?_append] at e
        split at e
        · exact h1.apps _ _ _ e
        · have : i - g1.apps.length = 0 := by
            rcases Nat.eq_zero_or_pos (i - g1.apps.length) with h | h
            · exact h
            · rw [List.getElem?_eq_none (by simp only [List.length_cons, List.length_nil]; omega)] at e; cases e
          rw [this] at e
          cases e; exact hv }

theorem remapKey_val {w : Nat → Option D} {old new : Nat} (hE : EqV w old new) (k : Nat × Nat) :
    w (remapKey old new k).1 = w k.1 ∧ w (remapKey old new k).2 = w k.2 := by
  simp only [remapKey]
  constructor
  · split
    · rename_i h; rw [h]; exact hE.eq.symm
    · rfl
  · split
    · rename_i h; rw [h]; exact hE.eq.symm
    · rfl

theorem Sound.rekeyApps {old new : Nat} (hE : EqV (vals V T) old new) :
    ∀ (is keep : List Nat) {g : EGraph} {r : List Nat × EGraph}, Sound V ap Good T g →
    rekeyApps old new is keep g = some r → Sound V ap Good T r.2 := by
  intro is
  induction is with
  | nil => intro keep g r h e; cases e; exact h
  | cons i is ih =>
    intro keep g r h e
    simp only [EGraph.rekeyApps] at e
    split at e
    · cases e
    · exact ih _ h e
    · rename_i app happ
      have hv := h.apps _ _ _ happ
      have hv' : AppV ap (vals V T) (remapKey old new app.key).1 (remapKey old new app.key).2
          app.result := by
        obtain ⟨h1, h2⟩ := remapKey_val hE app.key
        simp only [AppV, h1, h2]; exact hv
      have hmap : ∀ k r, (g.appMap.erase app.key).get? k = some r → AppV ap (vals V T) k.1 k.2 r := by
        intro k r e
        rw [AMap.get?_erase] at e
        split at e
        · cases e
        · exact h.appMap _ _ _ e
      have happs : ∀ (x : Option AppInfo), (∀ y, x = some y → AppV ap (vals V T) y.key.1 y.key.2 y.result) →
          ∀ (j : Nat) (k : Nat × Nat) (r : Nat), (g.apps.set i x)[j]? = some (some ⟨k, r⟩) → AppV ap (vals V T) k.1 k.2 r := by
        intro x hx j k r e
        rw [List.getElem?_set] at e
        split at e
        · split at e
          · exact hx ⟨k, r⟩ (Option.some.inj e)
          · cases e
        · exact h.apps _ _ _ e
      split at e
      · rename_i ex hex
        refine ih _ ?_ e
        refine { h with apps := ?apps, appMap := ?map, pending := ?pend }
        case apps => exact happs none (by simp)
        case map => exact fun f a r e => hmap (f, a) r e
        case pend =>
          intro op hop
          rcases List.mem_cons.1 hop with rfl | hop
          · obtain ⟨x, y, h1, h2, h3⟩ := hmap _ _ hex
            obtain ⟨x', y', h1', h2', h3'⟩ := hv'
            rw [h1] at h1'; rw [h2] at h2'; cases h1'; cases h2'
            exact ⟨_, h3', h3⟩
          · exact h.pending op hop
      · refine ih _ ?_ e
        refine { h with apps := ?apps, appMap := ?map }
        case apps => exact happs _ (by rintro y hy; cases hy; exact hv')
        case map =>
          intro f a r e
          rw [AMap.get?_insert] at e
          split at e
          · rename_i hk
            cases e
            have h1 : f = (remapKey old new app.key).1 := congrArg Prod.fst hk
            have h2 : a = (remapKey old new app.key).2 := congrArg Prod.snd hk
            rw [h1, h2]; exact hv'
          · exact hmap (f, a) r e

theorem Sound.rekeyIneqs {old new : Nat} (hE : EqV (vals V T) old new) :
    ∀ (us : List Nat) (disc : List (Nat × Nat)) {g : EGraph} {r : List (Nat × Nat) × EGraph},
    Sound V ap Good T g → rekeyIneqs old new us disc g = some r → Sound V ap Good T r.2 := by
  intro us
  induction us with
  | nil => intro disc g r h e; cases e; exact h
  | cons u us ih =>
    intro disc g r h e
    simp only [EGraph.rekeyIneqs, Option.bind_eq_bind, Option.bind_eq_some_iff] at e
    obtain ⟨i, hi, value, hv, e⟩ := e
    have hne := h.ineqs _ _ hi _ _ hv
    have hlt := info?_lt hi
    have her : ∀ x v, (i.ineqs.erase old).get? x = some v → NeV (vals V T) u x := by
      intro x v e
      rw [AMap.get?_erase] at e
      split at e
      · cases e
      · exact h.ineqs _ _ hi _ _ e
    split at e
    · rename_i hu; subst hu
      exact (hne.not_eq hE.eq.symm).elim
    · split at e
      · refine ih _ ?_ e
        exact h.setInfo hlt (h.terms u i hi) her
      · refine ih _ ?_ e
        refine h.setInfo hlt (h.terms u i hi) ?_
        intro x v e
        rw [AMap.get?_insert] at e
        split at e
        · rename_i hx; subst hx
          obtain ⟨d, e', h1, h2, h3⟩ := hne
          exact ⟨d, e', h1, by rw [← hE.eq]; exact h2, h3⟩
        · exact her x v e

theorem mem_foldl_push {op : Op} : ∀ (cs : List GClause) (p : List Op),
    op ∈ cs.foldl (fun p c => Op.clause c :: p) p ↔ (∃ c ∈ cs, op = .clause c) ∨ op ∈ p := by
  intro cs
  induction cs with
  | nil => intro p; simp
  | cons c cs ih =>
    intro p
    rw [List.foldl_cons, ih]
    simp only [List.mem_cons, exists_eq_or_imp]
    constructor
    · rintro (h | h | h)
      · exact Or.inl (Or.inr h)
      · exact Or.inl (Or.inl h)
      · exact Or.inr h
    · rintro ((h | h) | h)
      · exact Or.inr (Or.inl h)
      · exact Or.inl h
      · exact Or.inr (Or.inr h)

theorem Sound.handleInequality (ω : HashOrder) (h : Sound V ap Good T g) (a b : Nat) :
    Sound V ap Good T (g.handleInequality ω a b) := by
  obtain ⟨c1, m1, k1⟩ := h.coherent.removeLiteral (GLit.new a b true)
  obtain ⟨c2, m2, k2⟩ := c1.removeLiteral (GLit.new a b false)
  exact { h with
    coherent := c2
    clauses := fun c hc => h.clauses c ((k1 c).1 ((k2 c).1 hc).1).1
    pending := by
      intro op hop
      rcases (mem_foldl_push _ _).1 hop with ⟨c, hc, rfl⟩ | hop
      · rcases List.mem_append.1 hc with hc | hc
        · exact h.clauses c ((m1 c).1 ((ω.sets_perm _).mem_iff.1 hc)).1
        · exact h.clauses c ((k1 c).1 ((m2 c).1 ((ω.sets_perm _).mem_iff.1 hc)).1).1
      · exact h.pending op hop }

theorem Sound.handleAll (ω : HashOrder) : ∀ (ps : List (Nat × Nat)) {g : EGraph},
    Sound V ap Good T g → Sound V ap Good T (handleAll ω ps g) := by
  intro ps
  induction ps with
  | nil => intro g h; exact h
  | cons p ps ih => intro g h; exact ih (h.handleInequality ω p.1 p.2)

theorem handleInequality_groups (ω : HashOrder) (g : EGraph) (a b : Nat) :
    (g.handleInequality ω a b).groups = g.groups := rfl

theorem handleAll_groups (ω : HashOrder) : ∀ (ps : List (Nat × Nat)) (g : EGraph),
    (handleAll ω ps g).groups = g.groups := by
  intro ps
  induction ps with
  | nil => intro g; rfl
  | cons p ps ih => intro g; exact (ih _).trans rfl

theorem get?_mergeIneqs {new : Nat} : ∀ (es : List (Nat × (Nat × Nat × Nat)))
    (m : AMap Nat (Nat × Nat × Nat)) {u : Nat} {v : Nat × Nat × Nat},
    (mergeIneqs new es m).get? u = some v → (u, v) ∈ es ∨ m.get? u = some v := by
  intro es
  induction es with
  | nil => intro m u v h; exact Or.inr h
  | cons e es ih =>
    intro m u v h
    obtain ⟨k, x⟩ := e
    simp only [mergeIneqs] at h
    split at h
    · rcases ih _ h with h | h
      · exact Or.inl (List.mem_cons_of_mem _ h)
      · rw [AMap.get?_insert] at h
        split at h
        · rename_i hk; cases h; subst hk; exact Or.inl List.mem_cons_self
        · exact Or.inr h
    · rcases ih _ h with h | h
      · exact Or.inl (List.mem_cons_of_mem _ h)
      · exact Or.inr h

theorem Sound.reverseIneqs {new : Nat} {m : AMap Nat (Nat × Nat × Nat)}
    (hm : ∀ u v, m.get? u = some v → NeV (vals V T) new u) :
    ∀ (ks : List Nat) (acc : List (Nat × Nat)) {g : EGraph}, Sound V ap Good T g →
    Sound V ap Good T (reverseIneqs new m ks acc g).2 := by
  intro ks
  induction ks with
  | nil => intro acc g h; exact h
  | cons k ks ih =>
    intro acc g h
    simp only [EGraph.reverseIneqs]
    split
    · rename_i v i hv hi
      split
      · exact ih _ h
      · refine ih _ (h.setInfo (info?_lt hi) (h.terms k i hi) ?_)
        intro x y e
        rw [AMap.get?_insert] at e
        split at e
        · rename_i hx; subst hx; exact (hm _ _ hv).symm
        · exact h.ineqs _ _ hi _ _ e
    · exact ih _ h

theorem ClauseV.remap {w : Nat → Option D} {old new : Nat} (hE : EqV w old new) {c : GClause}
    (h : ClauseV w c) : ClauseV w (c.map (remapLit old new)) := by
  obtain ⟨l, hl, hv⟩ := h
  refine ⟨_, List.mem_map_of_mem hl, ?_⟩
  have key : ∀ x, w x = w (if x = old then new else x) := by
    intro x; split
    · rename_i h; rw [h]; exact hE.eq
    · rfl
  exact (litV_congr (key _) (key _)).1 hv

theorem Sound.migrate {old new : Nat} (hE : EqV (vals V T) old new) : ∀ (cs : List GClause)
    {g : EGraph}, (∀ c ∈ cs, ClauseV (vals V T) c) → Sound V ap Good T g →
    Sound V ap Good T (migrate old new cs g) := by
  intro cs
  induction cs with
  | nil => intro g _ h; exact h
  | cons c cs ih =>
    intro g hc h
    have hcs := fun d hd => hc d (List.mem_cons_of_mem _ hd)
    have hn := ((hc c List.mem_cons_self).remap hE).new
    simp only [EGraph.migrate]
    split
    · exact ih hcs h
    · rename_i e; exact absurd e hn.1
    · rename_i c' e
      exact ih hcs (h.push (hn.2 c' e))

theorem Sound.modifyTerms (h : Sound V ap Good T g) {ts : List TermInfo}
    (hl : ts.map (·.term) = T)
    (hg : ∀ (id : Nat) (ti : TermInfo), ts[id]? = some ti → vals V T ti.group = some (V ti.term)) :
    Sound V ap Good T { g with terms := ts } :=
  { h with
    tl := hl
    len := by
      have h1 := congrArg List.length hl
      have h2 := congrArg List.length h.tl
      simp only [List.length_map] at h1 h2
      rw [h.len, h2, h1]
    term := hg }

theorem Sound.addEdge (h : Sound V ap Good T g) (a b : Nat) (src : Option RewriteSource) :
    Sound V ap Good T (g.addEdge a b src) := by
  refine h.modifyTerms ?_ ?_
  · rw [← h.tl]
    apply List.ext_getElem?
    intro i
    simp only [List.getElem?_map, List.getElem?_modify, Option.map_eq_map, Option.map_map]
    split <;> rfl
  · intro id ti e
    rw [List.getElem?_modify] at e
    split at e
    · simp only [Option.map_eq_map, Option.map_eq_some_iff] at e
      obtain ⟨tj, e1, rfl⟩ := e
      exact h.term id tj e1
    · simp only [Option.map_eq_map, Option.map_eq_some_iff] at e
      obtain ⟨tj, e1, rfl⟩ := e
      exact h.term id tj e1

theorem map_term_regroup {k : Nat} : ∀ (is : List Nat) (ts : List TermInfo),
    (is.foldl (fun ts t => ts.modify t fun i => { i with group := k }) ts).map (·.term) =
      ts.map (·.term) := by
  intro is
  induction is with
  | nil => intro ts; rfl
  | cons i is ih =>
    intro ts
    rw [List.foldl_cons, ih]
    apply List.ext_getElem?
    intro j
    simp only [List.getElem?_map, List.getElem?_modify, Option.map_eq_map, Option.map_map]
    split <;> rfl

theorem get?_regroup {k : Nat} : ∀ (is : List Nat) (ts : List TermInfo) (j : Nat),
    (is.foldl (fun ts t => ts.modify t fun i => { i with group := k }) ts)[j]? =
      (ts[j]?).map fun ti => if j ∈ is then { ti with group := k } else ti := by
  intro is
  induction is with
  | nil => intro ts j; simp
  | cons i is ih =>
    intro ts j
    rw [List.foldl_cons, ih, List.getElem?_modify]
    cases ts[j]? with
    | none => simp
    | some ti =>
      by_cases h : i = j
      · subst h; by_cases h2 : i ∈ is <;> simp [h2]
      · by_cases h2 : j ∈ is <;> simp [h, h2, Ne.symm h]

theorem Sound.remapGroup (ω : HashOrder) (h : Sound V ap Good T g) {ot old nt new : Nat}
    {src : Option RewriteSource} (hE : EqV (vals V T) old new)
    (e : g.remapGroup ω ot old nt new src = some g') : Sound V ap Good T g' := by
  simp only [EGraph.remapGroup, Option.bind_eq_bind, Option.bind_eq_some_iff, Prod.exists] at e
  obtain ⟨oi, hoi, keep, g2, e2, disc, g3, e3, ni, hni, e⟩ := e
  have hot := h.terms _ _ hoi
  have h1 : Sound V ap Good T { g with groups := g.groups.set old (.remapped new) } :=
    { h with
      len := by simp [h.len]
      remapped := by
        intro a b e
        rw [List.getElem?_set] at e
        split at e
        · split at e
          · rename_i hab _; cases e; subst hab; exact hE
          · cases e
        · exact h.remapped a b e
      terms := by
        intro a j e
        rw [info?_eq, List.getElem?_set] at e
        split at e
        · split at e <;> cases e
        · exact h.terms a j (info?_eq.2 e)
      ineqs := by
        intro a j e
        rw [info?_eq, List.getElem?_set] at e
        split at e
        · split at e <;> cases e
        · exact h.ineqs a j (info?_eq.2 e) }
  have h2 := h1.modifyTerms (ts := oi.terms.foldl
      (fun ts t => ts.modify t fun i => { i with group := new }) g.terms)
    (by rw [map_term_regroup]; exact h.tl) (by
      intro id ti e
      rw [get?_regroup, Option.map_eq_some_iff] at e
      obtain ⟨tj, e1, rfl⟩ := e
      split
      · rename_i hm
        have := (hot id hm).trans hE
        rw [← h.val e1]; exact this.eq.symm
      · exact h.term _ _ e1)
  have h3 := Sound.rekeyApps hE _ _ h2 e2
  have h4 := Sound.rekeyIneqs hE _ _ h3 e3
  have h5 := Sound.handleAll ω disc h4
  have hlt := info?_lt hni
  have hq : ∀ u v, (mergeIneqs new oi.ineqs.entries ni.ineqs).get? u = some v → NeV (vals V T) new u := by
    intro u v e
    rcases get?_mergeIneqs _ _ e with e | e
    · obtain ⟨d, e', q1, q2, q3⟩ := h.ineqs _ _ hoi u v (AMap.get?_eq_some.2 e)
      exact ⟨d, e', by rw [← hE.eq]; exact q1, q2, q3⟩
    · exact h5.ineqs _ _ hni _ _ e
  have h6 := h5.setInfo (i := { ni with
    terms := ni.terms ++ oi.terms
    apps := ni.apps ++ keep
    ineqs := mergeIneqs new oi.ineqs.entries ni.ineqs }) hlt (by
      intro t ht
      rcases List.mem_append.1 ht with ht | ht
      · exact h5.terms _ _ hni t ht
      · exact (hot t ht).trans hE) hq
  have h7 := Sound.reverseIneqs hq (ω.keys (mergeIneqs new oi.ineqs.entries ni.ineqs).keys) [] h6
  generalize hr : EGraph.reverseIneqs new _ _ [] _ = r at e h7
  have h8 := Sound.handleAll ω r.1 h7
  obtain ⟨c1, m1, k1⟩ := h8.coherent.removeGroup old
  cases e
  refine ((Sound.migrate hE _ ?_ ?_).addEdge _ _ _).addEdge _ _ _
  · exact fun c hc => h8.clauses c ((m1 c).1 ((ω.sets_perm _).mem_iff.1 hc)).1
  · exact { h8 with
      coherent := c1
      clauses := fun c hc => h8.clauses c ((k1 c).1 hc).1 }

theorem Sound.setEqualOnce (ω : HashOrder) (h : Sound V ap Good T g) {t1 t2 : Nat}
    {src : Option RewriteSource} (hE : EqV (vals V T) t1 t2)
    (e : g.setEqualOnce ω t1 t2 src = some g') : Sound V ap Good T g' := by
  simp only [EGraph.setEqualOnce, Option.bind_eq_bind, Option.bind_eq_some_iff] at e
  obtain ⟨g1, hg1, g2, hg2, e⟩ := e
  split at e
  · cases e; exact h
  · simp only [Option.bind_eq_some_iff] at e
    obtain ⟨i1, hi1, i2, hi2, e⟩ := e
    have hgg : EqV (vals V T) g1 g2 := ((h.group hg1).symm.trans hE).trans (h.group hg2)
    split at e
    · exact h.remapGroup ω hgg e
    · exact h.remapGroup ω hgg.symm e

theorem Sound.setNotEqualOnce (ω : HashOrder) (h : Sound V ap Good T g) {t1 t2 step : Nat}
    (hN : NeV (vals V T) t1 t2) (e : g.setNotEqualOnce ω t1 t2 step = some g') :
    Sound V ap Good T g' := by
  simp only [EGraph.setNotEqualOnce, Option.bind_eq_bind, Option.bind_eq_some_iff] at e
  obtain ⟨g1, hg1, g2, hg2, e⟩ := e
  have hgg : NeV (vals V T) g1 g2 := by
    obtain ⟨d, e', q1, q2, q3⟩ := hN
    exact ⟨d, e', by rw [← (h.group hg1).eq]; exact q1, by rw [← (h.group hg2).eq]; exact q2, q3⟩
  split at e
  · rename_i he; subst he; exact hgg.irrefl.elim
  · simp only [Option.bind_eq_some_iff] at e
    obtain ⟨i1, hi1, i2, hi2, e⟩ := e
    split at e
    · cases e; exact h
    · simp only [Option.bind_eq_some_iff] at e
      obtain ⟨i2', hi2', e⟩ := e
      have h1 := h.setInfo (i := { i1 with ineqs := i1.ineqs.insert g2 (t1, t2, step) }) (info?_lt hi1)
        (h.terms g1 i1 hi1) (by
          intro u v e
          rw [AMap.get?_insert] at e
          split at e
          · rename_i hu; subst hu; exact hgg
          · exact h.ineqs _ _ hi1 _ _ e)
      split at e
      · cases e
      · cases e
        refine Sound.handleInequality ω ?_ g1 g2
        refine h1.setInfo (info?_lt hi2') (h1.terms g2 i2' hi2') ?_
        intro u v e
        rw [AMap.get?_insert] at e
        split at e
        · rename_i hu; subst hu; exact hgg.symm
        · exact h1.ineqs _ _ hi2' _ _ e

theorem Sound.followGroup (h : Sound V ap Good T g) : ∀ (fuel k : Nat) {chain : List Nat} {r : Nat},
    g.followGroup fuel k = some (chain, r) → EqV (vals V T) k r ∧ ∀ c ∈ chain, EqV (vals V T) c r := by
  intro fuel
  induction fuel with
  | zero => intro k chain r e; cases e
  | succ fuel ih =>
    intro k chain r e
    rw [EGraph.followGroup] at e
    split at e
    · cases e
    · rename_i i hi
      cases e
      refine ⟨?_, by simp⟩
      have hlt := (List.getElem?_eq_some_iff.1 hi).1
      rw [h.len] at hlt
      have := h.val (List.getElem?_eq_getElem hlt)
      exact ⟨_, this, this⟩
    · rename_i next hn
      simp only [Option.bind_eq_bind, Option.bind_eq_some_iff, Prod.exists] at e
      obtain ⟨chain', r', e1, e2⟩ := e
      cases e2
      obtain ⟨h1, h2⟩ := ih next e1
      have h3 := (h.remapped _ _ hn).trans h1
      refine ⟨h3, fun c hc => ?_⟩
      rcases List.mem_cons.1 hc with rfl | hc
      · exact h3
      · exact h2 c hc

theorem Sound.shorten {r : Nat} : ∀ (chain : List Nat) {g : EGraph}, Sound V ap Good T g →
    (∀ c ∈ chain, EqV (vals V T) c r) →
    Sound V ap Good T { g with groups := chain.foldl (fun gs i => gs.set i (.remapped r)) g.groups } := by
  intro chain
  induction chain with
  | nil => intro g h _; exact h
  | cons c cs ih =>
    intro g h hc
    have h1 : Sound V ap Good T { g with groups := g.groups.set c (.remapped r) } :=
      { h with
        len := by simp [h.len]
        remapped := by
          intro a b e
          rw [List.getElem?_set] at e
          split at e
          · split at e
            · rename_i hab _; cases e; subst hab; exact hc _ List.mem_cons_self
            · cases e
          · exact h.remapped a b e
        terms := by
          intro a j e
          rw [info?_eq, List.getElem?_set] at e
          split at e
          · split at e <;> cases e
          · exact h.terms a j (info?_eq.2 e)
        ineqs := by
          intro a j e
          rw [info?_eq, List.getElem?_set] at e
          split at e
          · split at e <;> cases e
          · exact h.ineqs a j (info?_eq.2 e) }
    exact ih h1 fun d hd => hc d (List.mem_cons_of_mem _ hd)

theorem Sound.updateGroup (h : Sound V ap Good T g) {k r : Nat}
    (e : g.updateGroup k = some (r, g')) : Sound V ap Good T g' ∧ EqV (vals V T) k r := by
  simp only [EGraph.updateGroup, Option.bind_eq_bind, Option.bind_eq_some_iff, Prod.exists] at e
  obtain ⟨chain, r', e1, e2⟩ := e
  cases e2
  obtain ⟨h1, h2⟩ := h.followGroup _ _ e1
  exact ⟨h.shorten _ fun c hc => h2 c (List.dropLast_subset _ hc), h1⟩

theorem Sound.reduceLits : ∀ (ls acc : List GLit) {g g' : EGraph} {r : Option (List GLit)},
    Sound V ap Good T g → reduceLits ls acc g = some (r, g') →
    Sound V ap Good T g' ∧ ∀ out, r = some out → (ClauseV (vals V T) acc ∨ ClauseV (vals V T) ls) →
      ClauseV (vals V T) out := by
  intro ls
  induction ls with
  | nil =>
    intro acc g g' r h e
    cases e
    refine ⟨h, fun out ho hc => ?_⟩
    cases ho
    rcases hc with hc | ⟨l, hl, _⟩
    · exact hc
    · cases hl
  | cons l ls ih =>
    intro acc g g' r h e
    simp only [EGraph.reduceLits, Option.bind_eq_bind, Option.bind_eq_some_iff, Prod.exists] at e
    obtain ⟨a, g1, e1, b, g2, e2, e⟩ := e
    obtain ⟨h1, q1⟩ := h.updateGroup e1
    obtain ⟨h2, q2⟩ := h1.updateGroup e2
    have hlit : LitV (vals V T) l ↔ LitV (vals V T) (GLit.new a b l.positive) :=
      litV_congr q1.eq q2.eq
    have drop : ¬ LitV (vals V T) l → (ClauseV (vals V T) acc ∨ ClauseV (vals V T) (l :: ls)) →
        (ClauseV (vals V T) acc ∨ ClauseV (vals V T) ls) := by
      rintro hn (hc | ⟨m, hm, hv⟩)
      · exact Or.inl hc
      · rcases List.mem_cons.1 hm with rfl | hm
        · exact absurd hv hn
        · exact Or.inr ⟨m, hm, hv⟩
    split at e
    · rename_i hab; subst hab
      split at e
      · cases e; exact ⟨h2, fun out ho => by cases ho⟩
      · rename_i hp
        obtain ⟨h3, q⟩ := ih acc h2 e
        refine ⟨h3, fun out ho hc => q out ho (drop ?_ hc)⟩
        rw [hlit, litV_new]
        simp only [LitV, hp]
        exact NeV.irrefl
    · simp only [Option.bind_eq_some_iff] at e
      obtain ⟨i, hi, e⟩ := e
      split at e
      · rename_i hc
        obtain ⟨v, hv⟩ := AMap.contains_iff.1 hc
        have hne := h2.ineqs _ _ hi _ _ hv
        split at e
        · cases e; exact ⟨h2, fun out ho => by cases ho⟩
        · rename_i hp
          obtain ⟨h3, q⟩ := ih acc h2 e
          refine ⟨h3, fun out ho hc => q out ho (drop ?_ hc)⟩
          rw [hlit, litV_new]
          have hp : l.positive = true := by simpa using hp
          simp only [LitV, hp, if_true]
          exact fun h => hne.not_eq h.eq
      · obtain ⟨h3, q⟩ := ih _ h2 e
        refine ⟨h3, fun out ho hc => q out ho ?_⟩
        rcases hc with ⟨m, hm, hv⟩ | ⟨m, hm, hv⟩
        · exact Or.inl ⟨m, List.mem_append_left _ hm, hv⟩
        · rcases List.mem_cons.1 hm with rfl | hm
          · exact Or.inl ⟨_, List.mem_append_right _ List.mem_cons_self, hlit.1 hv⟩
          · exact Or.inr ⟨m, hm, hv⟩

theorem Sound.insertC (h : Sound V ap Good T g) {c : GClause} (hc : ClauseV (vals V T) c) :
    Sound V ap Good T { g with cset := g.cset.insert c } :=
  { h with
    coherent := h.coherent.insert c
    clauses := by
      intro d hd
      rcases ClauseSet.insert_clauses.1 hd with rfl | hd
      · exact hc
      · exact h.clauses d hd }

/-- Resolving two true clauses that differ in one sign gives a true clause. -/
theorem resolve_true {w : Nat → Option D} {c : GClause} {i : Nat} (h1 : ClauseV w c)
    (h2 : ClauseV w (flipAt c i)) : ClauseV w (c.eraseIdx i) := by
  obtain ⟨l, hl, hv⟩ := h1
  obtain ⟨j, hj⟩ := List.getElem?_of_mem hl
  have erase : ∀ j l, c[j]? = some l → j ≠ i → l ∈ c.eraseIdx i := by
    intro j l hj hne
    rw [List.mem_eraseIdx_iff_getElem?]
    exact ⟨j, hne, hj⟩
  by_cases hji : j = i
  · subst hji
    obtain ⟨l', hl', hv'⟩ := h2
    obtain ⟨j', hj'⟩ := List.getElem?_of_mem hl'
    simp only [flipAt, List.getElem?_modify] at hj'
    simp only [Option.map_eq_map, Option.map_eq_some_iff] at hj'
    obtain ⟨l0, h0, h0'⟩ := hj'
    by_cases hjj : j = j'
    · exfalso
      subst hjj
      simp only [if_true] at h0'
      subst h0'
      rw [hj] at h0; cases h0
      rw [litV_new] at hv'
      cases hp : l.positive with
      | true => simp only [LitV, hp] at hv hv'; exact NeV.not_eq hv' hv.eq
      | false =>
        simp only [LitV, hp] at hv hv'
        exact NeV.not_eq hv (EqV.eq hv')
    · simp only [hjj, if_false] at h0'
      have h0' : l0 = l' := h0'
      subst h0'
      exact ⟨_, erase j' _ h0 (Ne.symm hjj), hv'⟩
  · exact ⟨l, erase j l hj hji, hv⟩

theorem Sound.resolveAll {c : GClause} (hc : ClauseV (vals V T) c) : ∀ (is : List Nat) {g : EGraph},
    Sound V ap Good T g → Sound V ap Good T (resolveAll c is g) := by
  intro is
  induction is with
  | nil => intro g h; exact h
  | cons i is ih =>
    intro g h
    simp only [EGraph.resolveAll]
    split
    · rename_i hm
      have hm : flipAt c i ∈ g.cset.clauses := by simpa [ClauseSet.contains] using hm
      have hr := (resolve_true hc (h.clauses _ hm)).new
      split
      · exact ih h
      · rename_i e; exact absurd e hr.1
      · rename_i r e
        split
        · exact ih h
        · exact ih (h.push (hr.2 r e))
    · exact ih h

theorem Sound.storeClause {ls : List GLit} (hc : ClauseV (vals V T) ls) (h : Sound V ap Good T g) :
    Sound V ap Good T (storeClause ls g) := by
  simp only [EGraph.storeClause]
  split
  · exact h
  · rename_i e; exact absurd e hc.new.1
  · rename_i c e
    have hc' := hc.new.2 c e
    split
    · exact h
    · exact Sound.resolveAll hc' _ (h.insertC hc')

theorem Sound.insertClauseNormalized (h : Sound V ap Good T g) {c : GClause}
    (hc : ClauseV (vals V T) c) (e : g.insertClauseNormalized c = some g') : Sound V ap Good T g' := by
  simp only [EGraph.insertClauseNormalized, Option.bind_eq_bind, Option.bind_eq_some_iff,
    Prod.exists] at e
  obtain ⟨r, g1, e1, e⟩ := e
  obtain ⟨h1, q⟩ := Sound.reduceLits _ _ h e1
  have q' := fun out ho => q out ho (Or.inr hc)
  split at e
  · cases e; exact h1
  · obtain ⟨l, hl, _⟩ := q' [] rfl
    cases hl
  · rename_i l
    obtain ⟨l', hl', hv⟩ := q' [l] rfl
    rw [List.mem_singleton] at hl'; subst hl'
    simp only [Option.bind_eq_some_iff, Prod.exists] at e
    obtain ⟨a, g2, e2, b, g3, e3, ai, hai, bi, hbi, e⟩ := e
    obtain ⟨h2, q2⟩ := h1.updateGroup e2
    obtain ⟨h3, q3⟩ := h2.updateGroup e3
    split at e
    · rename_i s ss t ts hs ht
      have hs := h3.terms _ _ hai s (by rw [hs]; exact List.mem_cons_self)
      have ht := h3.terms _ _ hbi t (by rw [ht]; exact List.mem_cons_self)
      have hv' := (litV_congr (q2.trans hs.symm).eq (q3.trans ht.symm).eq).1 hv
      rw [litV_new] at hv'
      split at e
      · rename_i hp
        cases e
        simp only [LitV, hp, if_true] at hv'
        exact h3.push hv'
      · rename_i hp
        cases e
        simp only [LitV, hp] at hv'
        exact h3.push hv'
    · cases e; exact Sound.storeClause ⟨l', List.mem_singleton.2 rfl, hv⟩ h3
  · cases e; exact Sound.storeClause (q' _ rfl) h1

theorem Sound.exec (ω : HashOrder) (h : Sound V ap Good T g) {op : Op} (ho : OpV (vals V T) op)
    (e : exec ω op g = some g') : Sound V ap Good T g' := by
  cases op with
  | rewrite s => exact h.setEqualOnce ω ho e
  | eq a b => exact h.setEqualOnce ω ho e
  | neq a b s => exact h.setNotEqualOnce ω ho e
  | clause c => exact h.insertClauseNormalized ho e

theorem Sound.process (ω : HashOrder) : ∀ (fuel : Nat) {g g' : EGraph}, Sound V ap Good T g →
    process ω fuel g = .done g' → Sound V ap Good T g' := by
  intro fuel
  induction fuel with
  | zero =>
    intro g g' h e
    rw [EGraph.process] at e
    split at e
    · cases e; exact h
    · simp only [h.contra] at e
      cases e
  | succ fuel ih =>
    intro g g' h e
    rw [EGraph.process] at e
    split at e
    · cases e; exact h
    · rename_i op rest hp
      have h1 : Sound V ap Good T { g with pending := rest } :=
        { h with pending := fun o ho => h.pending o (by rw [hp]; exact List.mem_cons_of_mem _ ho) }
      have ho := h.pending op (by rw [hp]; exact List.mem_cons_self)
      dsimp only at e
      split at e
      · rename_i hc
        have hc : g.contra = true := hc
        rw [h.contra] at hc; cases hc
      · split at e
        · cases e
        · rename_i g1 e1
          exact ih (h1.exec ω ho e1) e

end EGraph
end Acorn
