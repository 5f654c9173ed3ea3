/-
No operation of the equality graph panics.
-/
import Verif.Lemmas.EGraphStruct
import Verif.Lemmas.EGraphSoundApi
namespace Acorn

/-- A computation does not panic, and its result satisfies a property. -/
def Out.Ok {α : Type} (P : α → Prop) : Out α → Prop
  | .done a => P a
  | .panic => False
  | .more => True

theorem Out.Ok.bind {α β : Type} {P : α → Prop} {Q : β → Prop} {x : Out α} {f : α → Out β}
    (h : x.Ok P) (hf : ∀ a, P a → (f a).Ok Q) : (x >>= f).Ok Q := by
  cases x with
  | done a => exact hf a h
  | panic => exact h
  | more => trivial

theorem Out.Ok.mono {α : Type} {P Q : α → Prop} {x : Out α} (h : x.Ok P) (hf : ∀ a, P a → Q a) :
    x.Ok Q := by
  cases x with
  | done a => exact hf a h
  | panic => exact h
  | more => trivial

theorem Out.Ok.ofOption {α : Type} {P : α → Prop} {x : Option α} (h : ∃ a, x = some a ∧ P a) :
    (Out.ofOption x).Ok P := by
  obtain ⟨a, rfl, h⟩ := h; exact h

namespace EGraph
variable {g g' : EGraph} {n : Nat}

theorem Wf.group (h : Wf n g) {t : Nat} (ht : t < n) : ∃ k i, g.group? t = some k ∧
    g.info? k = some i ∧ t ∈ i.terms := by
  have : t < g.terms.length := h.tl.symm ▸ ht
  have hg : g.group? t = some (g.terms[t]).group := by simp [group?, List.getElem?_eq_getElem this]
  obtain ⟨i, h1, h2⟩ := h.grp.live _ _ hg
  exact ⟨_, i, hg, h1, h2⟩

theorem Wf.term (h : Wf n g) {t : Nat} (ht : t < n) : ∃ s, g.term? t = some s := by
  have : t < g.terms.length := h.tl.symm ▸ ht
  exact ⟨(g.terms[t]).term, by simp [term?, List.getElem?_eq_getElem this]⟩

/-- Changes outside of the groups. -/
theorem Wf.same (h : Wf n g) (ht : g'.terms = g.terms) (hg : g'.groups = g.groups)
    (ha : g'.apps = g.apps) (hm : g'.appMap = g.appMap) (hd : g'.decomps = g.decomps)
    (ho : g'.opaques = g.opaques) (hc : CsR n g'.cset) (hp : ∀ op ∈ g'.pending, OpR n op) :
    Wf n g' where
  grp := h.grp.same ht hg
  tl := by rw [ht, h.tl]
  app := ⟨by rw [ha]; exact h.app.appRes, by rw [hm]; exact h.app.mapRes, hp⟩
  cs := hc
  appIds := by
    intro k i hi
    rw [ha]
    exact h.appIds k i (by simpa only [info?, hg] using hi)
  decomps := by rw [hd]; exact h.decomps
  opaques := by rw [ho]; exact h.opaques

theorem Wf.push (h : Wf n g) {op : Op} (ho : OpR n op) : Wf n (g.push op) :=
  h.same rfl rfl rfl rfl rfl rfl h.cs (fun op' hop => by
    rcases List.mem_cons.1 hop with rfl | hop
    · exact ho
    · exact h.app.pending op' hop)

theorem Wf.setEqualOnce (ω : HashOrder) (h : Wf n g) {t1 t2 : Nat} (h1 : t1 < n) (h2 : t2 < n)
    (src : Option RewriteSource) : ∃ g', g.setEqualOnce ω t1 t2 src = some g' ∧ Wf n g' := by
  obtain ⟨k1, i1, a1, b1, _⟩ := h.group h1
  obtain ⟨k2, i2, a2, b2, _⟩ := h.group h2
  simp only [EGraph.setEqualOnce, Option.bind_eq_bind, a1, a2, Option.bind_some]
  by_cases hk : k1 = k2
  · rw [if_pos hk]; exact ⟨g, rfl, h⟩
  · rw [if_neg hk]
    simp only [b1, b2, Option.bind_some]
    split
    · obtain ⟨_, _, g', e, w, _⟩ := h.remapGroup ω (ot := t1) (nt := t2) (src := src) b1 b2 hk
      exact ⟨g', e, w⟩
    · obtain ⟨_, _, g', e, w, _⟩ := h.remapGroup ω (ot := t2) (nt := t1) (src := src) b2 b1 (Ne.symm hk)
      exact ⟨g', e, w⟩

theorem Wf.setNotEqualOnce (ω : HashOrder) (h : Wf n g) {t1 t2 : Nat} (h1 : t1 < n) (h2 : t2 < n)
    (step : Nat) : ∃ g', g.setNotEqualOnce ω t1 t2 step = some g' ∧ Wf n g' := by
  obtain ⟨k1, i1, a1, b1, _⟩ := h.group h1
  obtain ⟨k2, i2, a2, b2, _⟩ := h.group h2
  simp only [EGraph.setNotEqualOnce, Option.bind_eq_bind, a1, a2, Option.bind_some]
  by_cases hk : k1 = k2
  · rw [if_pos hk]
    exact ⟨_, rfl, h.same rfl rfl rfl rfl rfl rfl h.cs h.app.pending⟩
  · rw [if_neg hk]
    simp only [b1, b2, Option.bind_some]
    by_cases hc : i1.ineqs.contains k2 = true
    · rw [if_pos hc]; exact ⟨g, rfl, h⟩
    · rw [if_neg hc]
      have hlt1 := info?_lt b1
      have hlt2 := info?_lt b2
      have e2 : (g.setInfo k1 { i1 with ineqs := i1.ineqs.insert k2 (t1, t2, step) }).info? k2 = some i2 := by
        rw [info?_setInfo hlt1, if_neg (Ne.symm hk), b2]
      simp only [e2, Option.bind_some]
      have hc2 : ¬ i2.ineqs.contains k1 = true := fun hc2 =>
        hc ((has_some b1 k2).1 (h.grp.sym _ _ ⟨i2, b2, hc2⟩).1)
      rw [if_neg hc2]
      refine ⟨_, rfl, ?_⟩
      let ga := g.setInfo k1 { i1 with ineqs := i1.ineqs.insert k2 (t1, t2, step) }
      let gb := ga.setInfo k2 { i2 with ineqs := i2.ineqs.insert k1 (t1, t2, step) }
      have m1 : ga.groups.map ash = g.groups.map ash := map_setInfo ash b1 rfl
      have m2 : gb.groups.map ash = g.groups.map ash := (map_setInfo ash (i' := { i2 with ineqs := i2.ineqs.insert k1 (t1, t2, step) }) e2 rfl).trans m1
      have hH : ∀ a b, Has gb a b ↔ Has g a b ∨ (a = k1 ∧ b = k2) ∨ (a = k2 ∧ b = k1) := by
        intro a b
        rw [has_setInfo (info?_lt e2), has_setInfo hlt1]
        by_cases ha2 : a = k2
        · subst ha2
          rw [if_pos rfl, contains_insert', has_some b2]
          have : a ≠ k1 := Ne.symm hk
          simp [this, or_comm]
        · rw [if_neg ha2]
          by_cases ha1 : a = k1
          · subst ha1
            rw [if_pos rfl, contains_insert', has_some b1]
            simp [ha2, or_comm]
          · simp [ha1, ha2]
      have hg : Grp gb := by
        have hg0 : Grp { gb with groups := g.groups } := h.grp.same rfl rfl
        have hl : gb.groups.length = g.groups.length := by
          have := congrArg List.length m2
          simpa using this
        refine ⟨hl.trans h.grp.len, ?_, ?_, ?_, ?_⟩
        · intro t k ht
          rw [mem_iff, tsh_of_ash m2, ← mem_iff]; exact h.grp.live t k ht
        · intro k t ht
          rw [mem_iff, tsh_of_ash m2, ← mem_iff] at ht; exact h.grp.members k t ht
        · intro a b hab
          rw [hH] at hab
          rw [hH]
          rcases hab with hab | ⟨rfl, rfl⟩ | ⟨rfl, rfl⟩
          · exact ⟨Or.inl (h.grp.sym _ _ hab).1, (h.grp.sym _ _ hab).2⟩
          · exact ⟨Or.inr (Or.inr ⟨rfl, rfl⟩), hk⟩
          · exact ⟨Or.inr (Or.inl ⟨rfl, rfl⟩), Ne.symm hk⟩
        · obtain ⟨d, d1, d2⟩ := h.grp.depth
          refine ⟨d, ?_, ?_⟩
          · rw [tsh_of_ash m2, hl]; exact d1
          · simp only [dead, tsh_of_ash m2]; exact d2
      have hw : Wf n gb :=
        { h with
          grp := hg
          app := ⟨h.app.appRes, h.app.mapRes, h.app.pending⟩
          appIds := by
            intro k i hi
            have : (gb.groups.map ash)[k]? = some (.inr (i.terms, i.apps)) := ash_inr.2 ⟨i, hi, rfl⟩
            rw [m2] at this
            obtain ⟨j, j1, j2⟩ := ash_inr.1 this
            simp only [Prod.mk.injEq] at j2
            intro a ha
            exact h.appIds k j j1 a (j2.2 ▸ ha) }
      obtain ⟨c1, c2, c3⟩ := handleInequality_ok ω hw.cs k1 k2
      refine hw.same rfl rfl rfl rfl rfl rfl c1 (fun op hop => ?_)
      rcases c3 op hop with hop | ⟨c, rfl, hc⟩
      · exact hw.app.pending op hop
      · exact hc

theorem follow_ok (h : Grp g) {d : Nat → Nat}
    (hd : ∀ a b : Nat, (g.groups.map tsh)[a]? = some (.inl b) → b < g.groups.length ∧ d b < d a) :
    ∀ (fuel k : Nat), d k < fuel → k < g.groups.length →
    ∃ chain r, g.followGroup fuel k = some (chain, r) ∧ Live g r ∧
      ∀ c ∈ chain, (∃ b, (g.groups.map tsh)[c]? = some (.inl b)) ∧ d r < d c := by
  intro fuel
  induction fuel with
  | zero => intro k h; omega
  | succ fuel ih =>
    intro k hk hlt
    rw [followGroup]
    cases e : g.groups[k]? with
    | none => exact absurd hlt (Nat.not_lt.2 (List.getElem?_eq_none_iff.1 e))
    | some x =>
      cases x with
      | info i => exact ⟨[], k, rfl, ⟨i, info?_eq.2 e⟩, by simp⟩
      | remapped next =>
        have e' := tsh_inl.2 e
        obtain ⟨h1, h2⟩ := hd _ _ e'
        obtain ⟨chain, r, e1, hl, hc⟩ := ih next (by omega) h1
        refine ⟨k :: chain, r, by simp [e1], hl, ?_⟩
        have hrn : d r ≤ d next := by
          cases chain with
          | nil =>
            have : next = r := by
              cases fuel with
              | zero => simp [followGroup] at e1
              | succ f =>
                rw [followGroup] at e1
                cases e2 : g.groups[next]? with
                | none => rw [e2] at e1; cases e1
                | some y =>
                  rw [e2] at e1
                  cases y with
                  | info j => cases e1; rfl
                  | remapped m =>
                    simp only [Option.bind_eq_bind, Option.bind_eq_some_iff, Prod.exists] at e1
                    obtain ⟨_, _, _, e3⟩ := e1
                    cases e3
            rw [this]; omega
          | cons c cs =>
            have : c = next := by
              cases fuel with
              | zero => simp [followGroup] at e1
              | succ f =>
                rw [followGroup] at e1
                cases e2 : g.groups[next]? with
                | none => rw [e2] at e1; cases e1
                | some y =>
                  rw [e2] at e1
                  cases y with
                  | info j => cases e1
                  | remapped m =>
                    simp only [Option.bind_eq_bind, Option.bind_eq_some_iff, Prod.exists] at e1
                    obtain ⟨_, _, _, e3⟩ := e1
                    cases e3; rfl
            have h3 := (hc c List.mem_cons_self).2
            rw [this] at h3; omega
        intro c hc'
        rcases List.mem_cons.1 hc' with rfl | hc'
        · exact ⟨⟨next, e'⟩, by omega⟩
        · exact hc c hc'

theorem info?_setRemapped {c r : Nat} (hno : ∀ i, g.info? c ≠ some i) (k : Nat) :
    ({ g with groups := g.groups.set c (.remapped r) } : EGraph).info? k = g.info? k := by
  by_cases hk : k = c
  · subst hk
    have h1 : g.info? k = none := by
      cases e : g.info? k with
      | none => rfl
      | some i => exact absurd e (hno i)
    rw [h1]
    cases e : ({ g with groups := g.groups.set k (.remapped r) } : EGraph).info? k with
    | none => rfl
    | some i =>
      rw [info?_eq, List.getElem?_set] at e
      simp at e
  · simp only [info?, List.getElem?_set, if_neg (Ne.symm hk)]

theorem shorten_ok {d : Nat → Nat} {r : Nat} : ∀ (chain : List Nat) {g : EGraph}, Grp g →
    (∀ a b : Nat, (g.groups.map tsh)[a]? = some (.inl b) → b < g.groups.length ∧ d b < d a) →
    (∀ a, d a ≤ g.dead) →
    r < g.groups.length →
    (∀ c ∈ chain, (∃ b, (g.groups.map tsh)[c]? = some (.inl b)) ∧ d r < d c) →
    Grp { g with groups := chain.foldl (fun gs i => gs.set i (.remapped r)) g.groups } ∧
    (∀ k, ({ g with groups := chain.foldl (fun gs i => gs.set i (.remapped r)) g.groups } :
      EGraph).info? k = g.info? k) := by
  intro chain
  induction chain with
  | nil => intro g h _ _ _ _; exact ⟨h, fun _ => rfl⟩
  | cons c cs ih =>
    intro g h hd hdd hr hc
    obtain ⟨⟨b0, hb0⟩, hcd⟩ := hc c List.mem_cons_self
    have hclt : c < (g.groups.map tsh).length := (List.getElem?_eq_some_iff.1 hb0).1
    have hno : ∀ i, g.info? c ≠ some i := by
      intro i hi
      rw [info?_eq] at hi
      rw [tsh_inl, hi] at hb0; cases hb0
    have hin := info?_setRemapped (r := r) hno
    let g1 : EGraph := { g with groups := g.groups.set c (.remapped r) }
    have hs : g1.groups.map tsh = (g.groups.map tsh).set c (.inl r) := by
      show (g.groups.set c (.remapped r)).map tsh = _
      rw [List.map_set]; rfl
    have hnext : ∀ a b : Nat, (g1.groups.map tsh)[a]? = some (.inl b) →
        b < g1.groups.length ∧ d b < d a := by
      intro a b hab
      rw [hs, List.getElem?_set] at hab
      have hl : g1.groups.length = g.groups.length := List.length_set
      rw [hl]
      split at hab
      · rename_i hca
        first | cases hab | (rw [if_pos hclt] at hab; cases hab)
        subst hca; exact ⟨hr, hcd⟩
      · exact hd a b hab
    have hdead : g1.dead = g.dead := by
      rw [dead, hs, List.countP_set hclt, (List.getElem?_eq_some_iff.1 hb0).2]
      have : 0 < List.countP Sum.isLeft (g.groups.map tsh) := by
        rw [List.countP_pos_iff]
        exact ⟨.inl b0, List.mem_of_getElem? hb0, rfl⟩
      simp only [Sum.isLeft_inl, if_true, dead]
      omega
    have h1 : Grp g1 := by
      refine ⟨?_, ?_, ?_, ?_, d, hnext, fun a => by rw [hdead]; exact hdd a⟩
      · show (g.groups.set c _).length = _
        rw [List.length_set]; exact h.len
      · intro t k ht
        simp only [Mem, g1, hin]; exact h.live t k ht
      · intro k t ht
        simp only [Mem, g1, hin] at ht; exact h.members k t ht
      · intro a b hab
        simp only [Has, g1, hin] at hab ⊢; exact h.sym a b hab
    obtain ⟨i1, i2⟩ := ih h1 hnext (fun a => by rw [hdead]; exact hdd a)
      (by show r < (g.groups.set c _).length; rw [List.length_set]; exact hr) (by
        intro x hx
        obtain ⟨⟨b, hb⟩, hxd⟩ := hc x (List.mem_cons_of_mem _ hx)
        refine ⟨?_, hxd⟩
        rw [hs, List.getElem?_set]
        split
        · rename_i hcx; exact ⟨r, by first | rfl | rw [if_pos hclt]⟩
        · exact ⟨b, hb⟩)
    exact ⟨i1, fun k => (i2 k).trans (hin k)⟩

theorem dead_le (g : EGraph) : g.dead ≤ g.groups.length := by
  have := List.countP_le_length (p := Sum.isLeft) (l := g.groups.map tsh)
  simpa [dead] using this

theorem Wf.updateGroup (h : Wf n g) {k : Nat} (hk : k < n) :
    ∃ r g', g.updateGroup k = some (r, g') ∧ Wf n g' ∧ (∃ i, g'.info? r = some i) ∧
      (∀ k, g'.info? k = g.info? k) ∧ g'.terms = g.terms ∧ g'.apps = g.apps ∧
      g'.appMap = g.appMap ∧ g'.pending = g.pending ∧ g'.decomps = g.decomps ∧
      g'.opaques = g.opaques ∧ g'.contra = g.contra ∧ g'.cset = g.cset := by
  obtain ⟨d, d1, d2⟩ := h.grp.depth
  obtain ⟨chain, r, e, hl, hc⟩ := follow_ok h.grp d1 (g.groups.length + 1) k
    (by have := d2 k; have := dead_le g; omega) (h.gl.symm ▸ hk)
  obtain ⟨i, hi⟩ := hl
  obtain ⟨s1, s2⟩ := shorten_ok (r := r) chain.dropLast h.grp d1 d2 (info?_lt hi)
    (fun c hcc => hc c (List.dropLast_subset _ hcc))
  refine ⟨r, _, by simp [EGraph.updateGroup, e], { h with
      grp := s1
      app := ⟨h.app.appRes, h.app.mapRes, h.app.pending⟩
      appIds := fun k i hi => h.appIds k i (by rw [← s2]; exact hi) },
    ⟨i, by rw [s2]; exact hi⟩, s2, rfl, rfl, rfl, rfl, rfl, rfl, rfl, rfl⟩

/-- The parts left alone by following group links. -/
structure Quiet (g g' : EGraph) : Prop where
  info : ∀ k, g'.info? k = g.info? k
  terms : g'.terms = g.terms
  apps : g'.apps = g.apps
  appMap : g'.appMap = g.appMap
  pending : g'.pending = g.pending
  decomps : g'.decomps = g.decomps
  opaques : g'.opaques = g.opaques
  contra : g'.contra = g.contra
  cset : g'.cset = g.cset

theorem Quiet.refl (g : EGraph) : Quiet g g := ⟨fun _ => rfl, rfl, rfl, rfl, rfl, rfl, rfl, rfl, rfl⟩

theorem Quiet.trans {a b c : EGraph} (h : Quiet a b) (h' : Quiet b c) : Quiet a c :=
  ⟨fun k => (h'.info k).trans (h.info k), h'.terms.trans h.terms, h'.apps.trans h.apps,
    h'.appMap.trans h.appMap, h'.pending.trans h.pending, h'.decomps.trans h.decomps,
    h'.opaques.trans h.opaques, h'.contra.trans h.contra, h'.cset.trans h.cset⟩

theorem Wf.updateGroup' (h : Wf n g) {k : Nat} (hk : k < n) :
    ∃ r g', g.updateGroup k = some (r, g') ∧ Wf n g' ∧ (∃ i, g'.info? r = some i) ∧ Quiet g g' := by
  obtain ⟨r, g', e, w, hl, h1, h2, h3, h4, h5, h6, h7, h8, h9⟩ := h.updateGroup hk
  exact ⟨r, g', e, w, hl, ⟨h1, h2, h3, h4, h5, h6, h7, h8, h9⟩⟩

theorem Wf.reduceLits : ∀ (ls acc : List GLit) {g : EGraph}, Wf n g → ClauseR n ls → ClauseR n acc →
    ∃ r g', reduceLits ls acc g = some (r, g') ∧ Wf n g' ∧ Quiet g g' ∧
      ∀ ms, r = some ms → ClauseR n ms := by
  intro ls
  induction ls with
  | nil =>
    intro acc g h _ ha
    exact ⟨_, _, rfl, h, .refl g, fun ms e => by cases e; exact ha⟩
  | cons l ls ih =>
    intro acc g h hl ha
    have hls : ClauseR n ls := fun m hm => hl m (List.mem_cons_of_mem _ hm)
    obtain ⟨l1, l2⟩ := hl l List.mem_cons_self
    obtain ⟨a, g1, e1, w1, ⟨i1, hi1⟩, q1⟩ := h.updateGroup' l1
    obtain ⟨b, g2, e2, w2, ⟨i2, hi2⟩, q2⟩ := w1.updateGroup' l2
    have q := q1.trans q2
    have hia : g2.info? a = some i1 := by rw [q2.info]; exact hi1
    simp only [EGraph.reduceLits, Option.bind_eq_bind, e1, e2, Option.bind_some]
    have rec_ : ∀ acc, ClauseR n acc → ∃ r g', EGraph.reduceLits ls acc g2 = some (r, g') ∧
        Wf n g' ∧ Quiet g g' ∧ ∀ ms, r = some ms → ClauseR n ms := by
      intro acc ha
      obtain ⟨r, g', e, w, q', hr⟩ := ih acc w2 hls ha
      exact ⟨r, g', e, w, q.trans q', hr⟩
    by_cases hab : a = b
    · rw [if_pos hab]
      cases l.positive
      · exact rec_ acc ha
      · exact ⟨_, _, rfl, w2, q, by simp⟩
    · rw [if_neg hab]
      simp only [hia, Option.bind_some]
      cases hc : i1.ineqs.contains b
      · refine rec_ _ ?_
        intro m hm
        rcases List.mem_append.1 hm with hm | hm
        · exact ha m hm
        · cases List.mem_singleton.1 hm
          exact litR_new (w2.gl ▸ info?_lt hia) (w2.gl ▸ info?_lt hi2)
      · cases l.positive
        · exact ⟨_, _, rfl, w2, q, by simp⟩
        · exact rec_ acc ha

theorem Wf.contraTrue (h : Wf n g) : Wf n { g with contra := true } :=
  h.same rfl rfl rfl rfl rfl rfl h.cs h.app.pending

theorem Wf.resolveAll {c : GClause} (hc : ClauseR n c) : ∀ (is : List Nat) {g : EGraph}, Wf n g →
    Wf n (EGraph.resolveAll c is g) := by
  intro is
  induction is with
  | nil => intro g h; exact h
  | cons i is ih =>
    intro g h
    simp only [EGraph.resolveAll]
    split
    · split
      · exact ih h
      · exact ih h.contraTrue
      · rename_i r e
        split
        · exact ih h
        · refine ih (h.push ?_)
          exact ClauseR.new (fun l hl => hc l (List.mem_of_mem_eraseIdx hl)) e
    · exact ih h

theorem Wf.storeClause (h : Wf n g) {ls : List GLit} (hl : ClauseR n ls) : Wf n (storeClause ls g) := by
  simp only [EGraph.storeClause]
  split
  · exact h
  · exact h.contraTrue
  · rename_i c e
    split
    · exact h
    · refine Wf.resolveAll (hl.new e) _ (h.same rfl rfl rfl rfl rfl rfl ⟨?_, ?_⟩ h.app.pending)
      · exact h.cs.coherent.insert c
      · intro d hd
        rcases ClauseSet.insert_clauses.1 hd with rfl | hd
        · exact hl.new e
        · exact h.cs.clauses d hd

theorem Wf.insertClauseNormalized (h : Wf n g) {c : GClause} (hc : ClauseR n c) :
    ∃ g', g.insertClauseNormalized c = some g' ∧ Wf n g' := by
  obtain ⟨r, g1, e, w, q, hr⟩ := Wf.reduceLits c [] h hc (by intro l hl; cases hl)
  simp only [EGraph.insertClauseNormalized, Option.bind_eq_bind, e, Option.bind_some]
  match r, hr with
  | none, _ => exact ⟨_, rfl, w⟩
  | some [], _ => exact ⟨_, rfl, w.contraTrue⟩
  | some [l], hr =>
    obtain ⟨l1, l2⟩ := hr _ rfl l List.mem_cons_self
    obtain ⟨a, ga, ea, wa, ⟨i1, hi1⟩, qa⟩ := w.updateGroup' l1
    obtain ⟨b, gb, eb, wb, ⟨i2, hi2⟩, qb⟩ := wa.updateGroup' l2
    have hia : gb.info? a = some i1 := by rw [qb.info]; exact hi1
    simp only [ea, eb, hia, hi2, Option.bind_some]
    split
    · rename_i s ss t tt hs ht
      have hs' : s < n := by
        have := wb.grp.members a s ⟨i1, hia, by rw [hs]; exact List.mem_cons_self⟩
        simp only [group?, Option.map_eq_some_iff] at this
        obtain ⟨ti, e, _⟩ := this
        rw [← wb.tl]; exact (List.getElem?_eq_some_iff.1 e).1
      have ht' : t < n := by
        have := wb.grp.members b t ⟨i2, hi2, by rw [ht]; exact List.mem_cons_self⟩
        simp only [group?, Option.map_eq_some_iff] at this
        obtain ⟨ti, e, _⟩ := this
        rw [← wb.tl]; exact (List.getElem?_eq_some_iff.1 e).1
      cases l.positive
      · exact ⟨_, rfl, wb.push ⟨hs', ht'⟩⟩
      · exact ⟨_, rfl, wb.push ⟨hs', ht'⟩⟩
    · exact ⟨_, rfl, wb.storeClause (hr _ rfl)⟩
  | some (l :: m :: ls), hr => exact ⟨_, rfl, w.storeClause (hr _ rfl)⟩

theorem Wf.exec (ω : HashOrder) (h : Wf n g) {op : Op} (ho : OpR n op) :
    ∃ g', exec ω op g = some g' ∧ Wf n g' := by
  cases op with
  | rewrite s => exact h.setEqualOnce ω ho.1 ho.2 _
  | eq a b => exact h.setEqualOnce ω ho.1 ho.2 _
  | neq a b step => exact h.setNotEqualOnce ω ho.1 ho.2 _
  | clause c => exact h.insertClauseNormalized ho

theorem Wf.process (ω : HashOrder) : ∀ (fuel : Nat) {g : EGraph}, Wf n g →
    (process ω fuel g).Ok (Wf n) := by
  intro fuel
  induction fuel with
  | zero =>
    intro g h
    rw [EGraph.process]
    split
    · exact h
    · rename_i op rest e
      dsimp only
      have h' : Wf n { g with pending := rest } :=
        h.same rfl rfl rfl rfl rfl rfl h.cs (fun op hop => h.app.pending op (e ▸ List.mem_cons_of_mem _ hop))
      split
      · exact h'
      · trivial
  | succ fuel ih =>
    intro g h
    rw [EGraph.process]
    split
    · exact h
    · rename_i op rest e
      dsimp only
      have h' : Wf n { g with pending := rest } :=
        h.same rfl rfl rfl rfl rfl rfl h.cs (fun op hop => h.app.pending op (e ▸ List.mem_cons_of_mem _ hop))
      split
      · exact h'
      · obtain ⟨g1, e1, w⟩ := h'.exec ω (h.app.pending op (e ▸ List.mem_cons_self))
        rw [e1]
        exact ih w

theorem OpR.mono {m : Nat} (hm : n ≤ m) {op : Op} (h : OpR n op) : OpR m op := by
  cases op with
  | clause c => exact fun l hl => ⟨Nat.lt_of_lt_of_le (h l hl).1 hm, Nat.lt_of_lt_of_le (h l hl).2 hm⟩
  | rewrite s => exact ⟨Nat.lt_of_lt_of_le h.1 hm, Nat.lt_of_lt_of_le h.2 hm⟩
  | eq a b => exact ⟨Nat.lt_of_lt_of_le h.1 hm, Nat.lt_of_lt_of_le h.2 hm⟩
  | neq a b s => exact ⟨Nat.lt_of_lt_of_le h.1 hm, Nat.lt_of_lt_of_le h.2 hm⟩

theorem info?_newTerm (t : Term) (d : GDecomp) (k : Nat) :
    (g.newTerm t d).2.info? k = if k = g.groups.length then
      some ⟨[g.terms.length], [], AMap.empty⟩ else g.info? k := by
  simp only [info?, newTerm]
  by_cases hk : k = g.groups.length
  · subst hk; simp
  · rw [if_neg hk]
    rcases Nat.lt_or_ge k g.groups.length with h | h
    · rw [List.getElem?_append_left h]
    · have h1 : g.groups[k]? = none := List.getElem?_eq_none h
      have h2 : (g.groups ++ [Group.info ⟨[g.terms.length], [], AMap.empty⟩])[k]? = none := by
        apply List.getElem?_eq_none; simp; omega
      rw [h1, h2]

theorem Wf.newTerm (h : Wf n g) (t : Term) (d : GDecomp) : Wf (n + 1) (g.newTerm t d).2 := by
  have hgl := h.gl
  have htl := h.tl
  have hin := info?_newTerm (g := g) t d
  have hs : (g.newTerm t d).2.groups.map tsh = g.groups.map tsh ++ [.inr [g.terms.length]] := by
    simp [EGraph.newTerm, tsh]
  have hgr : ∀ s k, (g.newTerm t d).2.group? s = some k ↔
      g.group? s = some k ∨ (s = n ∧ k = n) := by
    intro s k
    simp only [group?, EGraph.newTerm]
    rcases Nat.lt_trichotomy s g.terms.length with hlt | heq | hgt
    · rw [List.getElem?_append_left hlt]
      have : s ≠ n := by omega
      simp [this]
    · subst heq
      simp only [List.getElem?_concat_length, Option.map_some, List.getElem?_eq_none (Nat.le_refl _),
        Option.map_none]
      simp [hgl, htl, eq_comm]
    · have : s ≠ n := by omega
      rw [List.getElem?_eq_none (by simp; omega), List.getElem?_eq_none (by omega)]
      simp [this]
  refine ⟨⟨?_, ?_, ?_, ?_, ?_⟩, ?_, ⟨?_, ?_, ?_⟩, ⟨h.cs.coherent, ?_⟩, ?_, ?_, ?_⟩
  · simp [EGraph.newTerm, hgl, htl]
  · intro s k hs
    rcases (hgr s k).1 hs with hs | ⟨rfl, rfl⟩
    · obtain ⟨i, h1, h2⟩ := h.grp.live s k hs
      have : k ≠ g.groups.length := Nat.ne_of_lt (info?_lt h1)
      exact ⟨i, by rw [hin, if_neg this]; exact h1, h2⟩
    · exact ⟨_, by rw [hin, if_pos hgl.symm], by simp [htl]⟩
  · intro k s ⟨i, h1, h2⟩
    rw [hin] at h1
    rw [hgr]
    split at h1
    · rename_i hk
      cases h1
      simp only [List.mem_singleton] at h2
      exact Or.inr ⟨by omega, by omega⟩
    · exact Or.inl (h.grp.members k s ⟨i, h1, h2⟩)
  · intro a b ⟨i, h1, h2⟩
    rw [hin] at h1
    split at h1
    · cases h1; simp [AMap.contains] at h2
    · obtain ⟨⟨j, j1, j2⟩, hne⟩ := h.grp.sym a b ⟨i, h1, h2⟩
      have : b ≠ g.groups.length := Nat.ne_of_lt (info?_lt j1)
      exact ⟨⟨j, by rw [hin, if_neg this]; exact j1, j2⟩, hne⟩
  · obtain ⟨d', d1, d2⟩ := h.grp.depth
    refine ⟨d', ?_, ?_⟩
    · intro a b hab
      rw [hs] at hab
      have hl : (g.newTerm t d).2.groups.length = g.groups.length + 1 := by simp [EGraph.newTerm]
      rw [hl]
      rcases Nat.lt_or_ge a (g.groups.map tsh).length with hlt | hge
      · rw [List.getElem?_append_left hlt] at hab
        have := d1 a b hab
        exact ⟨by omega, this.2⟩
      · rw [List.getElem?_append_right hge] at hab
        have := List.mem_of_getElem? hab
        simp at this
    · intro a
      have : (g.newTerm t d).2.dead = g.dead := by
        rw [dead, hs, List.countP_append]; simp [dead]
      rw [this]; exact d2 a
  · simp [EGraph.newTerm, htl]
  · exact fun j k r hj => Nat.lt_succ_of_lt (h.app.appRes j k r hj)
  · exact fun k r hj => Nat.lt_succ_of_lt (h.app.mapRes k r hj)
  · exact fun op hop => (h.app.pending op hop).mono (Nat.le_succ n)
  · exact fun c hc => OpR.mono (op := .clause c) (Nat.le_succ n) (h.cs.clauses c hc)
  · intro k i hi
    rw [hin] at hi
    split at hi
    · cases hi; intro a ha; cases ha
    · exact h.appIds k i hi
  · exact fun d id hd => Nat.lt_succ_of_lt (h.decomps d id hd)
  · exact fun d id hd => Nat.lt_succ_of_lt (h.opaques d id hd)

/-- The result of inserting a term. -/
def Ins (n : Nat) (r : Nat × EGraph) : Prop := ∃ m, n ≤ m ∧ Wf m r.2 ∧ r.1 < m

theorem Wf.insertAtom (h : Wf n g) (a : Atom) : Ins n (g.insertAtom a) := by
  simp only [EGraph.insertAtom]
  split
  · rename_i id e; exact ⟨n, Nat.le_refl n, h, h.decomps _ _ e⟩
  · have w := h.newTerm (.atom a) (.atomic a)
    have hid : (g.newTerm (.atom a) (.atomic a)).1 < n + 1 := by
      show g.terms.length < n + 1
      rw [h.tl]; omega
    exact ⟨n + 1, Nat.le_succ n, { w with
      grp := w.grp.same rfl rfl
      app := ⟨w.app.appRes, w.app.mapRes, w.app.pending⟩
      decomps := by
        intro d id hd
        rw [AMap.get?_insert] at hd
        split at hd
        · cases hd; exact hid
        · exact w.decomps d id hd }, hid⟩

theorem Wf.insertOpaque (h : Wf n g) (t : Term) : Ins n (g.insertOpaque t) := by
  simp only [EGraph.insertOpaque]
  split
  · rename_i id e; exact ⟨n, Nat.le_refl n, h, h.opaques _ _ e⟩
  · have w := h.newTerm t .opaque
    have hid : (g.newTerm t .opaque).1 < n + 1 := by
      show g.terms.length < n + 1
      rw [h.tl]; omega
    exact ⟨n + 1, Nat.le_succ n, { w with
      grp := w.grp.same rfl rfl
      app := ⟨w.app.appRes, w.app.mapRes, w.app.pending⟩
      opaques := by
        intro d id hd
        rw [AMap.get?_insert] at hd
        split at hd
        · cases hd; exact hid
        · exact w.opaques d id hd }, hid⟩

theorem addAppTo_ok {app : Nat} : ∀ (ks : List Nat) {g : EGraph}, (∀ k ∈ ks, Live g k) →
    ∃ g', addAppTo app ks g = some g' ∧ g'.groups.map tsh = g.groups.map tsh ∧
      (∀ a b, Has g' a b ↔ Has g a b) ∧ OnlyGroups g g' ∧ g'.contra = g.contra ∧
      (∀ k i, g.info? k = some i → ∃ i', g'.info? k = some i' ∧ (∀ a ∈ i.apps, a ∈ i'.apps) ∧
        (k ∈ ks → app ∈ i'.apps)) ∧
      (∀ k i, g'.info? k = some i → ∃ i', g.info? k = some i' ∧ ∀ a ∈ i.apps, a = app ∨ a ∈ i'.apps) := by
  intro ks
  induction ks with
  | nil =>
    intro g _
    exact ⟨g, rfl, rfl, fun _ _ => Iff.rfl, .refl g, rfl,
      fun k i hi => ⟨i, hi, fun _ h => h, by simp⟩, fun k i hi => ⟨i, hi, fun a h => Or.inr h⟩⟩
  | cons k ks ih =>
    intro g hk
    obtain ⟨i, hi⟩ := hk k List.mem_cons_self
    have hlt := info?_lt hi
    let g1 := g.setInfo k { i with apps := i.apps ++ [app] }
    have m1 : g1.groups.map tsh = g.groups.map tsh := map_setInfo tsh hi rfl
    have hin : ∀ x, g1.info? x = if x = k then some { i with apps := i.apps ++ [app] } else g.info? x :=
      fun x => info?_setInfo hlt
    obtain ⟨g', e, a1, a2, a3, a4, a5, a6⟩ := ih (g := g1)
      (fun x hx => (live_congr m1 x).2 (hk x (List.mem_cons_of_mem _ hx)))
    refine ⟨g', by simp only [addAppTo, Option.bind_eq_bind, hi, Option.bind_some]; exact e,
      a1.trans m1, ?_, ⟨a3.terms, a3.apps, a3.cset, a3.appMap, a3.decomps, a3.pending, a3.opaques⟩,
      a4, ?_, ?_⟩
    · intro a b
      rw [a2]
      simp only [g1]
      rw [has_setInfo hlt]
      split
      · rename_i h; subst h; exact (has_some hi b).symm
      · rfl
    · intro x j hj
      by_cases hx : x = k
      · subst hx
        rw [hi] at hj; cases hj
        obtain ⟨j', b1, b2, b3⟩ := a5 x _ (by rw [hin, if_pos rfl])
        exact ⟨j', b1, fun a ha => b2 a (List.mem_append_left _ ha),
          fun _ => b2 app (List.mem_append_right _ List.mem_cons_self)⟩
      · obtain ⟨j', b1, b2, b3⟩ := a5 x j (by rw [hin, if_neg hx]; exact hj)
        refine ⟨j', b1, b2, fun h => ?_⟩
        rcases List.mem_cons.1 h with h | h
        · exact absurd h hx
        · exact b3 h
    · intro x j hj
      obtain ⟨j', b1, b2⟩ := a6 x j hj
      rw [hin] at b1
      split at b1
      · rename_i hx; subst hx
        cases b1
        refine ⟨i, hi, fun a ha => ?_⟩
        rcases b2 a ha with h | h
        · exact Or.inl h
        · rcases List.mem_append.1 h with h | h
          · exact Or.inr h
          · exact Or.inl (List.mem_singleton.1 h)
      · exact ⟨j', b1, b2⟩

theorem mem_keyGroups {k : Nat × Nat} {x : Nat} : x ∈ keyGroups k ↔ x = k.1 ∨ x = k.2 := by
  unfold keyGroups
  split
  · rename_i h; simp [h]
  · split
    · simp
    · simp [or_comm]

theorem Wf.insertGroupApp (h : Wf n g) {f a r : Nat} (hf : Live g f) (ha : Live g a) (hr : r < n) :
    ∃ g', g.insertGroupApp f a r = some g' ∧ Wf n g' := by
  obtain ⟨rk, ri, hrg, _, _⟩ := h.group hr
  simp only [EGraph.insertGroupApp, Option.bind_eq_bind, hrg, Option.bind_some]
  cases e : g.appMap.get? (f, a) with
  | some ex =>
    have hex := h.app.mapRes _ _ e
    obtain ⟨ek, ei, heg, _, _⟩ := h.group hex
    simp only [heg, Option.bind_some]
    split
    · exact ⟨_, rfl, h.push ⟨hex, hr⟩⟩
    · exact ⟨_, rfl, h⟩
  | none =>
    obtain ⟨g', e', a1, a2, a3, a4, a5, a6⟩ := addAppTo_ok (app := g.apps.length) (keyGroups (f, a))
      (g := g) (by
        intro k hk
        rcases mem_keyGroups.1 hk with rfl | rfl
        · exact hf
        · exact ha)
    simp only [e', Option.bind_some]
    refine ⟨_, rfl, ?_⟩
    have hgt : Grp g' := h.grp.congr (by rw [a3.terms]) (fun t => by simp only [group?, a3.terms]) a1 a2
    refine ⟨hgt.same rfl rfl, by show g'.terms.length = n; rw [a3.terms]; exact h.tl, ⟨?_, ?_, ?_⟩, ?_,
      ?_, ?_, ?_⟩
    · intro j k r' hj
      rw [a3.apps, List.getElem?_append] at hj
      split at hj
      · exact h.app.appRes j k r' hj
      · have := List.mem_of_getElem? hj
        simp only [List.mem_singleton, Option.some.injEq, AppInfo.mk.injEq] at this
        rw [this.2]; exact hr
    · intro k r' hk
      dsimp only at hk
      rw [AMap.get?_insert] at hk
      split at hk
      · cases hk; exact hr
      · rw [a3.appMap] at hk; exact h.app.mapRes _ _ hk
    · show ∀ op ∈ g'.pending, OpR n op
      rw [a3.pending]; exact h.app.pending
    · show CsR n g'.cset
      rw [a3.cset]; exact h.cs
    · intro k i hi x hx
      show x < (g'.apps ++ _).length
      rw [List.length_append, a3.apps]
      obtain ⟨i', b1, b2⟩ := a6 k i hi
      rcases b2 x hx with rfl | hx
      · simp
      · have := h.appIds k i' b1 x hx
        simp; omega
    · show ∀ d id, g'.decomps.get? d = some id → id < n
      rw [a3.decomps]; exact h.decomps
    · show ∀ d id, g'.opaques.get? d = some id → id < n
      rw [a3.opaques]; exact h.opaques

theorem Wf.insertApplication (h : Wf n g) {ins : Term → EGraph → Out (Nat × EGraph)}
    (hins : ∀ (m : Nat) (t : Term) (g : EGraph), Wf m g → (ins t g).Ok (Ins m)) {f a : Nat}
    (hf : f < n) (ha : a < n) : (insertApplication ins g f a).Ok (Ins n) := by
  simp only [EGraph.insertApplication]
  split
  · rename_i id e; exact ⟨n, Nat.le_refl n, h, h.decomps _ _ e⟩
  · obtain ⟨ft, hft⟩ := h.term hf
    obtain ⟨at', hat⟩ := h.term ha
    simp only [hft, hat]
    refine Out.Ok.bind (P := fun s => s = ft) rfl ?_
    rintro _ rfl
    refine Out.Ok.bind (P := fun s => s = at') rfl ?_
    rintro _ rfl
    rename_i fs as
    have w0 := h.newTerm (.app fs as) (.application f a)
    have hid : (g.newTerm (.app fs as) (.application f a)).1 < n + 1 := by
      show g.terms.length < n + 1
      rw [h.tl]; omega
    generalize hg1 : (⟨(g.newTerm (.app fs as) (.application f a)).2.terms,
      (g.newTerm (.app fs as) (.application f a)).2.groups,
      (g.newTerm (.app fs as) (.application f a)).2.apps,
      (g.newTerm (.app fs as) (.application f a)).2.cset,
      (g.newTerm (.app fs as) (.application f a)).2.appMap,
      (g.newTerm (.app fs as) (.application f a)).2.decomps.insert (.application f a)
        (g.newTerm (.app fs as) (.application f a)).1,
      (g.newTerm (.app fs as) (.application f a)).2.pending,
      (g.newTerm (.app fs as) (.application f a)).2.contra,
      (g.newTerm (.app fs as) (.application f a)).2.contraInfo,
      (g.newTerm (.app fs as) (.application f a)).2.opaques⟩ : EGraph) = g1
    have w1 : Wf (n + 1) g1 := by
      subst hg1
      exact { w0 with
        grp := w0.grp.same rfl rfl
        app := ⟨w0.app.appRes, w0.app.mapRes, w0.app.pending⟩
        decomps := by
          intro d id hd
          rw [AMap.get?_insert] at hd
          split at hd
          · cases hd; exact hid
          · exact w0.decomps d id hd }
    obtain ⟨fk, fi, f1, f2, _⟩ := w1.group (t := f) (by omega)
    obtain ⟨ak, ai, b1, b2, _⟩ := w1.group (t := a) (by omega)
    obtain ⟨g2, e2, w2⟩ := w1.insertGroupApp ⟨fi, f2⟩ ⟨ai, b2⟩ hid
    simp only [f1, b1]
    refine Out.Ok.bind (P := fun s => s = fk) rfl ?_
    rintro _ rfl
    refine Out.Ok.bind (P := fun s => s = ak) rfl ?_
    rintro _ rfl
    refine Out.Ok.bind (P := fun s => s = g2) (by rw [e2]; rfl) ?_
    rintro _ rfl
    split
    · exact ⟨n + 1, Nat.le_succ n, w2, hid⟩
    · refine Out.Ok.bind (hins (n + 1) _ _ w2) ?_
      rintro ⟨sid, g3⟩ ⟨m, hm, w3, hs⟩
      exact ⟨m, by omega, w3.push ⟨by omega, hs⟩, by simp only; omega⟩

theorem Wf.insertTerm (ω : HashOrder) : ∀ (fuel n : Nat) (t : Term) (g : EGraph), Wf n g →
    (insertTerm ω fuel t g).Ok (Ins n) := by
  intro fuel
  induction fuel with
  | zero => intro n t g _; trivial
  | succ fuel ih =>
    intro n t g h
    have fin : ∀ r : Nat × EGraph, Ins n r → (do
        let g ← EGraph.process ω fuel r.2
        return (r.1, g) : Out (Nat × EGraph)).Ok (Ins n) := by
      rintro ⟨id, g1⟩ ⟨m, hm, w, hid⟩
      refine Out.Ok.bind (w.process ω fuel) ?_
      intro g2 w2
      exact ⟨m, hm, w2, hid⟩
    cases t with
    | atom a => rw [insertTerm_atom]; exact fin _ (h.insertAtom a)
    | bind k T b => rw [insertTerm_bind]; exact fin _ (h.insertOpaque _)
    | app f a =>
      rw [insertTerm_app]
      refine Out.Ok.bind (ih n f g h) ?_
      rintro ⟨fid, g1⟩ ⟨m1, hm1, w1, hf⟩
      refine Out.Ok.bind (ih m1 a g1 w1) ?_
      rintro ⟨aid, g2⟩ ⟨m2, hm2, w2, ha⟩
      refine Out.Ok.bind (w2.insertApplication ih (Nat.lt_of_lt_of_le hf hm2) ha) ?_
      rintro r ⟨m, hm, w, hr⟩
      exact fin r ⟨m, by omega, w, hr⟩

/-! ### The interface -/

/-- A graph with its number of terms left open. -/
def WfAny (g : EGraph) : Prop := ∃ n, Wf n g

theorem Wf.pair (ω : HashOrder) (fuel : Nat) (h : Wf n g) (s t : Term) {β : Type}
    {f : Nat → Nat → EGraph → Out β} {Q : β → Prop}
    (hf : ∀ m a b g, n ≤ m → Wf m g → a < m → b < m → (f a b g).Ok Q) :
    (do
      let (a, g) ← EGraph.insertTerm ω fuel s g
      let (b, g) ← EGraph.insertTerm ω fuel t g
      f a b g).Ok Q := by
  refine Out.Ok.bind (Wf.insertTerm ω fuel n s g h) ?_
  rintro ⟨a, g1⟩ ⟨m1, hm1, w1, ha⟩
  refine Out.Ok.bind (Wf.insertTerm ω fuel m1 t g1 w1) ?_
  rintro ⟨b, g2⟩ ⟨m2, hm2, w2, hb⟩
  exact hf m2 a b g2 (by omega) w2 (Nat.lt_of_lt_of_le ha hm2) hb

theorem Wf.litIds (ω : HashOrder) (fuel : Nat) : ∀ (ls : List Literal) {n : Nat} {g : EGraph}, Wf n g →
    (litIds ω fuel ls g).Ok fun r => ∃ m, n ≤ m ∧ Wf m r.2 ∧ ClauseR m r.1 := by
  intro ls
  induction ls with
  | nil => intro n g h; exact ⟨n, Nat.le_refl n, h, by intro l hl; cases hl⟩
  | cons l ls ih =>
    intro n g h
    simp only [EGraph.litIds]
    refine h.pair ω fuel l.left l.right (f := fun a b g => do
      let ag ← Out.ofOption (g.group? a)
      let bg ← Out.ofOption (g.group? b)
      let (rest, g) ← EGraph.litIds ω fuel ls g
      return (GLit.new ag bg l.positive :: rest, g)) ?_
    intro m a b g1 hm w ha hb
    obtain ⟨ak, ai, a1, a2, _⟩ := w.group ha
    obtain ⟨bk, bi, b1, b2, _⟩ := w.group hb
    simp only [a1, b1]
    refine Out.Ok.bind (P := fun s => s = ak) rfl ?_
    rintro _ rfl
    refine Out.Ok.bind (P := fun s => s = bk) rfl ?_
    rintro _ rfl
    refine Out.Ok.bind (ih w) ?_
    rintro ⟨rest, g2⟩ ⟨m2, hm2, w2, hr⟩
    refine ⟨m2, by omega, w2, fun x hx => ?_⟩
    rcases List.mem_cons.1 hx with rfl | hx
    · have h1 := info?_lt a2
      have h2 := info?_lt b2
      rw [w.gl] at h1 h2
      exact litR_new (by omega) (by omega)
    · exact hr x hx

theorem Wf.setTermsEqual (ω : HashOrder) (fuel : Nat) (h : Wf n g) {a b : Nat} (ha : a < n) (hb : b < n)
    (p : Nat) (i : Option Nat) : (EGraph.setTermsEqual ω fuel g a b p i).Ok (Wf n) :=
  Wf.process ω fuel (h.push ⟨ha, hb⟩)

theorem Wf.setTermsNotEqual (ω : HashOrder) (fuel : Nat) (h : Wf n g) {a b : Nat} (ha : a < n)
    (hb : b < n) (p : Nat) : (EGraph.setTermsNotEqual ω fuel g a b p).Ok (Wf n) :=
  Wf.process ω fuel (h.push ⟨ha, hb⟩)

theorem Wf.insertClause (ω : HashOrder) (fuel : Nat) (h : Wf n g) (ls : List Literal) (step : Nat) :
    (EGraph.insertClause ω fuel g ls step).Ok WfAny := by
  have gen : (do
      let (ids, g) ← EGraph.litIds ω fuel ls g
      match GClause.new ids with
      | .tt => EGraph.process ω fuel g
      | .ff => EGraph.process ω fuel { g with contra := true }
      | .clause c => EGraph.process ω fuel (g.push (.clause c)) : Out EGraph).Ok WfAny := by
    refine Out.Ok.bind (Wf.litIds ω fuel ls h) ?_
    rintro ⟨ids, g1⟩ ⟨m, hm, w, hr⟩
    simp only
    split
    · exact (w.process ω fuel).mono fun _ h => ⟨m, h⟩
    · exact (w.contraTrue.process ω fuel).mono fun _ h => ⟨m, h⟩
    · rename_i c e
      exact ((w.push (op := .clause c) (hr.new e)).process ω fuel).mono fun _ h => ⟨m, h⟩
  match ls, gen with
  | [], gen => exact gen
  | [l], _ =>
    simp only [EGraph.insertClause]
    refine h.pair ω fuel l.left l.right (f := fun a b g =>
      if l.positive then EGraph.setTermsEqual ω fuel g a b step none
      else EGraph.setTermsNotEqual ω fuel g a b step) ?_
    intro m a b g1 hm w ha hb
    split
    · exact (w.setTermsEqual ω fuel ha hb _ _).mono fun _ h => ⟨m, h⟩
    · exact (w.setTermsNotEqual ω fuel ha hb _).mono fun _ h => ⟨m, h⟩
  | _ :: _ :: _, gen => exact gen

theorem Wf.evaluateLiteral (ω : HashOrder) (fuel : Nat) (h : Wf n g) (l : Literal) :
    (EGraph.evaluateLiteral ω fuel g l).Ok fun r => WfAny r.2 := by
  simp only [EGraph.evaluateLiteral]
  split
  · exact ⟨n, h⟩
  · refine h.pair ω fuel l.left l.right (f := fun a b g => do
      let ag ← Out.ofOption (g.group? a)
      let bg ← Out.ofOption (g.group? b)
      if ag = bg then return (some l.positive, g)
      else do
        let i ← Out.ofOption (g.info? ag)
        if i.ineqs.contains bg then return (some !l.positive, g) else return (none, g)) ?_
    intro m a b g1 hm w ha hb
    obtain ⟨ak, ai, a1, a2, _⟩ := w.group ha
    obtain ⟨bk, bi, b1, b2, _⟩ := w.group hb
    simp only [a1, b1]
    refine Out.Ok.bind (P := fun s => s = ak) rfl ?_
    rintro _ rfl
    refine Out.Ok.bind (P := fun s => s = bk) rfl ?_
    rintro _ rfl
    split
    · exact ⟨m, w⟩
    · simp only [a2]
      refine Out.Ok.bind (P := fun s => s = ai) rfl ?_
      rintro _ rfl
      split <;> exact ⟨m, w⟩

theorem Wf.clauseExists (ω : HashOrder) (fuel : Nat) (h : Wf n g) (ls : List Literal) :
    (EGraph.clauseExists ω fuel g ls).Ok fun r => WfAny r.2 := by
  simp only [EGraph.clauseExists]
  split
  · exact ⟨n, h⟩
  · split
    · exact ⟨n, h⟩
    · refine Out.Ok.bind (Wf.litIds ω fuel ls h) ?_
      rintro ⟨ids, g1⟩ ⟨m, hm, w, hr⟩
      simp only
      split <;> exact ⟨m, w⟩

theorem Wf.anyTrue (ω : HashOrder) (fuel : Nat) : ∀ (ls : List Literal) {g : EGraph}, WfAny g →
    (EGraph.anyTrue ω fuel ls g).Ok fun r => WfAny r.2 := by
  intro ls
  induction ls with
  | nil => intro g h; exact h
  | cons l ls ih =>
    intro g ⟨n, h⟩
    simp only [EGraph.anyTrue]
    refine Out.Ok.bind (h.evaluateLiteral ω fuel l) ?_
    rintro ⟨r, g1⟩ hw
    simp only
    split
    · exact hw
    · exact ih hw

theorem Wf.checkClause (ω : HashOrder) (fuel : Nat) (h : Wf n g) (ls : List Literal) :
    (EGraph.checkClause ω fuel g ls).Ok fun r => WfAny r.2 := by
  simp only [EGraph.checkClause]
  split
  · exact ⟨n, h⟩
  · refine Out.Ok.bind (Wf.anyTrue ω fuel ls ⟨n, h⟩) ?_
    rintro ⟨b, g1⟩ ⟨m, w⟩
    simp only
    split
    · exact ⟨m, w⟩
    · exact w.clauseExists ω fuel ls

end EGraph
end Acorn
