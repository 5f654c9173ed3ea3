/-
Closure under congruence is kept by every operation of the equality graph.
-/
import Verif.Lemmas.EGraphCong
namespace Acorn
namespace EGraph

variable {g g' : EGraph} {n : Nat}

/-- Embedded equations are known in both orientations, up to a relation, with exceptions. -/
def Swapped (E : Nat → Nat → Prop) (X : Nat → Prop) (g : EGraph) : Prop :=
  ∀ id t s, ¬ X id → g.term? id = some t → swappedEq t = some s → ∃ sid, g.term? sid = some s ∧ E id sid

/-- Closure under congruence, taking into account the waiting equalities. -/
def Clo (X : Nat → Prop) (g : EGraph) : Prop :=
  ∀ E, Eqv E → Covers E g → Cong E g ∧ Swapped E X g

/-- Terms are stored once. -/
structure Hc (g : EGraph) : Prop where
  atomic : ∀ a id, g.decomps.get? (.atomic a) = some id → g.decomp? id = some (.atomic a)
  app : ∀ f a id, g.decomps.get? (.application f a) = some id → g.decomp? id = some (.application f a)
  opq : ∀ t id, g.opaques.get? t = some id → g.decomp? id = some .opaque ∧ g.term? id = some t
  atomTerm : ∀ a id, g.decomp? id = some (.atomic a) →
    g.term? id = some (.atom a) ∧ g.decomps.get? (.atomic a) = some id
  appTerm : ∀ f a id, g.decomp? id = some (.application f a) → ∃ s t, g.term? f = some s ∧
    g.term? a = some t ∧ g.term? id = some (.app s t) ∧ g.decomps.get? (.application f a) = some id
  opqTerm : ∀ id, g.decomp? id = some .opaque →
    ∃ k x y, g.term? id = some (.bind k x y) ∧ g.opaques.get? (.bind k x y) = some id

theorem Hc.same (h : Hc g) (h1 : ∀ t, g'.term? t = g.term? t) (h2 : ∀ t, g'.decomp? t = g.decomp? t)
    (h3 : g'.decomps = g.decomps) (h4 : g'.opaques = g.opaques) : Hc g' := by
  refine ⟨?_, ?_, ?_, ?_, ?_, ?_⟩
  · simp only [h2, h3]; exact h.atomic
  · simp only [h2, h3]; exact h.app
  · simp only [h1, h2, h4]; exact h.opq
  · simp only [h1, h2, h3]; exact h.atomTerm
  · simp only [h1, h2, h3]; exact h.appTerm
  · simp only [h1, h2, h4]; exact h.opqTerm

theorem decomp_of_term {id : Nat} {t : Term} (h : g.term? id = some t) : ∃ d, g.decomp? id = some d := by
  simp only [term?, Option.map_eq_some_iff] at h
  obtain ⟨ti, h, _⟩ := h
  exact ⟨ti.decomp, by simp [decomp?, h]⟩

/-- No term is stored twice. -/
theorem Hc.unique (h : Hc g) : ∀ (t : Term) {x y : Nat}, g.term? x = some t → g.term? y = some t → x = y := by
  intro t
  have kind : ∀ {z : Nat} {u : Term}, g.term? z = some u →
      (∃ a, u = .atom a ∧ g.decomps.get? (.atomic a) = some z) ∨
      (∃ f a s s', u = .app s s' ∧ g.term? f = some s ∧ g.term? a = some s' ∧
        g.decomps.get? (.application f a) = some z) ∨
      (∃ k p q, u = .bind k p q ∧ g.opaques.get? (.bind k p q) = some z) := by
    intro z u hz
    obtain ⟨d, hd⟩ := decomp_of_term hz
    cases d with
    | atomic a =>
      obtain ⟨h1, h2⟩ := h.atomTerm a z hd
      rw [hz] at h1; cases h1
      exact Or.inl ⟨a, rfl, h2⟩
    | application f a =>
      obtain ⟨s, s', h1, h2, h3, h4⟩ := h.appTerm f a z hd
      rw [hz] at h3; cases h3
      exact Or.inr (Or.inl ⟨f, a, s, s', rfl, h1, h2, h4⟩)
    | «opaque» =>
      obtain ⟨k, p, q, h1, h2⟩ := h.opqTerm z hd
      rw [hz] at h1; cases h1
      exact Or.inr (Or.inr ⟨k, p, q, rfl, h2⟩)
  induction t with
  | atom a =>
    intro x y hx hy
    rcases kind hx with ⟨a1, e1, p1⟩ | ⟨_, _, _, _, e1, _⟩ | ⟨_, _, _, e1, _⟩ <;> cases e1
    rcases kind hy with ⟨a1, e1, p2⟩ | ⟨_, _, _, _, e1, _⟩ | ⟨_, _, _, e1, _⟩ <;> cases e1
    rw [p1] at p2; cases p2; rfl
  | bind k p q =>
    intro x y hx hy
    rcases kind hx with ⟨a1, e1, p1⟩ | ⟨_, _, _, _, e1, _⟩ | ⟨_, _, _, e1, p1⟩ <;> cases e1
    rcases kind hy with ⟨a1, e1, p2⟩ | ⟨_, _, _, _, e1, _⟩ | ⟨_, _, _, e1, p2⟩ <;> cases e1
    rw [p1] at p2; cases p2; rfl
  | app f a ihf iha =>
    intro x y hx hy
    rcases kind hx with ⟨a1, e1, p1⟩ | ⟨f1, a1, _, _, e1, p1, p2, p3⟩ | ⟨_, _, _, e1, p1⟩ <;> cases e1
    rcases kind hy with ⟨a1, e1, p2⟩ | ⟨f2, a2, _, _, e1, q1, q2, q3⟩ | ⟨_, _, _, e1, p2⟩ <;> cases e1
    rw [ihf q1 p1, iha q2 p2, p3] at q3
    cases q3; rfl

/-- Two terms in groups known to be different. -/
def Apart (g : EGraph) (x y : Nat) : Prop :=
  ∃ k l, g.group? x = some k ∧ g.group? y = some l ∧ Has g k l

/-- Known terms stay known, with the same ids, and merged terms stay merged. -/
structure Grow (g g' : EGraph) : Prop where
  term : ∀ x s, g.term? x = some s → g'.term? x = some s
  same : ∀ x y, Same g x y → Same g' x y
  apart : ∀ x y, Apart g x y → g'.contra = true ∨ Apart g' x y
  contra : g.contra = true → g'.contra = true

theorem Grow.refl (g : EGraph) : Grow g g := ⟨fun _ _ h => h, fun _ _ h => h, fun _ _ h => Or.inr h, fun h => h⟩

theorem Grow.trans {a b c : EGraph} (h : Grow a b) (h' : Grow b c) : Grow a c :=
  ⟨fun x s e => h'.term x s (h.term x s e), fun x y e => h'.same x y (h.same x y e),
    fun x y e => (h.apart x y e).elim (fun hc => Or.inl (h'.contra hc)) (h'.apart x y),
    fun e => h'.contra (h.contra e)⟩

/-- Changes that keep the terms, with the groups and disequalities. -/
theorem Grow.frame (ht : g'.terms = g.terms) (hh : ∀ a b, Has g a b → Has g' a b)
    (hc : g.contra = true → g'.contra = true) : Grow g g' where
  term x s h := by simpa only [term?, ht] using h
  same x y h := by simpa only [Same, group?, ht] using h
  apart x y h := by
    obtain ⟨k, l, h1, h2, h3⟩ := h
    exact Or.inr ⟨k, l, by simpa only [group?, ht] using h1, by simpa only [group?, ht] using h2, hh _ _ h3⟩
  contra := hc

/-- One step of processing. -/
structure Step (g g' : EGraph) : Prop where
  term : ∀ t, g'.term? t = g.term? t
  decomp : ∀ t, g'.decomp? t = g.decomp? t
  decomps : g'.decomps = g.decomps
  opaques : g'.opaques = g.opaques
  same : ∀ x y, Same g x y → Same g' x y
  apart : ∀ x y, Apart g x y → g'.contra = true ∨ Apart g' x y
  contra : g.contra = true → g'.contra = true
  pend : ∀ op ∈ g.pending, op ∈ g'.pending
  cong : ∀ E, Eqv E → Cong E g → Covers E g' → Cong E g'

theorem Step.trans {a b c : EGraph} (h : Step a b) (h' : Step b c) : Step a c where
  term t := (h'.term t).trans (h.term t)
  decomp t := (h'.decomp t).trans (h.decomp t)
  decomps := h'.decomps.trans h.decomps
  opaques := h'.opaques.trans h.opaques
  same x y e := h'.same x y (h.same x y e)
  apart x y e := (h.apart x y e).elim (fun hc => Or.inl (h'.contra hc)) (h'.apart x y)
  contra e := h'.contra (h.contra e)
  pend op e := h'.pend op (h.pend op e)
  cong E hE hc hv := h'.cong E hE (h.cong E hE hc
    ⟨fun x y e => hv.same x y (h'.same x y e), fun op hop x y e => hv.pend op (h'.pend op hop) x y e⟩) hv

/-- Changes that leave the table alone. -/
theorem Step.frame (ht : g'.terms = g.terms) (ha : g'.apps = g.apps) (hm : g'.appMap = g.appMap)
    (hd : g'.decomps = g.decomps) (ho : g'.opaques = g.opaques)
    (hp : ∀ op ∈ g.pending, op ∈ g'.pending) (hl : ∀ k j, Lists g k j → Lists g' k j)
    (hh : ∀ a b, Has g a b → Has g' a b) (hc : g.contra = true → g'.contra = true) : Step g g' where
  term t := by simp only [term?, ht]
  decomp t := by simp only [decomp?, ht]
  decomps := hd
  opaques := ho
  same := (Grow.frame ht hh hc).same
  apart := (Grow.frame ht hh hc).apart
  contra := hc
  pend := hp
  cong E _ hc _ := hc.same (fun t => by simp only [group?, ht]) (fun t => by simp only [decomp?, ht]) ha hm hl

theorem Step.quiet (q : Quiet g g') : Step g g' :=
  .frame q.terms q.apps q.appMap q.decomps q.opaques (fun op h => by rw [q.pending]; exact h)
    (fun k j ⟨i, h1, h2⟩ => ⟨i, by rw [q.info]; exact h1, h2⟩)
    (fun a b ⟨i, h1, h2⟩ => ⟨i, by rw [q.info]; exact h1, h2⟩) (fun h => by rw [q.contra]; exact h)

theorem Step.refl (g : EGraph) : Step g g :=
  .frame rfl rfl rfl rfl rfl (fun _ h => h) (fun _ _ h => h) (fun _ _ h => h) (by first | exact fun h => h | exact fun _ => rfl)

/-! ### Contradictions found in a merge -/

theorem rekeyApps_contra {old new : Nat} : ∀ (is keep : List Nat) {g : EGraph} {r : List Nat × EGraph},
    rekeyApps old new is keep g = some r → r.2.contra = g.contra := by
  intro is
  induction is with
  | nil => intro keep g r e; cases e; rfl
  | cons i is ih =>
    intro keep g r e
    simp only [rekeyApps] at e
    split at e
    · cases e
    · exact ih _ e
    · split at e
      · exact (ih _ e).trans rfl
      · exact (ih _ e).trans rfl

theorem rekeyIneqs_contra {old new : Nat} : ∀ (us : List Nat) (disc : List (Nat × Nat)) {g : EGraph}
    {r : List (Nat × Nat) × EGraph}, rekeyIneqs old new us disc g = some r →
    (g.contra = true ∨ new ∈ us) → r.2.contra = true := by
  intro us
  induction us with
  | nil =>
    intro disc g r e h
    cases e
    rcases h with h | h
    · exact h
    · cases h
  | cons u us ih =>
    intro disc g r e h
    simp only [rekeyIneqs, Option.bind_eq_bind, Option.bind_eq_some_iff] at e
    obtain ⟨i, _, v, _, e⟩ := e
    split at e
    · exact ih _ e (Or.inl rfl)
    · rename_i hu
      have h' : g.contra = true ∨ new ∈ us := by
        rcases h with h | h
        · exact Or.inl h
        · rcases List.mem_cons.1 h with h | h
          · exact absurd h.symm hu
          · exact Or.inr h
      split at e
      · exact ih _ e h'
      · exact ih _ e h'

theorem handleAll_contra (ω : HashOrder) : ∀ (ps : List (Nat × Nat)) (g : EGraph),
    (handleAll ω ps g).contra = g.contra := by
  intro ps
  induction ps with
  | nil => intro g; rfl
  | cons p ps ih => intro g; exact (ih (g.handleInequality ω p.1 p.2)).trans rfl

theorem reverseIneqs_contra {new : Nat} {m : AMap Nat (Nat × Nat × Nat)} :
    ∀ (ks : List Nat) (acc : List (Nat × Nat)) (g : EGraph),
    (reverseIneqs new m ks acc g).2.contra = g.contra := by
  intro ks
  induction ks with
  | nil => intro acc g; rfl
  | cons k ks ih =>
    intro acc g
    simp only [reverseIneqs]
    split
    · split
      · exact ih _ _
      · exact (ih _ _).trans rfl
    · exact ih _ _

theorem migrate_contra {old new : Nat} : ∀ (cs : List GClause) (g : EGraph), g.contra = true →
    (migrate old new cs g).contra = true := by
  intro cs
  induction cs with
  | nil => intro g h; exact h
  | cons c cs ih =>
    intro g h
    simp only [migrate]
    split
    · exact ih g h
    · exact ih _ rfl
    · exact ih _ h

theorem remapGroup_contra {ω : HashOrder} {ot old nt new : Nat} {src : Option RewriteSource}
    {oi : GroupInfo} (ho : g.info? old = some oi) (e : g.remapGroup ω ot old nt new src = some g')
    (h : g.contra = true ∨ oi.ineqs.contains new = true) : g'.contra = true := by
  simp only [EGraph.remapGroup, Option.bind_eq_bind, ho, Option.bind_some, Option.bind_eq_some_iff,
    Prod.exists] at e
  obtain ⟨keep, g2, e2, disc, g3, e3, ni, hn, e⟩ := e
  have c2 : g2.contra = g.contra := rekeyApps_contra _ _ e2
  have c3 : g3.contra = true := by
    refine rekeyIneqs_contra _ _ e3 ?_
    rcases h with h | h
    · exact Or.inl (c2.trans h)
    · refine Or.inr ((ω.keys_perm _).mem_iff.2 ?_)
      rw [AMap.mem_keys]; exact AMap.contains_iff.1 h
  cases e
  refine migrate_contra _ _ ?_
  show (handleAll ω _ _).contra = true
  rw [handleAll_contra, reverseIneqs_contra]
  show (handleAll ω disc g3).contra = true
  rw [handleAll_contra]; exact c3

theorem Step.merged {old new : Nat} {oi ni : GroupInfo} {keep : List Nat} {g2 : EGraph} (hw : Wf n g)
    (ho : g.info? old = some oi) (hn : g.info? new = some ni) (hne : old ≠ new)
    (m : Merged g old new oi ni keep g2 g')
    (hcon : g.contra = true ∨ oi.ineqs.contains new = true → g'.contra = true) : Step g g' where
  term := m.term
  decomp := m.decomp
  decomps := m.decomps
  opaques := m.opaques
  same x y := by
    rintro ⟨k, h1, h2⟩
    exact ⟨_, by rw [m.group, h1]; rfl, by rw [m.group, h2]; rfl⟩
  apart x y := by
    rintro ⟨k, l, h1, h2, h3⟩
    obtain ⟨h4, h5⟩ := hw.grp.sym _ _ h3
    by_cases hkl : (k = old ∧ l = new) ∨ (k = new ∧ l = old)
    · left
      refine hcon (Or.inr ?_)
      rcases hkl with ⟨rfl, rfl⟩ | ⟨rfl, rfl⟩
      · exact (has_some ho _).1 h3
      · exact (has_some ho _).1 h4
    · right
      refine ⟨_, _, by rw [m.group, h1]; rfl, by rw [m.group, h2]; rfl, ?_⟩
      rw [m.has]
      dsimp only
      by_cases hk : k = old
      · subst hk
        have hl : l ≠ k := Ne.symm h5
        have hln : l ≠ new := fun h => hkl (Or.inl ⟨rfl, h⟩)
        rw [if_pos rfl, if_neg hl]
        exact ⟨Ne.symm hne, hl, Or.inr (Or.inl ⟨rfl, hln, h3⟩)⟩
      · rw [if_neg hk]
        by_cases hl : l = old
        · subst hl
          have hkn : k ≠ new := fun h => hkl (Or.inr ⟨h, rfl⟩)
          rw [if_pos rfl]
          exact ⟨hk, Ne.symm hne, Or.inr (Or.inr ⟨rfl, hkn, h3⟩)⟩
        · rw [if_neg hl]
          exact ⟨hk, hl, Or.inl h3⟩
  contra h := hcon (Or.inl h)
  pend op hop := m.pending op (rekeyApps_pending _ _ m.rekey op hop)
  cong E hE hc hv := hc.merge hE hw ho hn hne m hv.pend

theorem Step.setEqualOnce (ω : HashOrder) (h : Wf n g) {t1 t2 : Nat} (h1 : t1 < n) (h2 : t2 < n)
    {src : Option RewriteSource} (e : g.setEqualOnce ω t1 t2 src = some g') :
    Step g g' ∧ Same g' t1 t2 := by
  obtain ⟨k1, i1, a1, b1, _⟩ := h.group h1
  obtain ⟨k2, i2, a2, b2, _⟩ := h.group h2
  simp only [EGraph.setEqualOnce, Option.bind_eq_bind, a1, a2, Option.bind_some] at e
  by_cases hk : k1 = k2
  · rw [if_pos hk] at e
    cases e
    exact ⟨.refl g, k1, a1, hk ▸ a2⟩
  · rw [if_neg hk] at e
    simp only [b1, b2, Option.bind_some] at e
    split at e
    · obtain ⟨_, _, g1, e1, _, m⟩ := h.remapGroup ω (ot := t1) (nt := t2) (src := src) b1 b2 hk
      rw [e1] at e; cases e
      exact ⟨.merged h b1 b2 hk m (remapGroup_contra b1 e1), k2, by rw [m.group, a1]; simp, by
        rw [m.group, a2]; simp [Ne.symm hk]⟩
    · obtain ⟨_, _, g1, e1, _, m⟩ := h.remapGroup ω (ot := t2) (nt := t1) (src := src) b2 b1 (Ne.symm hk)
      rw [e1] at e; cases e
      exact ⟨.merged h b2 b1 (Ne.symm hk) m (remapGroup_contra b2 e1), k1, by rw [m.group, a1]; simp [hk], by rw [m.group, a2]; simp⟩

theorem lists_setInfo {k : Nat} {i i' : GroupInfo} (h : g.info? k = some i) (ha : i'.apps = i.apps) (x j : Nat)
    (hl : Lists g x j) : Lists (g.setInfo k i') x j := by
  obtain ⟨i0, h1, h2⟩ := hl
  simp only [Lists]
  rw [info?_setInfo (info?_lt h)]
  by_cases hx : x = k
  · rw [if_pos hx]
    subst hx
    rw [h] at h1; cases h1
    exact ⟨i', rfl, ha ▸ h2⟩
  · rw [if_neg hx]; exact ⟨i0, h1, h2⟩

theorem has_insert {k x : Nat} {i : GroupInfo} {v : Nat × Nat × Nat} (h : g.info? k = some i) :
    Has (g.setInfo k { i with ineqs := i.ineqs.insert x v }) k x ∧
    ∀ a b, Has g a b → Has (g.setInfo k { i with ineqs := i.ineqs.insert x v }) a b := by
  constructor
  · rw [has_setInfo (info?_lt h), if_pos rfl, contains_insert']; exact Or.inl rfl
  · intro a b hab
    rw [has_setInfo (info?_lt h)]
    by_cases ha : a = k
    · subst ha
      rw [if_pos rfl, contains_insert']; exact Or.inr ((has_some h b).1 hab)
    · rw [if_neg ha]; exact hab

theorem Step.setNotEqualOnce (ω : HashOrder) {t1 t2 step : Nat}
    (e : g.setNotEqualOnce ω t1 t2 step = some g') :
    Step g g' ∧ (g'.contra = true ∨ Apart g' t1 t2) := by
  simp only [EGraph.setNotEqualOnce, Option.bind_eq_bind, Option.bind_eq_some_iff] at e
  obtain ⟨k1, a1, k2, a2, e⟩ := e
  by_cases hk : k1 = k2
  · rw [if_pos hk] at e
    cases e
    exact ⟨.frame rfl rfl rfl rfl rfl (fun _ h => h) (fun _ _ h => h) (fun _ _ h => h) (fun _ => rfl),
      Or.inl rfl⟩
  · rw [if_neg hk] at e
    simp only [Option.bind_eq_some_iff] at e
    obtain ⟨i1, b1, i2, b2, e⟩ := e
    split at e
    · rename_i hc
      cases e; exact ⟨.refl g, Or.inr ⟨k1, k2, a1, a2, i1, b1, hc⟩⟩
    · simp only [Option.bind_eq_some_iff] at e
      obtain ⟨i3, b3, e⟩ := e
      split at e
      · cases e
      · cases e
        have q1 := has_insert (x := k2) (v := (t1, t2, step)) b1
        have q2 := has_insert (x := k1) (v := (t1, t2, step)) b3
        refine ⟨.frame rfl rfl rfl rfl rfl (fun op h => ?_) (fun k j h => ?_) (fun a b h => ?_)
          (fun h => h), Or.inr ⟨k1, k2, a1, a2, ?_⟩⟩
        · exact (mem_foldl_push _ _).2 (Or.inr h)
        · have h1 := lists_setInfo (i' := { i1 with ineqs := i1.ineqs.insert k2 (t1, t2, step) }) b1 rfl k j h
          have h2 := lists_setInfo (i' := { i3 with ineqs := i3.ineqs.insert k1 (t1, t2, step) }) b3 rfl k j h1
          exact h2
        · exact q2.2 a b (q1.2 a b h)
        · exact q2.2 _ _ q1.1

theorem Step.resolveAll {c : GClause} : ∀ (is : List Nat) (g : EGraph), Step g (EGraph.resolveAll c is g) := by
  intro is
  induction is with
  | nil => intro g; exact .refl g
  | cons i is ih =>
    intro g
    simp only [EGraph.resolveAll]
    split
    · split
      · exact ih g
      · exact (Step.frame rfl rfl rfl rfl rfl (fun _ h => h) (fun _ _ h => h) (fun _ _ h => h) (fun _ => rfl) :
          Step g { g with contra := true }).trans (ih _)
      · split
        · exact ih g
        · refine (Step.frame rfl rfl rfl rfl rfl (fun _ h => ?_) (fun _ _ h => h) (fun _ _ h => h) (fun h => h) :
            Step g (g.push _)).trans (ih _)
          exact List.mem_cons_of_mem _ h
    · exact ih g

theorem Step.storeClause (ls : List GLit) (g : EGraph) : Step g (EGraph.storeClause ls g) := by
  simp only [EGraph.storeClause]
  split
  · exact .refl g
  · exact .frame rfl rfl rfl rfl rfl (fun _ h => h) (fun _ _ h => h) (fun _ _ h => h) (by first | exact fun h => h | exact fun _ => rfl)
  · split
    · exact .refl g
    · rename_i c _ _
      exact (Step.frame rfl rfl rfl rfl rfl (fun _ h => h) (fun _ _ h => h) (fun _ _ h => h) (fun h => h) :
        Step g { g with cset := g.cset.insert c }).trans (Step.resolveAll _ _)

theorem Step.insertClauseNormalized (h : Wf n g) {c : GClause} (hc : ClauseR n c)
    (e : g.insertClauseNormalized c = some g') : Step g g' := by
  obtain ⟨r, g1, e1, w, q, hr⟩ := Wf.reduceLits c [] h hc (by intro l hl; cases hl)
  simp only [EGraph.insertClauseNormalized, Option.bind_eq_bind, e1, Option.bind_some] at e
  refine (Step.quiet q).trans ?_
  match r, hr, e with
  | none, _, e => cases e; exact .refl _
  | some [], _, e => cases e; exact .frame rfl rfl rfl rfl rfl (fun _ h => h) (fun _ _ h => h) (fun _ _ h => h) (by first | exact fun h => h | exact fun _ => rfl)
  | some [l], hr, e =>
    obtain ⟨l1, l2⟩ := hr _ rfl l List.mem_cons_self
    obtain ⟨a, ga, ea, wa, ⟨i1, hi1⟩, qa⟩ := w.updateGroup' l1
    obtain ⟨b, gb, eb, wb, ⟨i2, hi2⟩, qb⟩ := wa.updateGroup' l2
    have hia : gb.info? a = some i1 := by rw [qb.info]; exact hi1
    simp only [ea, eb, hia, hi2, Option.bind_some] at e
    refine ((Step.quiet qa).trans (Step.quiet qb)).trans ?_
    split at e
    · split at e
      · cases e
        exact .frame rfl rfl rfl rfl rfl (fun _ h => List.mem_cons_of_mem _ h) (fun _ _ h => h) (fun _ _ h => h) (fun h => h)
      · cases e
        exact .frame rfl rfl rfl rfl rfl (fun _ h => List.mem_cons_of_mem _ h) (fun _ _ h => h) (fun _ _ h => h) (fun h => h)
    · cases e; exact .storeClause _ _
  | some (l :: m :: ls), hr, e => cases e; exact .storeClause _ _

theorem Step.exec (ω : HashOrder) (h : Wf n g) {op : Op} (ho : OpR n op) (e : exec ω op g = some g') :
    Step g g' ∧ (∀ x y, opPair op = some (x, y) → Same g' x y) ∧
      (∀ x y s, op = .neq x y s → g'.contra = true ∨ Apart g' x y) := by
  cases op with
  | rewrite s =>
    obtain ⟨h1, h2⟩ := Step.setEqualOnce ω h ho.1 ho.2 e
    exact ⟨h1, fun x y e => (by cases e; exact h2), fun x y s e => (by cases e)⟩
  | eq a b =>
    obtain ⟨h1, h2⟩ := Step.setEqualOnce ω h ho.1 ho.2 e
    exact ⟨h1, fun x y e => (by cases e; exact h2), fun x y s e => (by cases e)⟩
  | neq a b step =>
    obtain ⟨h1, h2⟩ := Step.setNotEqualOnce ω e
    exact ⟨h1, fun x y e => (by cases e), fun x y s e => (by cases e; exact h2)⟩
  | clause c => exact ⟨Step.insertClauseNormalized h ho e, fun x y e => (by cases e), fun x y s e => (by cases e)⟩

theorem Swapped.same {E : Nat → Nat → Prop} {X : Nat → Prop} (h : Swapped E X g)
    (ht : ∀ t, g'.term? t = g.term? t) : Swapped E X g' := by
  intro id t s hX h1 h2
  rw [ht] at h1
  obtain ⟨sid, h3, h4⟩ := h id t s hX h1 h2
  exact ⟨sid, by rw [ht]; exact h3, h4⟩

/-- The graph is well formed, stores terms once, and is closed unless it is contradictory. -/
structure Good (X : Nat → Prop) (n : Nat) (g : EGraph) : Prop where
  wf : Wf n g
  hc : Hc g
  clo : g.contra = true ∨ Clo X g

/-- An operation has taken effect. -/
def Settled (g : EGraph) (op : Op) : Prop :=
  (∀ x y, opPair op = some (x, y) → Same g x y) ∧ ∀ x y s, op = .neq x y s → Apart g x y

theorem Grow.settled (G : Grow g g') {op : Op} (h : g.contra = true ∨ Settled g op) :
    g'.contra = true ∨ Settled g' op := by
  rcases h with h | ⟨h1, h2⟩
  · exact Or.inl (G.contra h)
  · cases op with
    | rewrite s => exact Or.inr ⟨fun x y e => G.same x y (h1 x y e), fun x y s e => by cases e⟩
    | eq a b => exact Or.inr ⟨fun x y e => G.same x y (h1 x y e), fun x y s e => by cases e⟩
    | neq a b s =>
      rcases G.apart a b (h2 a b s rfl) with h | h
      · exact Or.inl h
      · exact Or.inr ⟨fun x y e => (by cases e), fun x y s e => (by cases e; exact h)⟩
    | clause c => exact Or.inr ⟨fun x y e => (by cases e), fun x y s e => (by cases e)⟩

theorem Good.process (ω : HashOrder) {X : Nat → Prop} : ∀ (fuel : Nat) {g : EGraph}, Good X n g →
    (process ω fuel g).Ok fun g' => Good X n g' ∧ Grow g g' ∧ (g'.contra = true ∨ g'.pending = []) ∧
      ∀ op ∈ g.pending, g'.contra = true ∨ Settled g' op := by
  intro fuel
  induction fuel with
  | zero =>
    intro g h
    rw [EGraph.process]
    split
    · rename_i hp; exact ⟨h, .refl g, Or.inr hp, by rw [hp]; simp⟩
    · rename_i op rest e
      dsimp only
      split
      · rename_i hc
        refine ⟨⟨?_, h.hc.same (fun _ => rfl) (fun _ => rfl) rfl rfl, Or.inl hc⟩, .frame rfl (fun _ _ h => h) (fun h => h), Or.inl hc, fun _ _ => Or.inl hc⟩
        exact h.wf.same rfl rfl rfl rfl rfl rfl h.wf.cs
          (fun op hop => h.wf.app.pending op (e ▸ List.mem_cons_of_mem _ hop))
      · trivial
  | succ fuel ih =>
    intro g h
    rw [EGraph.process]
    split
    · rename_i hp; exact ⟨h, .refl g, Or.inr hp, by rw [hp]; simp⟩
    · rename_i op rest e
      dsimp only
      have h' : Wf n { g with pending := rest } :=
        h.wf.same rfl rfl rfl rfl rfl rfl h.wf.cs
          (fun op hop => h.wf.app.pending op (e ▸ List.mem_cons_of_mem _ hop))
      split
      · rename_i hc
        exact ⟨⟨h', h.hc.same (fun _ => rfl) (fun _ => rfl) rfl rfl, Or.inl hc⟩, .frame rfl (fun _ _ h => h) (fun h => h), Or.inl hc, fun _ _ => Or.inl hc⟩
      · rename_i hc
        have ho : OpR n op := h.wf.app.pending op (e ▸ List.mem_cons_self)
        obtain ⟨g1, e1, w⟩ := h'.exec ω ho
        obtain ⟨s, hp, hq⟩ := Step.exec ω h' ho e1
        rw [e1]
        have hclo : Clo X g := h.clo.resolve_left hc
        have c1 : Clo X g1 := by
          intro E hE hv
          have hv0 : Covers E g := by
            refine ⟨fun x y hs => hv.same x y (s.same x y hs), fun op' hop x y hxy => ?_⟩
            rw [e] at hop
            rcases List.mem_cons.1 hop with rfl | hop
            · exact hv.same x y (hp x y hxy)
            · exact hv.pend op' (s.pend op' hop) x y hxy
          obtain ⟨c, sw⟩ := hclo E hE hv0
          refine ⟨s.cong E hE ?_ hv, ?_⟩
          · exact c.same (fun _ => rfl) (fun _ => rfl) rfl rfl (fun _ _ h => h)
          · exact sw.same s.term
        have hg1 : Good X n g1 := ⟨w, h.hc.same s.term s.decomp s.decomps s.opaques, Or.inr c1⟩
        refine Out.Ok.mono (ih hg1) ?_
        rintro g2 ⟨i1, i2, i3, i4⟩
        refine ⟨i1, Grow.trans ⟨fun x t hx => ?_, s.same, s.apart, s.contra⟩ i2, i3, fun op' hop => ?_⟩
        · rw [s.term]; exact hx
        · rw [e] at hop
          rcases List.mem_cons.1 hop with rfl | hop
          · refine i2.settled ?_
            by_cases hc1 : g1.contra = true
            · exact Or.inl hc1
            · exact Or.inr ⟨hp, fun x y s e => (hq x y s e).resolve_left hc1⟩
          · exact i4 op' (s.pend op' hop)

/-! ### New terms -/

theorem term?_newTerm (t : Term) (d : GDecomp) (x : Nat) :
    (g.newTerm t d).2.term? x = if x = g.terms.length then some t else g.term? x := by
  simp only [term?, newTerm]
  rcases Nat.lt_trichotomy x g.terms.length with hlt | heq | hgt
  · rw [List.getElem?_append_left hlt, if_neg (by omega)]
  · subst heq; simp
  · rw [List.getElem?_eq_none (by simp; omega), List.getElem?_eq_none (by omega), if_neg (by omega)]

theorem decomp?_newTerm (t : Term) (d : GDecomp) (x : Nat) :
    (g.newTerm t d).2.decomp? x = if x = g.terms.length then some d else g.decomp? x := by
  simp only [decomp?, newTerm]
  rcases Nat.lt_trichotomy x g.terms.length with hlt | heq | hgt
  · rw [List.getElem?_append_left hlt, if_neg (by omega)]
  · subst heq; simp
  · rw [List.getElem?_eq_none (by simp; omega), List.getElem?_eq_none (by omega), if_neg (by omega)]

theorem group?_newTerm (t : Term) (d : GDecomp) (x : Nat) :
    (g.newTerm t d).2.group? x = if x = g.terms.length then some g.groups.length else g.group? x := by
  simp only [group?, newTerm]
  rcases Nat.lt_trichotomy x g.terms.length with hlt | heq | hgt
  · rw [List.getElem?_append_left hlt, if_neg (by omega)]
  · subst heq; simp
  · rw [List.getElem?_eq_none (by simp; omega), List.getElem?_eq_none (by omega), if_neg (by omega)]

theorem lt_of_term {x : Nat} {s : Term} (h : g.term? x = some s) : x < g.terms.length := by
  simp only [term?, Option.map_eq_some_iff] at h
  obtain ⟨_, h, _⟩ := h
  exact (List.getElem?_eq_some_iff.1 h).1

theorem lt_of_decomp {x : Nat} {s : GDecomp} (h : g.decomp? x = some s) : x < g.terms.length := by
  simp only [decomp?, Option.map_eq_some_iff] at h
  obtain ⟨_, h, _⟩ := h
  exact (List.getElem?_eq_some_iff.1 h).1

theorem lt_of_group {x : Nat} {s : Nat} (h : g.group? x = some s) : x < g.terms.length := by
  simp only [group?, Option.map_eq_some_iff] at h
  obtain ⟨_, h, _⟩ := h
  exact (List.getElem?_eq_some_iff.1 h).1

theorem Grow.newTerm (t : Term) (d : GDecomp) : Grow g (g.newTerm t d).2 := by
  refine ⟨fun x s h => ?_, fun x y ⟨k, h1, h2⟩ => ⟨k, ?_, ?_⟩,
    fun x y ⟨k, l, h1, h2, i, h3, h4⟩ => Or.inr ⟨k, l, ?_, ?_, i, ?_, h4⟩, fun h => h⟩
  · rw [term?_newTerm, if_neg (Nat.ne_of_lt (lt_of_term h))]; exact h
  · rw [group?_newTerm, if_neg (Nat.ne_of_lt (lt_of_group h1))]; exact h1
  · rw [group?_newTerm, if_neg (Nat.ne_of_lt (lt_of_group h2))]; exact h2
  · rw [group?_newTerm, if_neg (Nat.ne_of_lt (lt_of_group h1))]; exact h1
  · rw [group?_newTerm, if_neg (Nat.ne_of_lt (lt_of_group h2))]; exact h2
  · rw [info?_newTerm, if_neg (Nat.ne_of_lt (info?_lt h3))]; exact h3

/-- Closure apart from the new term. -/
theorem Cong.newTerm {E : Nat → Nat → Prop} (h : Cong E g) (t : Term) (d : GDecomp) :
    Table (g.newTerm t d).2 ∧ ∀ id f a, id ≠ g.terms.length →
      (g.newTerm t d).2.decomp? id = some (.application f a) → InTable E (g.newTerm t d).2 id f a := by
  have hl : ∀ k j, Lists g k j → Lists (g.newTerm t d).2 k j := by
    intro k j ⟨i, h1, h2⟩
    refine ⟨i, ?_, h2⟩
    rw [info?_newTerm, if_neg (Nat.ne_of_lt (info?_lt h1))]; exact h1
  refine ⟨⟨?_, h.table.back, h.table.inj⟩, ?_⟩
  · intro k r hk
    obtain ⟨j, h1, h2, h3⟩ := h.table.index k r hk
    exact ⟨j, h1, hl _ _ h2, hl _ _ h3⟩
  · intro id f a hne hd
    rw [decomp?_newTerm, if_neg hne] at hd
    obtain ⟨fk, ak, r, h1, h2, h3, h4⟩ := h.cong id f a hd
    refine ⟨fk, ak, r, ?_, ?_, h3, h4⟩
    · rw [group?_newTerm, if_neg (Nat.ne_of_lt (lt_of_group h1))]; exact h1
    · rw [group?_newTerm, if_neg (Nat.ne_of_lt (lt_of_group h2))]; exact h2

theorem Swapped.newTerm {E : Nat → Nat → Prop} {X Y : Nat → Prop} (h : Swapped E X g) (t : Term) (d : GDecomp)
    (hY : ∀ x, X x → Y x) (ht : Y g.terms.length ∨ swappedEq t = none) : Swapped E Y (g.newTerm t d).2 := by
  intro id u s hX h1 h2
  rw [term?_newTerm] at h1
  split at h1
  · rename_i he
    cases h1
    rcases ht with ht | ht
    · exact absurd (he ▸ ht) hX
    · rw [ht] at h2; cases h2
  · obtain ⟨sid, h3, h4⟩ := h id u s (fun hx => hX (hY _ hx)) h1 h2
    exact ⟨sid, (Grow.newTerm t d).term _ _ h3, h4⟩

theorem covers_newTerm {E : Nat → Nat → Prop} {t : Term} {d : GDecomp} (h : Covers E (g.newTerm t d).2) :
    Covers E g :=
  ⟨fun x y hs => h.same x y ((Grow.newTerm t d).same x y hs), h.pend⟩

/-- The result of inserting a term. -/
def InsC (X : Nat → Prop) (n : Nat) (g : EGraph) (t : Term) (r : Nat × EGraph) : Prop :=
  ∃ m, n ≤ m ∧ Good X m r.2 ∧ r.2.term? r.1 = some t ∧ Grow g r.2

theorem Good.insertAtom {X : Nat → Prop} (h : Good X n g) (a : Atom) :
    InsC X n g (.atom a) (g.insertAtom a) := by
  obtain ⟨m, hm, w, hid⟩ := h.wf.insertAtom a
  refine ⟨m, hm, ?_⟩
  revert w hid
  simp only [EGraph.insertAtom]
  split
  · rename_i id e
    intro w _
    exact ⟨⟨w, h.hc, h.clo⟩, (h.hc.atomTerm a id (h.hc.atomic a id e)).1, .refl g⟩
  · rename_i e
    intro w hid
    refine ⟨⟨w, ?_, ?_⟩, ?_, ?_⟩
    · have hlen : (g.newTerm (.atom a) (.atomic a)).1 = g.terms.length := rfl
      refine ⟨?_, ?_, ?_, ?_, ?_, ?_⟩
      · intro b id hb
        have hb : (g.decomps.insert (.atomic a) g.terms.length).get? (.atomic b) = some id := hb
        show (g.newTerm (.atom a) (.atomic a)).2.decomp? id = _
        rw [AMap.get?_insert] at hb
        rw [decomp?_newTerm]
        split at hb
        · rename_i hab; cases hb; rw [if_pos rfl, hab]
        · have := h.hc.atomic b id hb
          rw [if_neg (Nat.ne_of_lt (lt_of_decomp this))]; exact this
      · intro f x id hb
        have hb : (g.decomps.insert (.atomic a) g.terms.length).get? (.application f x) = some id := hb
        show (g.newTerm (.atom a) (.atomic a)).2.decomp? id = _
        rw [AMap.get?_insert, if_neg (by simp)] at hb
        have := h.hc.app f x id hb
        rw [decomp?_newTerm, if_neg (Nat.ne_of_lt (lt_of_decomp this))]; exact this
      · intro t id ht
        obtain ⟨h1, h2⟩ := h.hc.opq t id ht
        show (g.newTerm (.atom a) (.atomic a)).2.decomp? id = _ ∧ (g.newTerm (.atom a) (.atomic a)).2.term? id = _
        rw [decomp?_newTerm, term?_newTerm, if_neg (Nat.ne_of_lt (lt_of_decomp h1)),
          if_neg (Nat.ne_of_lt (lt_of_decomp h1))]
        exact ⟨h1, h2⟩
      · intro b id hd
        have hd : (g.newTerm (.atom a) (.atomic a)).2.decomp? id = some (.atomic b) := hd
        show (g.newTerm (.atom a) (.atomic a)).2.term? id = _ ∧
          (g.decomps.insert (.atomic a) g.terms.length).get? (.atomic b) = some id
        rw [decomp?_newTerm] at hd
        rw [term?_newTerm, AMap.get?_insert]
        split at hd
        · rename_i hi; cases hd; simp [hi]
        · rename_i hi
          obtain ⟨h1, h2⟩ := h.hc.atomTerm b id hd
          have : GDecomp.atomic b ≠ .atomic a := by
            intro hh; rw [hh, e] at h2; cases h2
          rw [if_neg hi, if_neg this]; exact ⟨h1, h2⟩
      · intro f x id hd
        have hd : (g.newTerm (.atom a) (.atomic a)).2.decomp? id = some (.application f x) := hd
        rw [decomp?_newTerm] at hd
        split at hd
        · cases hd
        · rename_i hi
          obtain ⟨s, t, h1, h2, h3, h4⟩ := h.hc.appTerm f x id hd
          refine ⟨s, t, (Grow.newTerm _ _).term _ _ h1, (Grow.newTerm _ _).term _ _ h2,
            (Grow.newTerm _ _).term _ _ h3, ?_⟩
          show (g.decomps.insert (.atomic a) g.terms.length).get? (.application f x) = some id
          rw [AMap.get?_insert, if_neg (by simp)]; exact h4
      · intro id hd
        have hd : (g.newTerm (.atom a) (.atomic a)).2.decomp? id = some .opaque := hd
        rw [decomp?_newTerm] at hd
        split at hd
        · cases hd
        · obtain ⟨k, x, y, h1, h2⟩ := h.hc.opqTerm id hd
          exact ⟨k, x, y, (Grow.newTerm _ _).term _ _ h1, h2⟩
    · rcases h.clo with hc | hc
      · exact Or.inl hc
      · refine Or.inr fun E hE hv => ?_
        have hv' : Covers E (g.newTerm (.atom a) (.atomic a)).2 := ⟨hv.same, hv.pend⟩
        obtain ⟨c, s⟩ := hc E hE (covers_newTerm hv')
        obtain ⟨c1, c2⟩ := c.newTerm (.atom a) (.atomic a)
        refine ⟨⟨⟨c1.index, c1.back, c1.inj⟩, ?_⟩, ?_⟩
        · intro id f x hd
          have hd : (g.newTerm (.atom a) (.atomic a)).2.decomp? id = some (.application f x) := hd
          refine c2 id f x ?_ hd
          rintro rfl
          rw [decomp?_newTerm, if_pos rfl] at hd; cases hd
        · exact (s.newTerm (.atom a) (.atomic a) (fun _ h => h) (Or.inr rfl)).same (fun _ => rfl)
    · show (g.newTerm (.atom a) (.atomic a)).2.term? g.terms.length = _
      rw [term?_newTerm, if_pos rfl]
    · have := Grow.newTerm (g := g) (.atom a) (.atomic a)
      exact ⟨this.term, this.same, this.apart, this.contra⟩

theorem Good.insertOpaque {X : Nat → Prop} (h : Good X n g) (k : Binder) (x y : Term) :
    InsC X n g (.bind k x y) (g.insertOpaque (.bind k x y)) := by
  obtain ⟨m, hm, w, hid⟩ := h.wf.insertOpaque (.bind k x y)
  refine ⟨m, hm, ?_⟩
  revert w hid
  simp only [EGraph.insertOpaque]
  split
  · rename_i id e
    intro w _
    exact ⟨⟨w, h.hc, h.clo⟩, (h.hc.opq _ id e).2, .refl g⟩
  · rename_i e
    intro w hid
    refine ⟨⟨w, ?_, ?_⟩, ?_, ?_⟩
    · refine ⟨?_, ?_, ?_, ?_, ?_, ?_⟩
      · intro b id hb
        have := h.hc.atomic b id hb
        show (g.newTerm _ .opaque).2.decomp? id = _
        rw [decomp?_newTerm, if_neg (Nat.ne_of_lt (lt_of_decomp this))]; exact this
      · intro f x id hb
        have := h.hc.app f x id hb
        show (g.newTerm _ .opaque).2.decomp? id = _
        rw [decomp?_newTerm, if_neg (Nat.ne_of_lt (lt_of_decomp this))]; exact this
      · intro t id ht
        have ht : (g.opaques.insert (.bind k x y) g.terms.length).get? t = some id := ht
        show (g.newTerm _ .opaque).2.decomp? id = _ ∧ (g.newTerm _ .opaque).2.term? id = _
        rw [AMap.get?_insert] at ht
        rw [decomp?_newTerm, term?_newTerm]
        split at ht
        · rename_i hab; cases ht; simp [hab]
        · obtain ⟨h1, h2⟩ := h.hc.opq t id ht
          rw [if_neg (Nat.ne_of_lt (lt_of_decomp h1)), if_neg (Nat.ne_of_lt (lt_of_decomp h1))]
          exact ⟨h1, h2⟩
      · intro b id hd
        have hd : (g.newTerm (.bind k x y) .opaque).2.decomp? id = some (.atomic b) := hd
        rw [decomp?_newTerm] at hd
        split at hd
        · cases hd
        · obtain ⟨h1, h2⟩ := h.hc.atomTerm b id hd
          exact ⟨(Grow.newTerm _ _).term _ _ h1, h2⟩
      · intro f z id hd
        have hd : (g.newTerm (.bind k x y) .opaque).2.decomp? id = some (.application f z) := hd
        rw [decomp?_newTerm] at hd
        split at hd
        · cases hd
        · rename_i hi
          obtain ⟨s, t, h1, h2, h3, h4⟩ := h.hc.appTerm f z id hd
          exact ⟨s, t, (Grow.newTerm _ _).term _ _ h1, (Grow.newTerm _ _).term _ _ h2,
            (Grow.newTerm _ _).term _ _ h3, h4⟩
      · intro id hd
        have hd : (g.newTerm (.bind k x y) .opaque).2.decomp? id = some .opaque := hd
        show ∃ k' x' y', (g.newTerm (.bind k x y) .opaque).2.term? id = some (.bind k' x' y') ∧
          (g.opaques.insert (.bind k x y) g.terms.length).get? (.bind k' x' y') = some id
        rw [decomp?_newTerm] at hd
        split at hd
        · rename_i hi
          exact ⟨k, x, y, by rw [term?_newTerm, if_pos hi], by rw [AMap.get?_insert, if_pos rfl, hi]⟩
        · rename_i hi
          obtain ⟨k', x', y', h1, h2⟩ := h.hc.opqTerm id hd
          refine ⟨k', x', y', (Grow.newTerm _ _).term _ _ h1, ?_⟩
          have : Term.bind k' x' y' ≠ .bind k x y := by
            intro hh; rw [hh, e] at h2; cases h2
          rw [AMap.get?_insert, if_neg this]; exact h2
    · rcases h.clo with hc | hc
      · exact Or.inl hc
      · refine Or.inr fun E hE hv => ?_
        have hv' : Covers E (g.newTerm (.bind k x y) .opaque).2 := ⟨hv.same, hv.pend⟩
        obtain ⟨c, s⟩ := hc E hE (covers_newTerm hv')
        obtain ⟨c1, c2⟩ := c.newTerm (.bind k x y) .opaque
        refine ⟨⟨⟨c1.index, c1.back, c1.inj⟩, ?_⟩, ?_⟩
        · intro id f z hd
          have hd : (g.newTerm (.bind k x y) .opaque).2.decomp? id = some (.application f z) := hd
          refine c2 id f z ?_ hd
          rintro rfl
          rw [decomp?_newTerm, if_pos rfl] at hd; cases hd
        · exact (s.newTerm (.bind k x y) .opaque (fun _ h => h) (Or.inr rfl)).same (fun _ => rfl)
    · show (g.newTerm (.bind k x y) .opaque).2.term? g.terms.length = _
      rw [term?_newTerm, if_pos rfl]
    · have := Grow.newTerm (g := g) (.bind k x y) .opaque
      exact ⟨this.term, this.same, this.apart, this.contra⟩

/-- Adding an application to the table. -/
theorem insertGroupApp_spec (h : Wf n g) {f a r : Nat} (hf : Live g f) (ha : Live g a) (hr : r < n)
    (e : g.insertGroupApp f a r = some g') :
    g'.terms = g.terms ∧ g'.decomps = g.decomps ∧ g'.opaques = g.opaques ∧ g'.contra = g.contra ∧
    (∀ op ∈ g.pending, op ∈ g'.pending) ∧ (∀ a b, Has g a b → Has g' a b) ∧
    ∀ E, Eqv E → Covers E g' → Table g → Table g' ∧ (∃ x, g'.appMap.get? (f, a) = some x ∧ E x r) ∧
      ∀ k x, g.appMap.get? k = some x → g'.appMap.get? k = some x := by
  obtain ⟨rk, ri, hrg, _, _⟩ := h.group hr
  simp only [EGraph.insertGroupApp, Option.bind_eq_bind, hrg, Option.bind_some] at e
  cases e1 : g.appMap.get? (f, a) with
  | some ex =>
    have hex := h.app.mapRes _ _ e1
    obtain ⟨ek, ei, heg, _, _⟩ := h.group hex
    simp only [e1, heg, Option.bind_some] at e
    split at e
    · cases e
      refine ⟨rfl, rfl, rfl, rfl, fun op h => List.mem_cons_of_mem _ h, fun _ _ h => h, fun E hE hv ht =>
        ⟨⟨ht.index, ht.back, ht.inj⟩, ⟨ex, e1, ?_⟩, fun _ _ h => h⟩⟩
      exact hv.pend (.eq ex r) List.mem_cons_self ex r rfl
    · rename_i hne
      cases e
      refine ⟨rfl, rfl, rfl, rfl, fun op h => h, fun _ _ h => h, fun E hE hv ht => ⟨ht, ⟨ex, e1, ?_⟩, fun _ _ h => h⟩⟩
      simp only [ne_eq, Decidable.not_not] at hne
      exact hv.same ex r ⟨ek, heg, hne ▸ hrg⟩
  | none =>
    obtain ⟨g1, e2, a1, a2, a3, a4, a5, a6⟩ := addAppTo_ok (app := g.apps.length) (keyGroups (f, a))
      (g := g) (by
        intro k hk
        rcases mem_keyGroups.1 hk with rfl | rfl
        · exact hf
        · exact ha)
    simp only [e1, e2, Option.bind_some] at e
    cases e
    refine ⟨a3.terms, a3.decomps, a3.opaques, a4, fun op h => (by rw [← a3.pending] at h; exact h),
      fun a b h => (a2 a b).2 h, fun E hE hv ht => ?_⟩
    have hl : ∀ k j, Lists g k j → Lists g1 k j := by
      intro k j ⟨i, h1, h2⟩
      obtain ⟨i', b1, b2, _⟩ := a5 k i h1
      exact ⟨i', b1, b2 j h2⟩
    have hnew : ∀ k, k ∈ keyGroups (f, a) → Lists g1 k g.apps.length := by
      intro k hk
      have : Live g k := by
        rcases mem_keyGroups.1 hk with rfl | rfl
        · exact hf
        · exact ha
      obtain ⟨i, hi⟩ := this
      obtain ⟨i', b1, _, b3⟩ := a5 k i hi
      exact ⟨i', b1, b3 hk⟩
    have hget : ∀ (j : Nat) k r', (g1.apps ++ [some ⟨(f, a), r⟩])[j]? = some (some ⟨k, r'⟩) →
        (g.apps[j]? = some (some ⟨k, r'⟩)) ∨ (j = g.apps.length ∧ k = (f, a) ∧ r' = r) := by
      intro j k r' hj
      rw [a3.apps, List.getElem?_append] at hj
      split at hj
      · exact Or.inl hj
      · rename_i hlt
        have h0 := hj
        have h1 := List.mem_of_getElem? hj
        simp only [List.mem_singleton, Option.some.injEq, AppInfo.mk.injEq] at h1
        have h2 := (List.getElem?_eq_some_iff.1 h0).1
        simp only [List.length_singleton] at h2
        exact Or.inr ⟨by omega, h1⟩
    have hne : ∀ (j : Nat) r', g.apps[j]? = some (some ⟨(f, a), r'⟩) → False := by
      intro j r' hj
      have := ht.back j _ _ hj
      rw [e1] at this; cases this
    refine ⟨⟨?_, ?_, ?_⟩, ⟨r, ?_, hE.refl r⟩, ?_⟩
    · intro k r' hk
      have hk : (g1.appMap.insert (f, a) r).get? k = some r' := hk
      show ∃ j : Nat, (g1.apps ++ [some ⟨(f, a), r⟩])[j]? = some (some ⟨k, r'⟩) ∧ Lists g1 k.1 j ∧ Lists g1 k.2 j
      rw [AMap.get?_insert] at hk
      split at hk
      · rename_i hkk
        cases hk; subst hkk
        refine ⟨g.apps.length, ?_, hnew _ (mem_keyGroups.2 (Or.inl rfl)), hnew _ (mem_keyGroups.2 (Or.inr rfl))⟩
        rw [a3.apps]; simp
      · rw [a3.appMap] at hk
        obtain ⟨j, h1, h2, h3⟩ := ht.index k r' hk
        refine ⟨j, ?_, hl _ _ h2, hl _ _ h3⟩
        rw [a3.apps, List.getElem?_append_left (List.getElem?_eq_some_iff.1 h1).1]; exact h1
    · intro j k r' hj
      show (g1.appMap.insert (f, a) r).get? k = some r'
      rw [AMap.get?_insert, a3.appMap]
      rcases hget j k r' hj with hj | ⟨_, rfl, rfl⟩
      · have : k ≠ (f, a) := by rintro rfl; exact hne j r' hj
        rw [if_neg this]; exact ht.back j k r' hj
      · rw [if_pos rfl]
    · intro j j' k r1 r2 hj hj'
      rcases hget j k r1 hj with hj | ⟨p1, p2, p3⟩
      · rcases hget j' k r2 hj' with hj' | ⟨q1, q2, q3⟩
        · exact ht.inj j j' k r1 r2 hj hj'
        · subst q2; exact (hne _ _ hj).elim
      · rcases hget j' k r2 hj' with hj' | ⟨q1, q2, q3⟩
        · subst p2; exact (hne _ _ hj').elim
        · rw [p1, q1]
    · show (g1.appMap.insert (f, a) r).get? (f, a) = some r
      rw [AMap.get?_insert, if_pos rfl]
    · intro k x hk
      show (g1.appMap.insert (f, a) r).get? k = some x
      have : k ≠ (f, a) := by rintro rfl; rw [e1] at hk; cases hk
      rw [AMap.get?_insert, if_neg this, a3.appMap]; exact hk

theorem Hc.newApp (h : Hc g) {f a : Nat} {s t : Term} (hf : g.term? f = some s) (ha : g.term? a = some t)
    (e : g.decomps.get? (.application f a) = none) :
    Hc { (g.newTerm (.app s t) (.application f a)).2 with
      decomps := g.decomps.insert (.application f a) g.terms.length } := by
  have G := Grow.newTerm (g := g) (.app s t) (.application f a)
  refine ⟨?_, ?_, ?_, ?_, ?_, ?_⟩
  · intro b id hb
    show (g.newTerm (.app s t) (.application f a)).2.decomp? id = _
    dsimp only at hb
    rw [AMap.get?_insert, if_neg (by simp)] at hb
    have := h.atomic b id hb
    rw [decomp?_newTerm, if_neg (Nat.ne_of_lt (lt_of_decomp this))]; exact this
  · intro f' x id hb
    show (g.newTerm (.app s t) (.application f a)).2.decomp? id = _
    dsimp only at hb
    rw [AMap.get?_insert] at hb
    rw [decomp?_newTerm]
    split at hb
    · rename_i hab; cases hb; rw [if_pos rfl, hab]
    · have := h.app f' x id hb
      rw [if_neg (Nat.ne_of_lt (lt_of_decomp this))]; exact this
  · intro u id hu
    obtain ⟨h1, h2⟩ := h.opq u id hu
    refine ⟨?_, G.term _ _ h2⟩
    show (g.newTerm (.app s t) (.application f a)).2.decomp? id = _
    rw [decomp?_newTerm, if_neg (Nat.ne_of_lt (lt_of_decomp h1))]; exact h1
  · intro b id hd
    have hd : (g.newTerm (.app s t) (.application f a)).2.decomp? id = some (.atomic b) := hd
    rw [decomp?_newTerm] at hd
    split at hd
    · cases hd
    · obtain ⟨h1, h2⟩ := h.atomTerm b id hd
      refine ⟨G.term _ _ h1, ?_⟩
      dsimp only
      rw [AMap.get?_insert, if_neg (by simp)]; exact h2
  · intro f' x id hd
    have hd : (g.newTerm (.app s t) (.application f a)).2.decomp? id = some (.application f' x) := hd
    rw [decomp?_newTerm] at hd
    split at hd
    · rename_i hi
      cases hd
      refine ⟨s, t, G.term _ _ hf, G.term _ _ ha, ?_, ?_⟩
      · show (g.newTerm (.app s t) (.application f a)).2.term? id = _
        rw [term?_newTerm, if_pos hi]
      · dsimp only
        rw [AMap.get?_insert, if_pos rfl, hi]
    · obtain ⟨s', t', h1, h2, h3, h4⟩ := h.appTerm f' x id hd
      refine ⟨s', t', G.term _ _ h1, G.term _ _ h2, G.term _ _ h3, ?_⟩
      dsimp only
      have : GDecomp.application f' x ≠ .application f a := by
        intro hh; rw [hh, e] at h4; cases h4
      rw [AMap.get?_insert, if_neg this]; exact h4
  · intro id hd
    have hd : (g.newTerm (.app s t) (.application f a)).2.decomp? id = some .opaque := hd
    rw [decomp?_newTerm] at hd
    split at hd
    · cases hd
    · obtain ⟨k, x, y, h1, h2⟩ := h.opqTerm id hd
      exact ⟨k, x, y, G.term _ _ h1, h2⟩

theorem Good.insertApplication {X : Nat → Prop} (h : Good X n g) {ins : Term → EGraph → Out (Nat × EGraph)}
    (hins : ∀ (X : Nat → Prop) (m : Nat) (t : Term) (g : EGraph), Good X m g → (ins t g).Ok (InsC X m g t))
    {f a : Nat} {s t : Term} (hf : g.term? f = some s) (ha : g.term? a = some t) :
    (insertApplication ins g f a).Ok (InsC X n g (.app s t)) := by
  simp only [EGraph.insertApplication]
  split
  · rename_i id e
    obtain ⟨s', t', h1, h2, h3, _⟩ := h.hc.appTerm f a id (h.hc.app f a id e)
    rw [hf] at h1; cases h1
    rw [ha] at h2; cases h2
    exact ⟨n, Nat.le_refl n, h, h3, .refl g⟩
  · rename_i e
    simp only [hf, ha]
    refine Out.Ok.bind (P := fun x => x = s) rfl ?_
    rintro _ rfl
    refine Out.Ok.bind (P := fun x => x = t) rfl ?_
    rintro _ rfl
    rename_i fs as
    have hfn : f < n := h.wf.tl ▸ lt_of_term hf
    have han : a < n := h.wf.tl ▸ lt_of_term ha
    have w0 := h.wf.newTerm (.app fs as) (.application f a)
    have hid : (g.newTerm (.app fs as) (.application f a)).1 < n + 1 := by
      show g.terms.length < n + 1
      rw [h.wf.tl]; omega
    have hc1 := h.hc.newApp hf ha e
    generalize hg1 : (⟨(g.newTerm (.app fs as) (.application f a)).2.terms,
      (g.newTerm (.app fs as) (.application f a)).2.groups,
      (g.newTerm (.app fs as) (.application f a)).2.apps,
      (g.newTerm (.app fs as) (.application f a)).2.cset,
      (g.newTerm (.app fs as) (.application f a)).2.appMap,
      (g.newTerm (.app fs as) (.application f a)).2.decomps.insert (.application f a)
        (g.newTerm (.app fs as) (.application f a)).1,
      (g.newTerm (.app fs as) (.application f a)).2.pending,
      (g.newTerm (.app fs as) (.application f a)).2.contra,
      (g.newTerm (.app fs as) (.application f a)).2.contraInfo,
      (g.newTerm (.app fs as) (.application f a)).2.opaques⟩ : EGraph) = g1
    have hc1 : Hc g1 := by subst hg1; exact hc1
    have w1 : Wf (n + 1) g1 := by
      subst hg1
      exact { w0 with
        grp := w0.grp.same rfl rfl
        app := ⟨w0.app.appRes, w0.app.mapRes, w0.app.pending⟩
        decomps := by
          intro d id hd
          rw [AMap.get?_insert] at hd
          split at hd
          · cases hd; exact hid
          · exact w0.decomps d id hd }
    -- facts about g1
    have T1 : g1.terms = (g.newTerm (.app fs as) (.application f a)).2.terms := by rw [← hg1]
    have P1 : g1.pending = g.pending := by rw [← hg1]; rfl
    have C1 : g1.contra = g.contra := by rw [← hg1]; rfl
    have I1 : g1.groups = (g.newTerm (.app fs as) (.application f a)).2.groups := by rw [← hg1]
    have A1 : g1.apps = (g.newTerm (.app fs as) (.application f a)).2.apps := by rw [← hg1]
    have M1 : g1.appMap = (g.newTerm (.app fs as) (.application f a)).2.appMap := by rw [← hg1]
    have G1 : Grow g g1 := by
      have := Grow.newTerm (g := g) (.app fs as) (.application f a)
      refine this.trans (.frame T1 (fun a b h => ?_) (fun h => ?_))
      · simpa only [Has, info?, I1] using h
      · rw [C1]; exact h
    have ht1 : g1.term? (g.newTerm (.app fs as) (.application f a)).1 = some (.app fs as) := by
      have := term?_newTerm (g := g) (.app fs as) (.application f a) g.terms.length
      rw [if_pos rfl] at this
      show (g1.terms[g.terms.length]?).map _ = _
      rw [T1]; exact this
    obtain ⟨fk, fi, f1, f2, _⟩ := w1.group (t := f) (by omega)
    obtain ⟨ak, ai, b1, b2, _⟩ := w1.group (t := a) (by omega)
    obtain ⟨g2, e2, w2⟩ := w1.insertGroupApp ⟨fi, f2⟩ ⟨ai, b2⟩ hid
    obtain ⟨T2, D2, O2, C2, P2, H2, S2⟩ := insertGroupApp_spec w1 ⟨fi, f2⟩ ⟨ai, b2⟩ hid e2
    simp only [f1, b1]
    refine Out.Ok.bind (P := fun s => s = fk) rfl ?_
    rintro _ rfl
    refine Out.Ok.bind (P := fun s => s = ak) rfl ?_
    rintro _ rfl
    refine Out.Ok.bind (P := fun s => s = g2) (by rw [e2]; rfl) ?_
    rintro _ rfl
    rename_i fk ak g2
    have G2 : Grow g g2 := G1.trans (.frame T2 H2 (fun h => by rw [C2]; exact h))
    have ht2 : g2.term? (g.newTerm (.app fs as) (.application f a)).1 = some (.app fs as) := by
      simpa only [term?, T2] using ht1
    have hc2 : Hc g2 := hc1.same (fun t => by simp only [term?, T2]) (fun t => by simp only [decomp?, T2]) D2 O2
    have good2 : ∀ Y : Nat → Prop, (∀ x, X x → Y x) →
        (Y g.terms.length ∨ swappedEq (.app fs as) = none) → Good Y (n + 1) g2 := by
      intro Y hXY hY
      refine ⟨w2, hc2, ?_⟩
      rcases h.clo with hc | hc
      · left; rw [C2, C1, hc]
      · refine Or.inr fun E hE hv => ?_
        have hv0 : Covers E g := ⟨fun x y hs => hv.same x y (G2.same x y hs),
          fun op hop => hv.pend op (P2 op (by rw [P1]; exact hop))⟩
        obtain ⟨c, sw⟩ := hc E hE hv0
        obtain ⟨c1, c2⟩ := c.newTerm (.app fs as) (.application f a)
        have tb1 : Table g1 := by
          have hL : ∀ k j, Lists (g.newTerm (.app fs as) (.application f a)).2 k j → Lists g1 k j := by
            intro k j hl; simpa only [Lists, info?, I1] using hl
          refine ⟨?_, by rw [A1, M1]; exact c1.back, by rw [A1]; exact c1.inj⟩
          intro k r hk
          rw [M1] at hk
          obtain ⟨j, h1, h2, h3⟩ := c1.index k r hk
          exact ⟨j, by rw [A1]; exact h1, hL _ _ h2, hL _ _ h3⟩
        obtain ⟨tb2, ⟨x, hx1, hx2⟩, hold⟩ := S2 E hE hv tb1
        have hg2 : ∀ t, g2.group? t = g1.group? t := fun t => by simp only [group?, T2]
        refine ⟨⟨tb2, ?_⟩, ?_⟩
        · intro id f' a' hd
          have hd1 : (g.newTerm (.app fs as) (.application f a)).2.decomp? id = some (.application f' a') := by
            simpa only [decomp?, T2, T1] using hd
          by_cases hid' : id = g.terms.length
          · rw [decomp?_newTerm, if_pos hid'] at hd1
            cases hd1
            exact ⟨fk, ak, x, by rw [hg2]; exact f1, by rw [hg2]; exact b1, hx1, by rw [hid']; exact hx2⟩
          · obtain ⟨fk', ak', r, h1, h2, h3, h4⟩ := c2 id f' a' hid' hd1
            refine ⟨fk', ak', r, ?_, ?_, hold _ _ (by rw [M1]; exact h3), h4⟩
            · rw [hg2]; simpa only [group?, T1] using h1
            · rw [hg2]; simpa only [group?, T1] using h2
        · exact (sw.newTerm (.app fs as) (.application f a) hXY hY).same
            (fun t => by simp only [term?, T2, T1])
    split
    · rename_i hsw
      exact ⟨n + 1, Nat.le_succ n, good2 X (fun _ h => h) (Or.inr hsw), ht2, G2⟩
    · rename_i sw hsw
      refine Out.Ok.bind (hins (fun x => X x ∨ x = g.terms.length) (n + 1) _ _
        (good2 _ (fun _ h => Or.inl h) (Or.inl (Or.inr rfl)))) ?_
      rintro ⟨sid, g3⟩ ⟨m, hm, gd, hs, G3⟩
      have hs : g3.term? sid = some sw := hs
      have ht3 : g3.term? (g.newTerm (.app fs as) (.application f a)).1 = some (.app fs as) :=
        G3.term _ _ ht2
      refine ⟨m, by omega, ⟨?_, ?_, ?_⟩, ht3, (G2.trans G3).trans (.frame rfl (fun _ _ h => h) (fun h => h))⟩
      · refine gd.wf.push ⟨?_, ?_⟩
        · exact gd.wf.tl ▸ lt_of_term ht3
        · exact gd.wf.tl ▸ lt_of_term hs
      · exact gd.hc.same (fun _ => rfl) (fun _ => rfl) rfl rfl
      · rcases gd.clo with hc | hc
        · exact Or.inl hc
        · refine Or.inr fun E hE hv => ?_
          obtain ⟨c, sw3⟩ := hc E hE ⟨hv.same, fun op hop => hv.pend op (List.mem_cons_of_mem _ hop)⟩
          refine ⟨c.same (fun _ => rfl) (fun _ => rfl) rfl rfl (fun _ _ h => h), ?_⟩
          intro id u s hX h1 h2
          by_cases hi : id = g.terms.length
          · have : g3.term? id = some (.app fs as) := by rw [hi]; exact ht3
            have h1 : g3.term? id = some u := h1
            rw [this] at h1; cases h1
            rw [hsw] at h2; cases h2
            exact ⟨sid, hs, hv.pend (.eq _ sid) List.mem_cons_self id sid (by rw [hi]; rfl)⟩
          · exact sw3 id u s (fun hx => hx.elim hX hi) h1 h2

theorem Good.insertTerm (ω : HashOrder) : ∀ (fuel : Nat) (X : Nat → Prop) (n : Nat) (t : Term) (g : EGraph),
    Good X n g → (insertTerm ω fuel t g).Ok fun r => InsC X n g t r ∧ (r.2.contra = true ∨ r.2.pending = []) := by
  intro fuel
  induction fuel with
  | zero => intro X n t g _; trivial
  | succ fuel ih =>
    intro X n t g h
    have fin : ∀ (r : Nat × EGraph), InsC X n g t r → (do
        let g ← EGraph.process ω fuel r.2
        return (r.1, g) : Out (Nat × EGraph)).Ok fun r => InsC X n g t r ∧ (r.2.contra = true ∨ r.2.pending = []) := by
      rintro ⟨id, g1⟩ ⟨m, hm, gd, hid, G⟩
      refine Out.Ok.bind (gd.process ω fuel) ?_
      rintro g2 ⟨gd2, G2, hp, _⟩
      exact ⟨⟨m, hm, gd2, G2.term _ _ hid, G.trans G2⟩, hp⟩
    cases t with
    | atom a => rw [insertTerm_atom]; exact fin _ (h.insertAtom a)
    | bind k T b => rw [insertTerm_bind]; exact fin _ (h.insertOpaque _ _ _)
    | app f a =>
      rw [insertTerm_app]
      refine Out.Ok.bind (ih X n f g h) ?_
      rintro ⟨fid, g1⟩ ⟨⟨m1, hm1, w1, hf, G1⟩, _⟩
      refine Out.Ok.bind (ih X m1 a g1 w1) ?_
      rintro ⟨aid, g2⟩ ⟨⟨m2, hm2, w2, ha, G2⟩, _⟩
      refine Out.Ok.bind (w2.insertApplication
        (fun X m t g hg => (ih X m t g hg).mono fun r hr => hr.1) (G2.term _ _ hf) ha) ?_
      rintro r ⟨m, hm, w, hr, G⟩
      exact fin r ⟨m, by omega, w, hr, (G1.trans G2).trans G⟩

/-! ### The interface -/

/-- A graph between two commands. -/
structure Idle (g : EGraph) : Prop where
  good : ∃ n, Good (fun _ => False) n g
  done : g.contra = true ∨ g.pending = []

/-- The effect of a command. -/
def Next (g g' : EGraph) : Prop := Idle g' ∧ Grow g g'

theorem idle_empty : Idle EGraph.empty := by
  refine ⟨⟨0, wf_empty, ⟨?_, ?_, ?_, ?_, ?_, ?_⟩, Or.inr fun E _ _ => ⟨⟨⟨?_, ?_, ?_⟩, ?_⟩, ?_⟩⟩, Or.inr rfl⟩ <;>
    simp [empty, decomp?, term?, Swapped]

theorem Idle.insertTerm (ω : HashOrder) (fuel : Nat) (h : Idle g) (t : Term) :
    (EGraph.insertTerm ω fuel t g).Ok fun r => Next g r.2 ∧ r.2.term? r.1 = some t := by
  obtain ⟨⟨n, h⟩, _⟩ := h
  refine (h.insertTerm ω fuel _ n t g).mono ?_
  rintro r ⟨⟨m, hm, gd, ht, G⟩, hp⟩
  exact ⟨⟨⟨⟨m, gd⟩, hp⟩, G⟩, ht⟩

theorem Next.trans {a b c : EGraph} (h : Next a b) (h' : Next b c) : Next a c := ⟨h'.1, h.2.trans h'.2⟩

theorem Next.refl (h : Idle g) : Next g g := ⟨h, .refl g⟩

theorem Idle.pair (ω : HashOrder) (fuel : Nat) (h : Idle g) (s t : Term) {β : Type}
    {f : Nat → Nat → EGraph → Out β} {Q : β → Prop}
    (hf : ∀ a b g', Next g g' → g'.term? a = some s → g'.term? b = some t → (f a b g').Ok Q) :
    (do
      let (a, g) ← EGraph.insertTerm ω fuel s g
      let (b, g) ← EGraph.insertTerm ω fuel t g
      f a b g).Ok Q := by
  refine Out.Ok.bind (h.insertTerm ω fuel s) ?_
  rintro ⟨a, g1⟩ ⟨h1, ha⟩
  refine Out.Ok.bind (h1.1.insertTerm ω fuel t) ?_
  rintro ⟨b, g2⟩ ⟨h2, hb⟩
  exact hf a b g2 (h1.trans h2) (h2.2.term _ _ ha) hb

/-- Queue an operation and process it. -/
theorem Idle.pushed (ω : HashOrder) (fuel : Nat) (h : Idle g) {op : Op} (ho : OpR g.terms.length op) :
    (EGraph.process ω fuel (g.push op)).Ok fun g' => Next g g' ∧ (g'.contra = true ∨ Settled g' op) := by
  obtain ⟨⟨n, h⟩, _⟩ := h
  have hg : Good (fun _ => False) n (g.push op) := by
    refine ⟨h.wf.push (h.wf.tl ▸ ho), h.hc.same (fun _ => rfl) (fun _ => rfl) rfl rfl, ?_⟩
    rcases h.clo with hc | hc
    · exact Or.inl hc
    · refine Or.inr fun E hE hv => ?_
      obtain ⟨c, s⟩ := hc E hE ⟨hv.same, fun op hop => hv.pend op (List.mem_cons_of_mem _ hop)⟩
      exact ⟨c.same (fun _ => rfl) (fun _ => rfl) rfl rfl (fun _ _ h => h), s.same (fun _ => rfl)⟩
  refine (hg.process ω fuel).mono ?_
  rintro g' ⟨h1, h2, h3, h4⟩
  exact ⟨⟨⟨⟨n, h1⟩, h3⟩, ⟨h2.term, h2.same, h2.apart, h2.contra⟩⟩, h4 op List.mem_cons_self⟩

theorem Idle.process (ω : HashOrder) (fuel : Nat) (h : Idle g) :
    (EGraph.process ω fuel g).Ok fun g' => Next g g' := by
  obtain ⟨⟨n, h⟩, _⟩ := h
  refine (h.process ω fuel).mono ?_
  rintro g' ⟨h1, h2, h3, _⟩
  exact ⟨⟨⟨n, h1⟩, h3⟩, h2⟩

theorem Idle.group (h : Idle g) {t : Nat} {s : Term} (ht : g.term? t = some s) :
    ∃ k i, g.group? t = some k ∧ g.info? k = some i ∧ k < g.terms.length := by
  obtain ⟨⟨n, h⟩, _⟩ := h
  have hl := lt_of_term ht
  rw [h.wf.tl] at hl
  obtain ⟨k, i, h1, h2, _⟩ := h.wf.group hl
  refine ⟨k, i, h1, h2, ?_⟩
  rw [h.wf.tl, ← h.wf.gl]; exact info?_lt h2

theorem Grow.length (h : Grow g g') : g.terms.length ≤ g'.terms.length := by
  rcases Nat.eq_zero_or_pos g.terms.length with h0 | h0
  · omega
  · have hlt : g.terms.length - 1 < g.terms.length := by omega
    have := h.term (g.terms.length - 1) (g.terms[g.terms.length - 1]).term
      (by simp [term?, List.getElem?_eq_getElem hlt])
    have := lt_of_term this
    omega

theorem Idle.litIds (ω : HashOrder) (fuel : Nat) : ∀ (ls : List Literal) {g : EGraph}, Idle g →
    (litIds ω fuel ls g).Ok fun r => Next g r.2 ∧ ClauseR r.2.terms.length r.1 := by
  intro ls
  induction ls with
  | nil => intro g h; exact ⟨.refl h, by intro l hl; cases hl⟩
  | cons l ls ih =>
    intro g h
    simp only [EGraph.litIds]
    refine h.pair ω fuel l.left l.right (f := fun a b g => do
      let ag ← Out.ofOption (g.group? a)
      let bg ← Out.ofOption (g.group? b)
      let (rest, g) ← EGraph.litIds ω fuel ls g
      return (GLit.new ag bg l.positive :: rest, g)) ?_
    intro a b g1 h1 ha hb
    obtain ⟨ak, ai, a1, a2, a3⟩ := h1.1.group ha
    obtain ⟨bk, bi, b1, b2, b3⟩ := h1.1.group hb
    simp only [a1, b1]
    refine Out.Ok.bind (P := fun s => s = ak) rfl ?_
    rintro _ rfl
    refine Out.Ok.bind (P := fun s => s = bk) rfl ?_
    rintro _ rfl
    refine Out.Ok.bind (ih h1.1) ?_
    rintro ⟨rest, g2⟩ ⟨h2, hr⟩
    have := h2.2.length
    refine ⟨h1.trans h2, fun x hx => ?_⟩
    rcases List.mem_cons.1 hx with rfl | hx
    · exact litR_new (n := g2.terms.length) (by simp only at *; omega) (by simp only at *; omega)
    · exact hr x hx

theorem Idle.insertClause (ω : HashOrder) (fuel : Nat) (h : Idle g) (ls : List Literal) (step : Nat) :
    (EGraph.insertClause ω fuel g ls step).Ok (Next g) := by
  have gen : (do
      let (ids, g) ← EGraph.litIds ω fuel ls g
      match GClause.new ids with
      | .tt => EGraph.process ω fuel g
      | .ff => EGraph.process ω fuel { g with contra := true }
      | .clause c => EGraph.process ω fuel (g.push (.clause c)) : Out EGraph).Ok (Next g) := by
    refine Out.Ok.bind (Idle.litIds ω fuel ls h) ?_
    rintro ⟨ids, g1⟩ ⟨h1, hr⟩
    dsimp only
    split
    · exact (h1.1.process ω fuel).mono fun g2 h2 => h1.trans h2
    · have h1' : Idle { g1 with contra := true } := by
        obtain ⟨⟨n, gd⟩, _⟩ := h1.1
        exact ⟨⟨n, gd.wf.contraTrue, gd.hc.same (fun _ => rfl) (fun _ => rfl) rfl rfl, Or.inl rfl⟩, Or.inl rfl⟩
      exact (h1'.process ω fuel).mono fun g2 h2 => ⟨h2.1, h1.2.trans
        (Grow.trans (b := { g1 with contra := true }) (.frame rfl (fun _ _ h => h) (fun _ => rfl)) h2.2)⟩
    · rename_i c e
      exact (h1.1.pushed ω fuel (op := .clause c) (ClauseR.new hr e)).mono fun g2 h2 => h1.trans h2.1
  match ls with
  | [] => exact gen
  | [l] =>
    simp only [EGraph.insertClause]
    refine h.pair ω fuel l.left l.right (f := fun a b g =>
      if l.positive = true then EGraph.setTermsEqual ω fuel g a b step none
      else EGraph.setTermsNotEqual ω fuel g a b step) ?_
    intro a b g1 h1 ha hb
    split
    · exact (h1.1.pushed ω fuel (op := .rewrite _) ⟨lt_of_term ha, lt_of_term hb⟩).mono fun g2 h2 => h1.trans h2.1
    · exact (h1.1.pushed ω fuel (op := .neq a b step) ⟨lt_of_term ha, lt_of_term hb⟩).mono
        fun g2 h2 => h1.trans h2.1
  | l :: m :: ls => exact gen

/-- What the graph holds equal. -/
def Equal (g : EGraph) (s t : Term) : Prop :=
  ∃ x y, g.term? x = some s ∧ g.term? y = some t ∧ Same g x y

/-- What the graph holds different. -/
def Differ (g : EGraph) (s t : Term) : Prop :=
  ∃ x y, g.term? x = some s ∧ g.term? y = some t ∧ Apart g x y

theorem Idle.evaluateLiteral (ω : HashOrder) (fuel : Nat) (h : Idle g) (l : Literal) :
    (EGraph.evaluateLiteral ω fuel g l).Ok fun r => Next g r.2 ∧
      ((l.left.hasAnyVar || l.right.hasAnyVar) = false →
        (∃ x y, r.2.term? x = some l.left ∧ r.2.term? y = some l.right) ∧
        (Equal r.2 l.left l.right → r.1 = some l.positive) ∧
        (Differ r.2 l.left l.right → r.1 = some !l.positive)) ∧
      (∀ b, r.1 = some b → (b = l.positive → Equal r.2 l.left l.right) ∧
        (b ≠ l.positive → Differ r.2 l.left l.right)) := by
  simp only [EGraph.evaluateLiteral]
  by_cases hv : (l.left.hasAnyVar || l.right.hasAnyVar) = true
  · rw [if_pos hv]
    exact ⟨.refl h, fun e => (by rw [hv] at e; cases e), fun b e => (by cases e)⟩
  · rw [if_neg hv]
    refine h.pair ω fuel l.left l.right (f := fun a b g => do
      let ag ← Out.ofOption (g.group? a)
      let bg ← Out.ofOption (g.group? b)
      if ag = bg then return (some l.positive, g)
      else do
        let i ← Out.ofOption (g.info? ag)
        if i.ineqs.contains bg then return (some !l.positive, g) else return (none, g)) ?_
    intro a b g1 h1 ha hb
    obtain ⟨ak, ai, a1, a2, a3⟩ := h1.1.group ha
    obtain ⟨bk, bi, b1, b2, b3⟩ := h1.1.group hb
    simp only [a1, b1]
    refine Out.Ok.bind (P := fun s => s = ak) rfl ?_
    rintro _ rfl
    refine Out.Ok.bind (P := fun s => s = bk) rfl ?_
    rintro _ rfl
    rename_i ak bk
    split
    · rename_i hk
      refine ⟨h1, fun _ => ⟨⟨a, b, ha, hb⟩, fun _ => rfl, ?_⟩, fun c e => ⟨fun _ => ⟨a, b, ha, hb, ak, a1, hk ▸ b1⟩,
        fun hne => ?_⟩⟩
      · rintro ⟨x, y, hx, hy, k, l, k1, k2, k3⟩
        obtain ⟨⟨n, gd⟩, _⟩ := h1.1
        rw [gd.hc.unique _ hx ha, a1] at k1
        rw [gd.hc.unique _ hy hb, b1] at k2
        cases k1; cases k2; exact absurd hk (gd.wf.grp.sym _ _ k3).2
      · cases e; exact absurd rfl hne
    · rename_i hk
      have hne : ¬ Equal g1 l.left l.right := by
        rintro ⟨x, y, hx, hy, k, k1, k2⟩
        obtain ⟨⟨n, gd⟩, _⟩ := h1.1
        rw [gd.hc.unique _ hx ha, a1] at k1
        rw [gd.hc.unique _ hy hb, b1] at k2
        cases k1; cases k2; exact hk rfl
      simp only [a2]
      refine Out.Ok.bind (P := fun s => s = ai) rfl ?_
      rintro _ rfl
      rename_i ai
      split
      · rename_i hc
        refine ⟨h1, fun _ => ⟨⟨a, b, ha, hb⟩, fun he => absurd he hne, fun _ => rfl⟩, fun c e => ⟨fun hp => ?_,
          fun _ => ⟨a, b, ha, hb, ak, bk, a1, b1, ai, a2, hc⟩⟩⟩
        rw [hp] at e; simp at e
      · rename_i hc
        refine ⟨h1, fun _ => ⟨⟨a, b, ha, hb⟩, fun he => absurd he hne, ?_⟩, fun c e => (by cases e)⟩
        rintro ⟨x, y, hx, hy, k, l, k1, k2, i, k3, k4⟩
        obtain ⟨⟨n, gd⟩, _⟩ := h1.1
        rw [gd.hc.unique _ hx ha, a1] at k1
        rw [gd.hc.unique _ hy hb, b1] at k2
        cases k1; cases k2
        rw [a2] at k3; cases k3; exact absurd k4 hc

theorem Idle.clauseExists (ω : HashOrder) (fuel : Nat) (h : Idle g) (ls : List Literal) :
    (EGraph.clauseExists ω fuel g ls).Ok fun r => Next g r.2 := by
  simp only [EGraph.clauseExists]
  split
  · exact .refl h
  · split
    · exact .refl h
    · refine Out.Ok.bind (Idle.litIds ω fuel ls h) ?_
      rintro ⟨ids, g1⟩ ⟨h1, _⟩
      dsimp only
      split <;> exact h1

theorem Idle.anyTrue (ω : HashOrder) (fuel : Nat) : ∀ (ls : List Literal) {g : EGraph}, Idle g →
    (EGraph.anyTrue ω fuel ls g).Ok fun r => Next g r.2 := by
  intro ls
  induction ls with
  | nil => intro g h; exact .refl h
  | cons l ls ih =>
    intro g h
    simp only [EGraph.anyTrue]
    refine Out.Ok.bind (h.evaluateLiteral ω fuel l) ?_
    rintro ⟨r, g1⟩ ⟨h1, _⟩
    dsimp only
    split
    · exact h1
    · exact (ih h1.1).mono fun r h2 => h1.trans h2

theorem Idle.checkClause (ω : HashOrder) (fuel : Nat) (h : Idle g) (ls : List Literal) :
    (EGraph.checkClause ω fuel g ls).Ok fun r => Next g r.2 := by
  simp only [EGraph.checkClause]
  split
  · exact .refl h
  · refine Out.Ok.bind (Idle.anyTrue ω fuel ls h) ?_
    rintro ⟨b, g1⟩ h1
    dsimp only
    split
    · exact h1
    · exact (h1.1.clauseExists ω fuel ls).mono fun r h2 => h1.trans h2

/-! ### Closure between commands -/

theorem Idle.clo (h : Idle g) (hc : g.contra = false) :
    ∃ E : Nat → Nat → Prop, (∀ x y, E x y → x = y ∨ Same g x y) ∧ Cong E g ∧ Swapped E (fun _ => False) g := by
  obtain ⟨⟨n, gd⟩, hp⟩ := h
  have hp : g.pending = [] := hp.resolve_left (by simp [hc])
  have hclo : Clo _ g := gd.clo.resolve_left (by simp [hc])
  have hE : Eqv fun x y => x = y ∨ Same g x y := by
    refine ⟨fun x => Or.inl rfl, ?_, ?_⟩
    · rintro x y (rfl | ⟨k, h1, h2⟩)
      · exact Or.inl rfl
      · exact Or.inr ⟨k, h2, h1⟩
    · rintro x y z (rfl | ⟨k, h1, h2⟩) hyz
      · exact hyz
      · rcases hyz with rfl | ⟨k', h3, h4⟩
        · exact Or.inr ⟨k, h1, h2⟩
        · rw [h2] at h3; cases h3
          exact Or.inr ⟨k, h1, h4⟩
  obtain ⟨c, s⟩ := hclo _ hE ⟨fun x y h => Or.inr h, by rw [hp]; simp⟩
  exact ⟨_, fun _ _ h => h, c, s⟩

theorem Idle.same_of {x y : Nat} {s : Term} (h : Idle g) (hx : g.term? x = some s) (hxy : x = y ∨ Same g x y) :
    Same g x y := by
  rcases hxy with rfl | h1
  · obtain ⟨k, _, h1, _⟩ := h.group hx
    exact ⟨k, h1, h1⟩
  · exact h1

/-- Congruence. -/
theorem Idle.congruence (h : Idle g) (hc : g.contra = false) {f f' a a' : Term} (h1 : Equal g f f')
    (h2 : Equal g a a') (h3 : ∃ x, g.term? x = some (.app f a)) (h4 : ∃ x, g.term? x = some (.app f' a')) :
    Equal g (.app f a) (.app f' a') := by
  obtain ⟨E, hE, c, _⟩ := h.clo hc
  obtain ⟨⟨n, gd⟩, _⟩ := h
  have dec : ∀ {x : Nat} {p q : Term}, g.term? x = some (.app p q) →
      ∃ i j, g.decomp? x = some (.application i j) ∧ g.term? i = some p ∧ g.term? j = some q := by
    intro x p q hx
    obtain ⟨d, hd⟩ := decomp_of_term hx
    cases d with
    | atomic b => rw [(gd.hc.atomTerm b x hd).1] at hx; cases hx
    | application i j =>
      obtain ⟨s, t, h1, h2, h3, _⟩ := gd.hc.appTerm i j x hd
      rw [hx] at h3; cases h3
      exact ⟨i, j, hd, h1, h2⟩
    | «opaque» =>
      obtain ⟨k, u, v, h1, _⟩ := gd.hc.opqTerm x hd
      rw [hx] at h1; cases h1
  obtain ⟨x, hx⟩ := h3
  obtain ⟨y, hy⟩ := h4
  obtain ⟨i, j, d1, i1, j1⟩ := dec hx
  obtain ⟨i', j', d2, i2, j2⟩ := dec hy
  obtain ⟨p, p', hp, hp', k1, hk, hk'⟩ := h1
  obtain ⟨q, q', hq, hq', k2, hl, hl'⟩ := h2
  have e1 := gd.hc.unique _ hp i1; subst e1
  have e2 := gd.hc.unique _ hp' i2; subst e2
  have e3 := gd.hc.unique _ hq j1; subst e3
  have e4 := gd.hc.unique _ hq' j2; subst e4
  obtain ⟨fk, ak, r, a1, a2, a3, a4⟩ := c.cong x _ _ d1
  obtain ⟨fk', ak', r', b1, b2, b3, b4⟩ := c.cong y _ _ d2
  rw [hk] at a1; cases a1
  rw [hk'] at b1; cases b1
  rw [hl] at a2; cases a2
  rw [hl'] at b2; cases b2
  rw [a3] at b3; cases b3
  have hI : Idle g := by exact ⟨⟨n, gd⟩, by assumption⟩
  obtain ⟨kx, _, hkx, _⟩ := hI.group hx
  obtain ⟨ky, _, hky, _⟩ := hI.group hy
  refine ⟨x, y, hx, hy, kx, hkx, ?_⟩
  rcases hE _ _ a4 with rfl | ⟨k, z1, z2⟩
  · rcases hE _ _ b4 with rfl | ⟨k, z1, z2⟩
    · exact hkx
    · rw [hkx] at z1; cases z1; exact z2
  · rw [hkx] at z2; cases z2
    rcases hE _ _ b4 with rfl | ⟨k, z3, z4⟩
    · exact z1
    · rw [z1] at z3; cases z3; exact z4

/-- Embedded equations. -/
theorem Idle.symmetry (h : Idle g) (hc : g.contra = false) {t s : Term} (hs : swappedEq t = some s)
    (ht : ∃ x, g.term? x = some t) : Equal g t s := by
  obtain ⟨E, hE, _, sw⟩ := h.clo hc
  obtain ⟨x, hx⟩ := ht
  obtain ⟨y, hy, hxy⟩ := sw x t s (fun h => h) hx hs
  exact ⟨x, y, hx, hy, h.same_of hx (hE _ _ hxy)⟩

end EGraph
end Acorn
