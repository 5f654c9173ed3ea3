import Verif.Model.ProofOrder
import Verif.Spec.ProofOrder
import Mathlib.Data.List.Perm.Subperm
import Mathlib.Tactic.Tauto
/-
Lemmas for the certificate line order: the edges collected are the dependencies, and the loop is a
greedy topological sort.
-/
namespace Acorn.ProofOrder
open Spec

/-! ### Edges -/

theorem positiveUnits_go (cs : List (List Literal)) (k : Nat) (m : AMap Literal (List Nat)) (l : Literal)
    (s : Nat) :
    s ∈ (((cs.zipIdx k).foldl addUnit m).get? l).getD [] ↔
    s ∈ (m.get? l).getD [] ∨ (l.positive = true ∧ k ≤ s ∧ cs[s - k]? = some [l]) := by
  induction cs generalizing k m with
  | nil => simp
  | cons c cs ih =>
    simp only [List.zipIdx_cons, List.foldl_cons]
    rw [ih]
    have step : (∃ l', c = [l'] ∧ l'.positive = true) ∨ ¬ (∃ l', c = [l'] ∧ l'.positive = true) :=
      Classical.em _
    have idx : (l.positive = true ∧ k ≤ s ∧ (c :: cs)[s - k]? = some [l]) ↔
        (l.positive = true ∧ s = k ∧ c = [l]) ∨ (l.positive = true ∧ k + 1 ≤ s ∧ cs[s - (k + 1)]? = some [l]) := by
      by_cases h : s = k
      · subst h
        simp
        intro _ h; omega
      · by_cases h' : k ≤ s
        · have : s - k = (s - (k + 1)) + 1 := by omega
          rw [this, List.getElem?_cons_succ]
          constructor
          · rintro ⟨a, b, c⟩; exact .inr ⟨a, by omega, c⟩
          · rintro (⟨a, b, c⟩ | ⟨a, b, c⟩)
            · exact absurd b h
            · exact ⟨a, h', c⟩
        · constructor
          · rintro ⟨a, b, c⟩; omega
          · rintro (⟨a, b, c⟩ | ⟨a, b, c⟩) <;> omega
    rw [idx]
    rcases step with ⟨l', rfl, hp⟩ | hn
    · have hu : addUnit m ([l'], k) = m.insert l' (((m.get? l').getD []) ++ [k]) := by simp [addUnit, hp]
      rw [hu, AMap.get?_insert]
      by_cases hl : l = l'
      · subst hl
        simp [hp]
        tauto
      · have : ¬ l' = l := fun h => hl h.symm
        rw [if_neg (by simpa using hl)]
        simp [this]
    · have : addUnit m (c, k) = m := by
        unfold addUnit
        dsimp only
        split
        · rename_i l'
          split
          · rename_i hp
            exact absurd ⟨l', rfl, hp⟩ hn
          · rfl
        · rfl
      rw [this]
      constructor
      · rintro (h | h)
        · exact .inl h
        · exact .inr (.inr h)
      · rintro (h | ⟨a, _, b⟩ | h)
        · exact .inl h
        · exact absurd ⟨l, b, a⟩ hn
        · exact .inr h

theorem mem_positiveUnits {cs : List (List Literal)} {l : Literal} {s : Nat} :
    s ∈ ((positiveUnits cs).get? l).getD [] ↔ l.positive = true ∧ cs[s]? = some [l] := by
  rw [positiveUnits, positiveUnits_go]
  simp [AMap.get?_empty]

theorem mem_candidates {cs : List (List Literal)} {s d : Nat} :
    (s, d) ∈ unitCandidates cs ++ memberCandidates cs ↔ Supports cs s d := by
  rw [List.mem_append]
  have h1 : (s, d) ∈ unitCandidates cs ↔ d < s ∧ ∃ cd, cs[d]? = some cd ∧ ∃ ls, cs[s]? = some ls ∧
      1 < cd.length ∧ ∃ l ∈ cd, l.positive = false ∧ ls = [⟨true, l.left, l.right⟩] := by
    simp only [unitCandidates, List.mem_flatMap, Prod.exists, List.mem_zipIdx_iff_getElem?]
    constructor
    · rintro ⟨c, i, hc, h⟩
      split at h
      · simp at h
      · rename_i hlen
        simp only [List.mem_flatMap] at h
        obtain ⟨l, hl, h⟩ := h
        split at h
        · simp at h
        · rename_i hp
          split at h
          · simp at h
          · rename_i is his
            simp only [List.mem_filterMap] at h
            obtain ⟨s', hs', h⟩ := h
            split at h
            · cases h
            · rename_i hle
              cases h
              have := (mem_positiveUnits (cs := cs) (l := l.negate) (s := s)).mp (by rw [his]; exact hs')
              exact ⟨by omega, c, hc, _, this.2, by omega, l, hl, by simpa using hp, by
                simp [Literal.negate, hp]⟩
    · rintro ⟨hlt, c, hc, ls, hs, hlen, l, hl, hp, rfl⟩
      refine ⟨c, d, hc, ?_⟩
      rw [if_neg (by omega)]
      simp only [List.mem_flatMap]
      refine ⟨l, hl, ?_⟩
      have := (mem_positiveUnits (cs := cs) (l := l.negate) (s := s)).mpr
        ⟨by simp [Literal.negate, hp], by simp [Literal.negate, hp, hs]⟩
      rw [if_neg (by simp [hp])]
      cases hg : (positiveUnits cs).get? l.negate with
      | none => rw [hg] at this; simp at this
      | some is =>
        rw [hg] at this
        simp only [List.mem_filterMap]
        exact ⟨s, this, by rw [if_neg (by omega)]⟩
  have h2 : (s, d) ∈ memberCandidates cs ↔ d < s ∧ ∃ cd, cs[d]? = some cd ∧ ∃ ls, cs[s]? = some ls ∧
      1 < ls.length ∧ ∃ l ∈ ls, cd = [l] := by
    simp only [memberCandidates, List.mem_flatMap, Prod.exists, List.mem_zipIdx_iff_getElem?]
    constructor
    · rintro ⟨c, i, hc, h⟩
      split at h
      · rename_i l
        simp only [List.mem_filterMap, Prod.exists, List.mem_zipIdx_iff_getElem?] at h
        obtain ⟨ls, j, hj, h⟩ := h
        split at h
        · cases h
        · rename_i hc1
          split at h
          · cases h
          · rename_i hany
            cases h
            simp only [Bool.or_eq_true, decide_eq_true_eq, not_or] at hc1
            simp only [Bool.not_eq_true', Bool.not_eq_false, List.any_eq_true, beq_iff_eq] at hany
            obtain ⟨x, hx, rfl⟩ := hany
            exact ⟨by omega, _, hc, ls, hj, by omega, x, hx, rfl⟩
      · simp at h
    · rintro ⟨hlt, c, hc, ls, hs, hlen, l, hl, rfl⟩
      refine ⟨[l], d, hc, ?_⟩
      simp only [List.mem_filterMap, Prod.exists, List.mem_zipIdx_iff_getElem?]
      refine ⟨ls, s, hs, ?_⟩
      rw [if_neg (by simp; omega), if_neg (by simp; exact hl)]
  rw [h1, h2]
  constructor
  · rintro (⟨a, cd, b, ls, c, h⟩ | ⟨a, cd, b, ls, c, h⟩)
    · exact ⟨a, cd, b, ls, c, .inl h⟩
    · exact ⟨a, cd, b, ls, c, .inr h⟩
  · rintro ⟨a, cd, b, ls, c, h | h⟩
    · exact .inl ⟨a, cd, b, ls, c, h⟩
    · exact .inr ⟨a, cd, b, ls, c, h⟩

/-! ### The graph -/

/-- The collected graph over `n` lines. -/
structure Graph.Wf (n : Nat) (g : Graph) : Prop where
  el : g.edges.length = n
  il : g.indegree.length = n
  nodup : g.seen.Nodup
  lt : ∀ e ∈ g.seen, e.1 < n ∧ e.2 < n
  edge : ∀ s ds, g.edges[s]? = some ds → ds.Nodup ∧ ∀ d, d ∈ ds ↔ (s, d) ∈ g.seen
  deg : ∀ d < n, g.indegree[d]? = some (g.seen.countP fun e => e.2 == d)

theorem addEdge_wf {n : Nat} {g : Graph} (h : g.Wf n) {e : Nat × Nat} (he : e.1 < n ∧ e.2 < n) :
    ∃ g', addEdge g e = some g' ∧ g'.Wf n ∧ ∀ x, x ∈ g'.seen ↔ x ∈ g.seen ∨ x = e := by
  unfold addEdge
  by_cases hs : g.seen.contains e = true
  · rw [if_pos hs]
    refine ⟨g, rfl, h, fun x => ?_⟩
    have : e ∈ g.seen := by simpa using hs
    constructor
    · exact .inl
    · rintro (h | rfl) <;> assumption
  · rw [if_neg hs, if_pos (by rw [h.el, h.il]; exact he)]
    have hs : e ∉ g.seen := by simpa using hs
    refine ⟨_, rfl, ⟨by simp [h.el], by simp [h.il], ?_, ?_, ?_, ?_⟩, ?_⟩
    · exact List.nodup_cons.mpr ⟨hs, h.nodup⟩
    · intro x hx
      rcases List.mem_cons.mp hx with rfl | hx
      · exact he
      · exact h.lt x hx
    · intro s ds hds
      simp only [List.getElem?_modify, Option.map_eq_map] at hds
      by_cases hes : e.1 = s
      · simp only [if_pos hes] at hds
        cases hg : g.edges[s]? with
        | none => rw [hg] at hds; cases hds
        | some ds0 =>
          rw [hg] at hds
          simp only [Option.map_some, Option.some.injEq] at hds
          subst hds
          obtain ⟨hn, hm⟩ := h.edge s ds0 hg
          constructor
          · rw [List.nodup_append]
            refine ⟨hn, by simp, ?_⟩
            intro a ha b hb
            simp at hb
            subst hb
            rintro rfl
            exact hs (by rw [← Prod.eta e, hes]; exact (hm _).mp ha)
          · intro d
            show d ∈ ds0 ++ [e.2] ↔ (s, d) ∈ e :: g.seen
            rw [List.mem_append, hm, List.mem_singleton, List.mem_cons, Prod.ext_iff]
            simp only [hes, true_and]
            exact or_comm
      · simp only [if_neg hes, Option.map_id', id_eq] at hds
        obtain ⟨hn, hm⟩ := h.edge s ds hds
        refine ⟨hn, fun d => ?_⟩
        rw [hm, List.mem_cons, Prod.ext_iff]
        have : ¬ s = e.1 := fun h => hes h.symm
        simp only [this, false_and, false_or]
    · intro d hd
      simp only [List.getElem?_modify, Option.map_eq_map, h.deg d hd, List.countP_cons]
      by_cases hed : e.2 = d
      · simp [hed]
      · simp [hed]
    · intro x
      rw [List.mem_cons]
      exact or_comm

theorem addEdges_wf {n : Nat} {g : Graph} (h : g.Wf n) (es : List (Nat × Nat))
    (he : ∀ e ∈ es, e.1 < n ∧ e.2 < n) :
    ∃ g', addEdges g es = some g' ∧ g'.Wf n ∧ ∀ x, x ∈ g'.seen ↔ x ∈ g.seen ∨ x ∈ es := by
  induction es generalizing g with
  | nil => exact ⟨g, rfl, h, by simp⟩
  | cons e es ih =>
    obtain ⟨g1, e1, w1, s1⟩ := addEdge_wf h (he e (by simp))
    obtain ⟨g2, e2, w2, s2⟩ := ih w1 fun x hx => he x (by simp [hx])
    refine ⟨g2, by simp [addEdges, e1, e2], w2, fun x => ?_⟩
    rw [s2, s1, List.mem_cons, or_assoc]

theorem Supports.lt {cs : List (List Literal)} {s d : Nat} (h : Supports cs s d) :
    s < cs.length ∧ d < cs.length := by
  obtain ⟨_, cd, hd, ls, hs, _⟩ := h
  exact ⟨(List.getElem?_eq_some_iff.mp hs).1, (List.getElem?_eq_some_iff.mp hd).1⟩

/-- The graph collected for a list of clauses. -/
theorem graph_wf (cs : List (List Literal)) :
    ∃ g, addEdges ⟨[], List.replicate cs.length [], List.replicate cs.length 0⟩
      (unitCandidates cs ++ memberCandidates cs) = some g ∧ g.Wf cs.length ∧
      ∀ s d, (s, d) ∈ g.seen ↔ Supports cs s d := by
  have h0 : Graph.Wf cs.length ⟨[], List.replicate cs.length [], List.replicate cs.length 0⟩ := by
    refine ⟨by simp, by simp, by simp, by simp, ?_, ?_⟩
    · intro s ds h
      simp only [List.getElem?_replicate] at h
      split at h
      · cases h; simp
      · cases h
    · intro d hd
      simp [List.getElem?_replicate, hd]
  obtain ⟨g, e, w, s⟩ := addEdges_wf h0 (unitCandidates cs ++ memberCandidates cs)
    (fun e he => Supports.lt (cs := cs) (mem_candidates.mp he))
  refine ⟨g, e, w, fun s' d => ?_⟩
  rw [s, mem_candidates]
  simp

/-! ### The loop -/

theorem relax_spec (ds : List Nat) (hn : ds.Nodup) (indegree ready : List Nat)
    (hd : ∀ d ∈ ds, ∃ k, indegree[d]? = some (k + 1)) (hr : ready.Nodup) :
    ∃ indegree' ready', relax indegree ready ds = some (indegree', ready') ∧ ready'.Nodup ∧
      indegree'.length = indegree.length ∧
      (∀ x, indegree'[x]? = (indegree[x]?).map fun k => if x ∈ ds then k - 1 else k) ∧
      (∀ x, x ∈ ready' ↔ x ∈ ready ∨ (x ∈ ds ∧ indegree[x]? = some 1)) := by
  induction ds generalizing indegree ready with
  | nil => exact ⟨indegree, ready, rfl, hr, rfl, by simp, by simp⟩
  | cons d ds ih =>
    obtain ⟨k, hk⟩ := hd d (by simp)
    have hn' := List.nodup_cons.mp hn
    have hlt : d < indegree.length := (List.getElem?_eq_some_iff.mp hk).1
    have other : ∀ x, x ≠ d → (indegree.set d k)[x]? = indegree[x]? := fun x hx =>
      List.getElem?_set_ne (fun h => hx h.symm)
    generalize hrd : (if k = 0 then (if ready.contains d then ready else d :: ready) else ready) = ready1
    have hr1 : ready1.Nodup := by
      subst hrd
      split
      · split
        · exact hr
        · rename_i h
          exact List.nodup_cons.mpr ⟨by simpa using h, hr⟩
      · exact hr
    have hm1 : ∀ x, x ∈ ready1 ↔ x ∈ ready ∨ (x = d ∧ k = 0) := by
      intro x
      subst hrd
      by_cases hk0 : k = 0
      · rw [if_pos hk0]
        by_cases hc : ready.contains d = true
        · rw [if_pos hc]
          have : d ∈ ready := by simpa using hc
          constructor
          · exact .inl
          · rintro (h | ⟨rfl, _⟩) <;> assumption
        · rw [if_neg hc, List.mem_cons]
          simp [hk0, or_comm]
      · simp [hk0]
    obtain ⟨i', r', e, hrn, hln, hi, hm⟩ := ih hn'.2 (indegree.set d k) ready1
      (fun x hx => by
        rw [other x (fun h => hn'.1 (h ▸ hx))]
        exact hd x (by simp [hx])) hr1
    refine ⟨i', r', by simp only [relax, hk, hrd, e], hrn, by simpa using hln, ?_, ?_⟩
    · intro x
      rw [hi]
      by_cases hx : x = d
      · subst hx
        rw [List.getElem?_set_self hlt, hk]
        simp [hn'.1]
      · rw [other x hx]
        simp [hx]
    · intro x
      rw [hm, hm1]
      by_cases hx : x = d
      · subst hx
        simp [hn'.1, hk]
      · rw [other x hx]
        simp [hx]

theorem popFirst_none {ready : List Nat} : popFirst ready = none ↔ ready = [] := by
  simp [popFirst, List.min?_eq_none_iff]

theorem popFirst_some {ready : List Nat} {x : Nat} {rest : List Nat}
    (h : popFirst ready = some (x, rest)) :
    x ∈ ready ∧ (∀ y ∈ ready, x ≤ y) ∧ rest = ready.erase x := by
  simp only [popFirst, Option.map_eq_some_iff, Prod.mk.injEq] at h
  obtain ⟨a, ha, rfl, rfl⟩ := h
  obtain ⟨h1, h2⟩ := List.min?_eq_some_iff.mp ha
  exact ⟨h1, h2, rfl⟩

/-- Number of unplaced supports of `d`. -/
def waiting (E : List (Nat × Nat)) (o : List Nat) (d : Nat) : Nat :=
  E.countP fun e => e.2 == d && !(o.contains e.1)

theorem waiting_zero {E : List (Nat × Nat)} {o : List Nat} {d : Nat} :
    waiting E o d = 0 ↔ ∀ s, (s, d) ∈ E → s ∈ o := by
  unfold waiting
  rw [List.countP_eq_zero]
  constructor
  · intro h s hs
    have := h _ hs
    simpa using this
  · rintro h ⟨s, d'⟩ he
    simp only [Bool.and_eq_true, beq_iff_eq, Bool.not_eq_true', not_and, Bool.not_eq_false]
    rintro rfl
    simpa using h s he

theorem waiting_snoc {E : List (Nat × Nat)} (hn : E.Nodup) {o : List Nat} {x : Nat} (hx : x ∉ o) (d : Nat) :
    waiting E o d = waiting E (o ++ [x]) d + if (x, d) ∈ E then 1 else 0 := by
  unfold waiting
  induction E with
  | nil => simp
  | cons e E ih =>
    obtain ⟨hne, hn'⟩ := List.nodup_cons.mp hn
    rw [List.countP_cons, List.countP_cons, ih hn']
    obtain ⟨s, d'⟩ := e
    by_cases hd : d' = d
    · subst hd
      by_cases hs : s = x
      · subst hs
        have : ¬ (s, d') ∈ E := hne
        simp [this, hx]
      · have : ¬ x = s := fun h => hs h.symm
        by_cases ho : s ∈ o
        · simp [ho, this, hs]
        · simp [ho, this, hs]
          omega
    · have : ¬ d = d' := fun h => hd h.symm
      simp [hd, this]

/-- Orders built by repeatedly taking the least line that waits for nothing. -/
inductive Greedy (E : List (Nat × Nat)) (n : Nat) : List Nat → Prop
  | nil : Greedy E n []
  | snoc {o : List Nat} {x : Nat} : Greedy E n o → x < n → x ∉ o → (∀ s, (s, x) ∈ E → s ∈ o) →
      (∀ y < n, y ∉ o → (∀ s, (s, y) ∈ E → s ∈ o) → x ≤ y) → Greedy E n (o ++ [x])

theorem Greedy.nodup {E : List (Nat × Nat)} {n : Nat} {o : List Nat} (h : Greedy E n o) : o.Nodup := by
  induction h with
  | nil => simp
  | snoc _ _ hx _ _ ih =>
    rw [List.nodup_append]
    exact ⟨ih, by simp, by rintro a ha b hb rfl; simp at hb; exact hx (hb ▸ ha)⟩

theorem Greedy.lt {E : List (Nat × Nat)} {n : Nat} {o : List Nat} (h : Greedy E n o) : ∀ x ∈ o, x < n := by
  induction h with
  | nil => simp
  | snoc _ hl _ _ _ ih =>
    intro y hy
    rcases List.mem_append.mp hy with hy | hy
    · exact ih y hy
    · simp at hy; exact hy ▸ hl

theorem kahn_spec {n : Nat} {g : Graph} (w : g.Wf n) (fuel : Nat) (indegree ready o : List Nat)
    (hf : n ≤ o.length + fuel) (hg : Greedy g.seen n o)
    (hi : ∀ d < n, indegree[d]? = some (waiting g.seen o d)) (hil : indegree.length = n) (hrn : ready.Nodup)
    (hr : ∀ x, x ∈ ready ↔ x < n ∧ x ∉ o ∧ ∀ s, (s, x) ∈ g.seen → s ∈ o) :
    ∃ o', kahn g.edges fuel indegree ready o = some o' ∧ Greedy g.seen n o' ∧
      ∀ x < n, x ∉ o' → ∃ s, (s, x) ∈ g.seen ∧ s ∉ o' := by
  induction fuel generalizing indegree ready o with
  | zero =>
    have hall : ∀ x < n, x ∈ o := by
      intro x hx
      have hsub : o ⊆ List.range n := fun y hy => by simpa using hg.lt y hy
      have hp : o.Subperm (List.range n) := List.subperm_of_subset hg.nodup hsub
      have := hp.perm_of_length_le (by simpa using hf)
      exact this.mem_iff.mpr (by simpa using hx)
    have : ready = [] := by
      refine List.eq_nil_iff_forall_not_mem.mpr fun x hx => ?_
      obtain ⟨a, b, _⟩ := (hr x).mp hx
      exact b (hall x a)
    refine ⟨o, ?_, hg, fun x hx hxo => absurd (hall x hx) hxo⟩
    unfold kahn
    rw [popFirst_none.mpr this]
  | succ fuel ih =>
    unfold kahn
    cases hp : popFirst ready with
    | none =>
      have := popFirst_none.mp hp
      refine ⟨o, rfl, hg, fun x hx hxo => ?_⟩
      refine Classical.byContradiction fun hc => ?_
      have : x ∈ ready := (hr x).mpr ⟨hx, hxo, fun s hs => Classical.byContradiction fun h => hc ⟨s, hs, h⟩⟩
      simp_all
    | some p =>
      obtain ⟨x, rest⟩ := p
      obtain ⟨hx, hmin, rfl⟩ := popFirst_some hp
      obtain ⟨hxn, hxo, hxs⟩ := (hr x).mp hx
      obtain ⟨ds, hds⟩ : ∃ ds, g.edges[x]? = some ds := by
        rw [List.getElem?_eq_getElem (by rw [w.el]; exact hxn)]
        exact ⟨_, rfl⟩
      obtain ⟨hdn, hdm⟩ := w.edge x ds hds
      have wait1 : ∀ d ∈ ds, waiting g.seen o d = waiting g.seen (o ++ [x]) d + 1 := by
        intro d hd
        rw [waiting_snoc w.nodup hxo, if_pos ((hdm d).mp hd)]
      obtain ⟨i', r', e, hrn', hlen, hi', hr'⟩ := relax_spec ds hdn indegree (ready.erase x)
        (fun d hd => ⟨_, by rw [hi d (w.lt _ ((hdm d).mp hd)).2, wait1 d hd]⟩) (hrn.erase x)
      rw [hil] at hlen
      simp only [hds, e]
      refine ih i' r' (o ++ [x]) (by simp; omega) (hg.snoc hxn hxo hxs ?_) ?_ ?_ hrn' ?_
      · intro y hy hyo hys
        exact hmin y ((hr y).mpr ⟨hy, hyo, hys⟩)
      · intro d hd
        rw [hi', hi d hd, Option.map_some, Option.some.injEq, waiting_snoc w.nodup hxo]
        simp only [hdm]
        split <;> simp
      · exact hlen
      · intro y
        rw [hr', hrn.mem_erase_iff, hr, hdm]
        simp only [List.mem_append, List.mem_singleton, not_or]
        constructor
        · rintro (⟨hyx, a, b, c⟩ | ⟨hys, h1⟩)
          · exact ⟨a, ⟨b, hyx⟩, fun s hs => .inl (c s hs)⟩
          · have hyn := (w.lt _ hys).2
            rw [hi y hyn, Option.some.injEq] at h1
            have hw := waiting_snoc w.nodup hxo y
            rw [if_pos hys, h1] at hw
            have hz : waiting g.seen (o ++ [x]) y = 0 := by omega
            refine ⟨hyn, ⟨fun hyo => ?_, ?_⟩, fun s hs => ?_⟩
            · exact hxo (greedy_closed hg hyo hys)
            · rintro rfl
              exact hxo (hxs _ hys)
            · simpa using waiting_zero.mp hz s hs
        · rintro ⟨a, ⟨b, c⟩, d⟩
          by_cases hys : (x, y) ∈ g.seen
          · refine .inr ⟨hys, ?_⟩
            have hz : waiting g.seen (o ++ [x]) y = 0 := waiting_zero.mpr fun s hs => by simpa using d s hs
            rw [hi y a, waiting_snoc w.nodup hxo, if_pos hys, hz]
          · refine .inl ⟨c, a, b, fun s hs => ?_⟩
            rcases d s hs with h | rfl
            · exact h
            · exact absurd hs hys
where
  greedy_closed {E : List (Nat × Nat)} {n : Nat} {o : List Nat} (h : Greedy E n o) {s y : Nat} (hy : y ∈ o)
      (hs : (s, y) ∈ E) : s ∈ o := by
    induction h with
    | nil => simp at hy
    | snoc _ _ _ hc _ ih =>
      rcases List.mem_append.mp hy with hy | hy
      · exact List.mem_append.mpr (.inl (ih hy))
      · simp at hy; subst hy
        exact List.mem_append.mpr (.inl (hc s hs))

theorem Greedy.split {E : List (Nat × Nat)} {n : Nat} {o : List Nat} (h : Greedy E n o) {pre post : List Nat}
    {x : Nat} (he : o = pre ++ x :: post) :
    (∀ s, (s, x) ∈ E → s ∈ pre) ∧
    (∀ y < n, y ∉ pre → (∀ s, (s, y) ∈ E → s ∈ pre) → x ≤ y) := by
  induction h generalizing post with
  | nil => simp at he
  | @snoc o z _ _ _ hc hm ih =>
    rcases List.eq_nil_or_concat post with rfl | ⟨post', w, rfl⟩
    · obtain ⟨rfl, h2⟩ := List.append_inj' he rfl
      simp at h2
      subst h2
      exact ⟨hc, hm⟩
    · have : o ++ [z] = (pre ++ x :: post') ++ [w] := by rw [he]; simp
      obtain ⟨h1, _⟩ := List.append_inj' this rfl
      exact ih h1

end Acorn.ProofOrder
