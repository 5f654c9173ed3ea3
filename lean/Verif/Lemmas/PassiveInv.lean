/-
The invariant of the passive set and its preservation.
-/
import Verif.Lemmas.PassiveSet
namespace Acorn
namespace Passive
open Fingerprint Spec

variable {R : Type} {S : Setup R} {p p' : PassiveSet R}

/-- The parts of the passive set agree. -/
structure Agrees (S : Setup R) (p : PassiveSet R) : Prop where
  queue : Keyed (fun sc id => (sc, id)) p.clauses p.queue
  df : ∀ q, p.dfQueue = some q → Keyed dfKey p.clauses q
  period : p.dfQueue.isSome = S.period.isSome
  index : ∃ es, addLiterals S.K es = some p.literals ∧
    (∀ Γ l id i, (Γ, l, (id, i)) ∈ es → id < p.clauses.length ∧ ∀ s sc, p.Waits id s sc →
      s.clause.ctx = Γ ∧ s.clause.lits[i]? = some l) ∧
    ∀ id s sc, p.Waits id s sc → ∀ (i : Nat) l, s.clause.lits[i]? = some l → (s.clause.ctx, l, (id, i)) ∈ es
  singles : ∀ k positive id, p.singles.get? k = some (positive, id) → id < p.clauses.length ∧
    ∀ s sc, p.Waits id s sc → s.clause.lits = [⟨positive, k.1, k.2⟩]
  clash : ∀ i j, p.contradiction = some (i, j) → i < p.clauses.length ∧ j < p.clauses.length ∧
    ∀ a sa b sb, p.Waits i a sa → p.Waits j b sb → Clash S a b

/-- Every score is one the scorer gave, and not from before the goal was known if the scorer looks at
it. -/
def Scored (S : Setup R) (p : PassiveSet R) : Prop :=
  ∀ id s sc, p.Waits id s sc → ∃ g, g <+: p.goal ∧ sc = S.score g s ∧ (S.usesGoal = true → p.goal ≠ [] → g ≠ [])

theorem agrees_new : Agrees S (PassiveSet.new S) := by
  have no : ∀ (id : Nat) (s : Step R) (sc : Score), ¬ ([] : List (Option (Step R × Score)))[id]? = some (some (s, sc)) := by simp
  refine ⟨⟨fun k => ?_, List.nodup_nil⟩, ?_, ?_, ⟨[], rfl, by simp, fun id s sc h => absurd h (no _ _ _)⟩, ?_, ?_⟩
  · simp [PassiveSet.new]
  · intro q hq
    simp only [PassiveSet.new, Option.map_eq_some_iff] at hq
    obtain ⟨_, _, rfl⟩ := hq
    exact ⟨by simp [PassiveSet.new], List.nodup_nil⟩
  · simp [PassiveSet.new]
  · intro k b id h; simp [PassiveSet.new, AMap.get?, AMap.empty] at h
  · intro i j h; simp [PassiveSet.new] at h

/-- The number of pops and the flag do not matter. -/
theorem Agrees.other (h : Agrees S p) (b : Bool) (n : Nat) : Agrees S { p with allShallow := b, popCount := n } :=
  ⟨h.queue, h.df, h.period, h.index, h.singles, h.clash⟩

theorem Agrees.goal (h : Agrees S p) (g : List (Step R)) : Agrees S { p with goal := g } :=
  ⟨h.queue, h.df, h.period, h.index, h.singles, h.clash⟩

/-- Clauses that go away, or get another score. -/
theorem Agrees.shrink (h : Agrees S p) (hl : p'.clauses.length = p.clauses.length)
    (hw : ∀ id s sc, p'.Waits id s sc → ∃ sc', p.Waits id s sc') (e1 : p'.literals = p.literals)
    (e2 : p'.singles = p.singles) (e3 : p'.contradiction = p.contradiction)
    (hq : Keyed (fun sc id => (sc, id)) p'.clauses p'.queue) (hd : ∀ q, p'.dfQueue = some q → Keyed dfKey p'.clauses q)
    (hp : p'.dfQueue.isSome = p.dfQueue.isSome) : Agrees S p' := by
  obtain ⟨es, h1, h2, h3⟩ := h.index
  refine ⟨hq, hd, hp.trans h.period, ⟨es, e1 ▸ h1, ?_, ?_⟩, ?_, ?_⟩
  · intro Γ l id i hm
    obtain ⟨h4, h5⟩ := h2 Γ l id i hm
    refine ⟨hl ▸ h4, fun s sc hs => ?_⟩
    obtain ⟨sc', hs'⟩ := hw _ _ _ hs
    exact h5 _ _ hs'
  · intro id s sc hs
    obtain ⟨sc', hs'⟩ := hw _ _ _ hs
    exact h3 _ _ _ hs'
  · intro k b id hk
    rw [e2] at hk
    obtain ⟨h4, h5⟩ := h.singles k b id hk
    refine ⟨hl ▸ h4, fun s sc hs => ?_⟩
    obtain ⟨sc', hs'⟩ := hw _ _ _ hs
    exact h5 _ _ hs'
  · intro i j hc
    rw [e3] at hc
    obtain ⟨h4, h5, h6⟩ := h.clash i j hc
    refine ⟨hl ▸ h4, hl ▸ h5, fun a sa b sb ha hb => ?_⟩
    obtain ⟨_, ha'⟩ := hw _ _ _ ha
    obtain ⟨_, hb'⟩ := hw _ _ _ hb
    exact h6 _ _ _ _ ha' hb'

theorem waits_forget {id : Nat} {s : Step R} {sc : Score} (hw : p.Waits id s sc) {j : Nat} {t : Step R} {st : Score} :
    (p.forget id sc).Waits j t st ↔ j ≠ id ∧ p.Waits j t st := by
  simp only [PassiveSet.Waits, PassiveSet.forget] at hw ⊢
  by_cases hj : id = j
  · subst hj
    rw [getElem?_set_same hw]
    simp
  · rw [getElem?_set_other hj]
    exact ⟨fun h => ⟨Ne.symm hj, h⟩, fun h => h.2⟩

theorem Agrees.forget (h : Agrees S p) {id : Nat} {s : Step R} {sc : Score} (hw : p.Waits id s sc) :
    Agrees S (p.forget id sc) := by
  refine h.shrink (by simp [PassiveSet.forget]) (fun j t st ht => ⟨st, ((waits_forget hw).1 ht).2⟩) rfl rfl rfl
    (h.queue.remove entryOrder hw) ?_ (by simp [PassiveSet.forget])
  intro q hq
  simp only [PassiveSet.forget, Option.map_eq_some_iff] at hq
  obtain ⟨q0, h0, rfl⟩ := hq
  exact (h.df q0 h0).remove dfOrder hw

theorem Scored.forget (h : Scored S p) {id : Nat} {s : Step R} {sc : Score} (hw : p.Waits id s sc) :
    Scored S (p.forget id sc) := fun _ _ _ ht => h _ _ _ ((waits_forget hw).1 ht).2

/-! ### Pushing -/

theorem orTerm_error {α : Type} {o : Option α} {e : Panic} (h : orTerm o = .error e) : e = .term := by
  cases o with
  | none => simp [orTerm] at h; exact h.symm
  | some a => simp [orTerm] at h

theorem orTerm_ok {α : Type} {o : Option α} {a : α} (h : orTerm o = .ok a) : o = some a := by
  cases o with
  | none => simp [orTerm] at h
  | some b => simp [orTerm] at h; rw [h]

theorem indexLits_spec {K : KCtx} {Γ : LCtx} {id : Nat} : ∀ {ls : List Literal} {i : Nat}
    {ts ts' : Trees (List Component × List Component) (Nat × Nat)} {es : List (LCtx × Literal × (Nat × Nat))},
    indexLits K Γ id i ls ts = some ts' → addLiterals K es = some ts →
    ∃ es', addLiterals K es' = some ts' ∧
      ∀ x, x ∈ es' ↔ (∃ (j : Nat) (l : Literal), ls[j]? = some l ∧ x = (Γ, l, (id, i + j))) ∨ x ∈ es := by
  intro ls
  induction ls with
  | nil =>
    intro i ts ts' es h1 h2
    simp only [indexLits, Option.some.injEq] at h1
    subst h1
    exact ⟨es, h2, by simp⟩
  | cons l ls ih =>
    intro i ts ts' es h1 h2
    simp only [indexLits, Option.bind_eq_bind, Option.bind_eq_some_iff] at h1
    obtain ⟨t1, h3, h4⟩ := h1
    have h5 : addLiterals K ((Γ, l, (id, i)) :: es) = some t1 := by
      rw [addLiterals, h2]; exact h3
    obtain ⟨es', h6, h7⟩ := ih h4 h5
    refine ⟨es', h6, fun x => ?_⟩
    rw [h7]
    constructor
    · rintro (⟨j, l', hj, rfl⟩ | hx)
      · exact .inl ⟨j + 1, l', by simpa using hj, by rw [Nat.add_assoc, Nat.add_comm 1 j]⟩
      · rcases List.mem_cons.1 hx with rfl | hx
        · exact .inl ⟨0, l, rfl, rfl⟩
        · exact .inr hx
    · rintro (⟨j, l', hj, rfl⟩ | hx)
      · cases j with
        | zero =>
          simp only [List.getElem?_cons_zero, Option.some.injEq] at hj
          subst hj
          exact .inr (List.mem_cons_self ..)
        | succ j => exact .inl ⟨j, l', by simpa using hj, by rw [Nat.add_assoc, Nat.add_comm 1 j]⟩
      · exact .inr (List.mem_cons_of_mem _ hx)

theorem allInhabited_iff {Γ : LCtx} : allInhabited S Γ = true ↔ Inhabits S Γ := by
  simp only [allInhabited, List.all_eq_true, Inhabits]
  constructor
  · intro h T hT; exact h _ hT
  · intro h o ho
    cases o with
    | none => rfl
    | some T => exact h T ho

theorem waits_push {p : PassiveSet R} {s t : Step R} {sc st : Score} {id : Nat} :
    (p.clauses ++ [some (s, sc)])[id]? = some (some (t, st)) ↔ p.Waits id t st ∨ (id = p.clauses.length ∧ t = s ∧ st = sc) := by
  simp only [PassiveSet.Waits]
  by_cases hj : id < p.clauses.length
  · rw [List.getElem?_append_left hj]
    exact ⟨.inl, fun h => h.elim id' fun h => by omega⟩
  · rw [List.getElem?_append_right (by omega), List.getElem?_eq_none (by omega : p.clauses.length ≤ id)]
    cases hk : id - p.clauses.length with
    | zero =>
      simp only [List.getElem?_cons_zero, Option.some.injEq, Prod.mk.injEq, reduceCtorEq, false_or]
      exact ⟨fun h => ⟨by omega, h.1.symm, h.2.symm⟩, fun h => ⟨h.2.1.symm, h.2.2.symm⟩⟩
    | succ n => simp; omega
where id' {α : Prop} : α → α := fun h => h

theorem recordSingle_spec (h : Agrees S p) (c : Clause) :
    ∃ r, recordSingle S p c = .ok r ∧
      (∀ k b id, r.1.get? k = some (b, id) → p.singles.get? k = some (b, id) ∨
        (id = p.clauses.length ∧ c.lits = [⟨b, k.1, k.2⟩])) ∧
      ∀ i j, r.2 = some (i, j) → p.contradiction = some (i, j) ∨
        (i < p.clauses.length ∧ j = p.clauses.length ∧ ∀ a sa, p.Waits i a sa →
          ∃ l : Literal, a.clause.lits = [l] ∧ c.lits = [⟨!l.positive, l.left, l.right⟩] ∧
            Inhabits S a.clause.ctx ∧ Inhabits S c.ctx) := by
  unfold recordSingle
  split
  · rename_i l hl
    split
    · refine ⟨_, rfl, fun k b id hk => ?_, fun i j hc => .inl hc⟩
      rw [AMap.get?_insert] at hk
      split at hk
      · rename_i hkk
        cases hk
        have hkk : k = (l.left, l.right) := hkk
        subst hkk
        exact .inr ⟨rfl, hl⟩
      · exact .inl hk
    · rename_i positive old ho
      obtain ⟨h1, h2⟩ := h.singles _ _ _ ho
      split
      · rename_i hne
        have hne : positive ≠ l.positive := by simpa using hne
        obtain ⟨o, ho'⟩ : ∃ o, p.clauses[old]? = some o := ⟨_, List.getElem?_eq_getElem h1⟩
        rw [ho']
        cases o with
        | none => exact ⟨_, rfl, fun k b id hk => .inl hk, fun i j hc => .inl hc⟩
        | some e =>
          obtain ⟨s0, sc0⟩ := e
          have hw : p.Waits old s0 sc0 := ho'
          dsimp only
          split
          · rename_i hi
            rw [Bool.and_eq_true, allInhabited_iff, allInhabited_iff] at hi
            refine ⟨_, rfl, fun k b id hk => .inl hk, fun i j hc => ?_⟩
            cases hc
            refine .inr ⟨h1, rfl, fun a sa ha => ?_⟩
            have hw' := hw
            simp only [PassiveSet.Waits] at ha hw'
            rw [ha] at hw'
            cases hw'
            refine ⟨_, h2 _ _ ha, ?_, hi.2, hi.1⟩
            rw [hl]
            obtain ⟨lp, ll, lr⟩ := l
            simp only at hne ⊢
            cases positive <;> cases lp <;> simp_all
          · exact ⟨_, rfl, fun k b id hk => .inl hk, fun i j hc => .inl hc⟩
      · exact ⟨_, rfl, fun k b id hk => .inl hk, fun i j hc => .inl hc⟩
  · exact ⟨_, rfl, fun k b id hk => .inl hk, fun i j hc => .inl hc⟩

theorem pushOne_spec (h : Agrees S p) (s : Step R) (sc : Score) :
    p.pushOne S s sc = .error .term ∨ ∃ p', p.pushOne S s sc = .ok p' ∧ Agrees S p' ∧
      p'.clauses = p.clauses ++ [some (s, sc)] ∧ p'.goal = p.goal ∧ p'.allShallow = p.allShallow ∧
      p'.popCount = p.popCount := by
  unfold PassiveSet.pushOne
  cases e1 : indexLits S.K s.clause.ctx p.clauses.length 0 s.clause.lits p.literals with
  | none => exact .inl rfl
  | some ts =>
    right
    obtain ⟨⟨sg, ct⟩, e2, g1, g2⟩ := recordSingle_spec h s.clause
    rw [e2]
    refine ⟨_, rfl, ?_, rfl, rfl, rfl, rfl⟩
    obtain ⟨es, h1, h2, h3⟩ := h.index
    obtain ⟨es', k1, k2⟩ := indexLits_spec e1 h1
    have lt : ∀ {id : Nat} {t : Step R} {st : Score}, p.Waits id t st → id < p.clauses.length := fun hw =>
      (List.getElem?_eq_some_iff.1 hw).1
    refine ⟨h.queue.push entryOrder, ?_, ?_, ⟨es', k1, ?_, ?_⟩, ?_, ?_⟩
    · intro q hq
      simp only [Option.map_eq_some_iff] at hq
      obtain ⟨q0, h0, rfl⟩ := hq
      exact (h.df q0 h0).push dfOrder
    · simpa using h.period
    · intro Γ l id i hm
      rw [k2] at hm
      simp only [List.length_append, List.length_cons, List.length_nil]
      rcases hm with ⟨j, l', hj, hx⟩ | hm
      · simp only [Prod.mk.injEq, Nat.zero_add] at hx
        obtain ⟨rfl, rfl, rfl, rfl⟩ := hx
        refine ⟨by omega, fun t st ht => ?_⟩
        rcases waits_push.1 ht with ht | ⟨_, rfl, _⟩
        · exact absurd (lt ht) (by omega)
        · exact ⟨rfl, hj⟩
      · obtain ⟨h4, h5⟩ := h2 _ _ _ _ hm
        refine ⟨by omega, fun t st ht => ?_⟩
        rcases waits_push.1 ht with ht | ⟨rfl, _, _⟩
        · exact h5 _ _ ht
        · omega
    · intro id t st ht i l hl
      rw [k2]
      rcases waits_push.1 ht with ht | ⟨rfl, rfl, _⟩
      · exact .inr (h3 _ _ _ ht _ _ hl)
      · exact .inl ⟨i, l, hl, by simp⟩
    · intro k b id hk
      simp only [List.length_append, List.length_cons, List.length_nil]
      rcases g1 k b id hk with hk | ⟨rfl, hl⟩
      · obtain ⟨h4, h5⟩ := h.singles _ _ _ hk
        refine ⟨by omega, fun t st ht => ?_⟩
        rcases waits_push.1 ht with ht | ⟨rfl, _, _⟩
        · exact h5 _ _ ht
        · omega
      · refine ⟨by omega, fun t st ht => ?_⟩
        rcases waits_push.1 ht with ht | ⟨_, rfl, _⟩
        · exact absurd (lt ht) (by omega)
        · exact hl
    · intro i j hc
      simp only [List.length_append, List.length_cons, List.length_nil]
      rcases g2 i j hc with hc | ⟨h4, rfl, h5⟩
      · obtain ⟨h4, h5, h6⟩ := h.clash _ _ hc
        refine ⟨by omega, by omega, fun a sa b sb ha hb => ?_⟩
        rcases waits_push.1 ha with ha | ⟨rfl, _, _⟩
        · rcases waits_push.1 hb with hb | ⟨rfl, _, _⟩
          · exact h6 _ _ _ _ ha hb
          · omega
        · omega
      · refine ⟨by omega, by omega, fun a sa b sb ha hb => ?_⟩
        rcases waits_push.1 ha with ha' | ⟨rfl, _, _⟩
        · rcases waits_push.1 hb with hb' | ⟨_, rfl, _⟩
          · exact absurd (lt hb') (by omega)
          · exact h5 _ _ ha'
        · omega

end Passive
end Acorn
