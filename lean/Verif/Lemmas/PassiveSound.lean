/-
Simplifying the passive set keeps its meaning.
-/
import Verif.Lemmas.PassiveSimplify
import Verif.Lemmas.MatchClause
import Verif.Lemmas.PdtLiterals
namespace Acorn
namespace Passive
open Term Spec Fingerprint

universe u
variable {R : Type} {S : Setup R} {p p' : PassiveSet R} {M : Interp.{u}} {K : KCtx} {Γ Δ : LCtx}

/-! ### The variables that a match maps -/

theorem matchVar_keys {m m' : VMap} {i : Nat} {t : Term} (e : m.matchVar i t = some m') {j : Nat}
    (h : (m'.get j).isSome = true) : (m.get j).isSome = true ∨ j = i := by
  obtain ⟨_, _, h3⟩ := matchVar_spec e
  obtain ⟨u, hu⟩ := Option.isSome_iff_exists.1 h
  rcases h3 j u hu with h | ⟨rfl, _⟩
  · exact .inl (by rw [h]; rfl)
  · exact .inr rfl

theorem matchVarTyped_keys {m m' : VMap} {i : Nat} {s : Term}
    (e : VMap.matchVarTyped K Γ Δ m i s = some (some m')) {j : Nat} (h : (m'.get j).isSome = true) :
    (m.get j).isSome = true ∨ j = i := by
  unfold VMap.matchVarTyped at e
  split at e
  · cases e
  · split at e
    · cases e
    · split at e
      · cases e
      · dsimp only at e
        split at e
        · cases e
        · split at e
          · split at e
            · exact matchVar_keys (Option.some.inj e) h
            · cases e
          · exact matchVar_keys (Option.some.inj e) h

theorem matchTerms_keys (K : KCtx) : ∀ (n : Nat) (Γ Δ : LCtx) (m m' : VMap) (g s : Term), g.size ≤ n →
    VMap.matchTerms K Γ Δ m g s = some (some m') → ∀ j, (m'.get j).isSome = true →
      (m.get j).isSome = true ∨ g.hasVar j = true := by
  intro n
  induction n with
  | zero => intro Γ Δ m m' g s hn; cases g <;> simp [size] at hn
  | succ n ih =>
    intro Γ Δ m m' g s hn e j hj
    rw [VMap.matchTerms.eq_def] at e
    split at e
    · rename_i T a b T' a' b'
      simp only [size] at hn
      have key : ∀ x y, VMap.andThen (VMap.matchTerms K Γ Δ m T T') (fun m1 =>
            VMap.andThen (VMap.matchTerms K Γ Δ m1 a x) fun m2 =>
              VMap.matchTerms K Γ Δ m2 b y) = some (some m') →
          (m.get j).isSome = true ∨ (Term.eq T a b).hasVar j = true := by
        intro x y e
        obtain ⟨m1, e1, e⟩ := andThen_some e
        obtain ⟨m2, e2, e3⟩ := andThen_some e
        rcases ih _ _ _ _ _ _ (by omega) e3 j hj with h | h
        · rcases ih _ _ _ _ _ _ (by omega) e2 j h with h | h
          · rcases ih _ _ _ _ _ _ (by omega) e1 j h with h | h
            · exact .inl h
            · exact .inr (hv_app.2 (.inl (hv_app.2 (.inl (hv_app.2 (.inr h))))))
          · exact .inr (hv_app.2 (.inl (hv_app.2 (.inr h))))
        · exact .inr (hv_app.2 (.inr h))
      rcases orElse_some e with e | e
      · exact key a' b' e
      · exact key b' a' e
    · rcases matchVarTyped_keys e hj with h | rfl
      · exact .inl h
      · exact .inr (by simp [hv_fvar])
    · split at e
      · cases e; exact .inl hj
      · cases e
    · simp only [size] at hn
      obtain ⟨m1, e1, e2⟩ := andThen_some e
      rcases ih _ _ _ _ _ _ (by omega) e2 j hj with h | h
      · rcases ih _ _ _ _ _ _ (by omega) e1 j h with h | h
        · exact .inl h
        · exact .inr (hv_app.2 (.inl h))
      · exact .inr (hv_app.2 (.inr h))
    · simp only [size] at hn
      split at e
      · subst_vars
        obtain ⟨m1, e1, e2⟩ := andThen_some e
        rcases ih _ _ _ _ _ _ (by omega) e2 j hj with h | h
        · rcases ih _ _ _ _ _ _ (by omega) e1 j h with h | h
          · exact .inl h
          · exact .inr (hv_bind.2 (.inl h))
        · exact .inr (hv_bind.2 (.inr h))
      · cases e
    · cases e

theorem pairMap_keys {l r a b : Term} {m : VMap} (e : pairMap K Γ Δ l r a b = some (some m)) {j : Nat}
    (h : (m.get j).isSome = true) : l.hasVar j = true ∨ r.hasVar j = true := by
  obtain ⟨m1, e1, e2⟩ := andThen_some e
  rcases matchTerms_keys K _ _ _ _ _ _ _ (Nat.le_refl _) e2 j h with h | h
  · rcases matchTerms_keys K _ _ _ _ _ _ _ (Nat.le_refl _) e1 j h with h | h
    · simp [VMap.get] at h
    · exact .inl h
  · exact .inr h

/-- A literal that the activated one matches is as true as that. -/
theorem pairMap_true (L : Lawful K M) (hN : NoEmpty K M) {l r a b : Term} {m : VMap} {positive : Bool}
    (e : pairMap K Γ Δ l r a b = some (some m)) (hc : PlainClause K ⟨[⟨positive, l, r⟩], Γ⟩)
    (hd : PlainClause K ⟨[⟨positive, a, b⟩], Δ⟩) (ht : ClauseTrue M ⟨[⟨positive, l, r⟩], Γ⟩) :
    ClauseTrue M ⟨[⟨positive, a, b⟩], Δ⟩ := by
  refine clauseMatches_true L hN hc hd ?_ ht
  have hm : Checker.matchLits K Γ Δ [] ⟨positive, l, r⟩ ⟨positive, a, b⟩ = some (some m) := by
    simp only [Checker.matchLits, ne_eq, not_true_eq_false, if_false]
    simp only [pairMap] at e
    rw [e]; rfl
  simp [Checker.clauseMatches, Checker.matchFrom, Checker.picks, Out.any, hm, Out.ofOption]
  rfl

/-! ### The activated literal -/

/-- What is needed of the activated literal, in one direction. -/
structure GoodSimplifier (K : KCtx) (M : Interp.{u}) (f : Simplifier) : Prop where
  plain : PlainClause K ⟨[⟨f.positive, f.left, f.right⟩], f.ctx⟩
  truth : ClauseTrue M ⟨[⟨f.positive, f.left, f.right⟩], f.ctx⟩
  keys : ∀ ids, f.ids = some ids → ∀ j, f.left.hasVar j = true ∨ f.right.hasVar j = true → j < ids.length

theorem GoodSimplifier.remap {f : Simplifier} (h : GoodSimplifier K M f) {a b : Term} {m : VMap}
    (e : pairMap K f.ctx Δ f.left f.right a b = some (some m)) : keysRemap m f.ids = true := by
  unfold keysRemap
  split
  · rfl
  · rename_i ids hi
    rw [List.all_eq_true]
    intro j _
    cases hj : m.get j with
    | none => rfl
    | some t =>
      have := h.keys ids hi j (pairMap_keys e (by rw [hj]; rfl))
      simp [this]

theorem plain_lit {ls : List Literal} (h : PlainClause K ⟨ls, Γ⟩) {l : Literal} (hl : l ∈ ls) (positive : Bool) :
    PlainClause K ⟨[⟨positive, l.left, l.right⟩], Γ⟩ := by
  refine ⟨h.vars, fun l' hl' => ?_, fun l' hl' => ?_⟩
  · rw [List.mem_singleton.1 hl']; exact h.lits l hl
  · rw [List.mem_singleton.1 hl']; exact h.noSorts l hl

theorem plain_flip {ls : List Literal} (h : PlainClause K ⟨ls, Γ⟩) {l : Literal} (hl : l ∈ ls) (positive : Bool) :
    PlainClause K ⟨[⟨positive, l.right, l.left⟩], Γ⟩ := by
  refine ⟨h.vars, fun l' hl' => ?_, fun l' hl' => ?_⟩
  · rw [List.mem_singleton.1 hl']
    obtain ⟨T, h1, h2, h3⟩ := h.lits l hl
    exact ⟨T, h1, h3, h2⟩
  · rw [List.mem_singleton.1 hl']
    intro a ha
    refine h.noSorts l hl a ?_
    simp only [List.mem_append] at ha ⊢
    exact ha.symm

/-- The truth of a literal that is found. -/
theorem GoodSimplifier.lit (L : Lawful K M) (hN : NoEmpty K M) {f : Simplifier} (h : GoodSimplifier K M f)
    {ls : List Literal} (hp : PlainClause K ⟨ls, Δ⟩) {l : Literal} (hl : l ∈ ls) {m : VMap}
    (e : pairMap K f.ctx Δ f.left f.right l.left l.right = some (some m) ∨
      pairMap K f.ctx Δ f.left f.right l.right l.left = some (some m)) {ρ β : Nat → M.D} (hρ : Models M Δ ρ) :
    LitHolds M ρ β l ↔ l.positive = f.positive := by
  have key : LitHolds M ρ β ⟨f.positive, l.left, l.right⟩ := by
    rcases e with e | e
    · obtain ⟨x, hx, hh⟩ := pairMap_true L hN e h.plain (plain_lit hp hl _) h.truth ρ hρ β
      rw [List.mem_singleton.1 hx] at hh; exact hh
    · obtain ⟨x, hx, hh⟩ := pairMap_true L hN e h.plain (plain_flip hp hl _) h.truth ρ hρ β
      rw [List.mem_singleton.1 hx] at hh
      simp only [LitHolds] at hh ⊢
      split at hh
      · rename_i h; rw [if_pos h]; exact hh.symm
      · rename_i h; rw [if_neg h]; exact fun x => hh x.symm
  obtain ⟨lp, ll, lr⟩ := l
  simp only [LitHolds] at key ⊢
  cases lp <;> cases hf : f.positive <;> simp_all

theorem keepLits_cons {l r : Term} {positive : Bool} {ids : Option (List Nat)} {a : Literal} {as : List Literal}
    {o : Option (List Literal)} (e : keepLits K Γ Δ l r positive ids (a :: as) = .ok o) :
    (∃ m, (pairMap K Γ Δ l r a.left a.right = some (some m) ∨ pairMap K Γ Δ l r a.right a.left = some (some m)) ∧
      ((a.positive = positive ∧ o = none) ∨ (a.positive ≠ positive ∧ keysRemap m ids = false ∧ o = none) ∨
       (a.positive ≠ positive ∧ keepLits K Γ Δ l r positive ids as = .ok o))) ∨
    ∃ o', pairMap K Γ Δ l r a.left a.right = some none ∧ keepLits K Γ Δ l r positive ids as = .ok o' ∧
      o = o'.map (a :: ·) := by
  simp only [keepLits, Bind.bind, Except.bind] at e
  have fin : ∀ m, (pairMap K Γ Δ l r a.left a.right = some (some m) ∨ pairMap K Γ Δ l r a.right a.left = some (some m)) →
      (if (a.positive == positive) = true then (.ok none : Except Panic (Option (List Literal)))
        else if keysRemap m ids = true then keepLits K Γ Δ l r positive ids as else .ok none) = .ok o →
      (∃ m, (pairMap K Γ Δ l r a.left a.right = some (some m) ∨ pairMap K Γ Δ l r a.right a.left = some (some m)) ∧
      ((a.positive = positive ∧ o = none) ∨ (a.positive ≠ positive ∧ keysRemap m ids = false ∧ o = none) ∨
       (a.positive ≠ positive ∧ keepLits K Γ Δ l r positive ids as = .ok o))) := by
    intro m hm e
    refine ⟨m, hm, ?_⟩
    split at e
    · rename_i hp; cases e; exact .inl ⟨by simpa using hp, rfl⟩
    · rename_i hp
      have hp : a.positive ≠ positive := by simpa using hp
      split at e
      · exact .inr (.inr ⟨hp, e⟩)
      · rename_i hk; cases e; exact .inr (.inl ⟨hp, by simpa using hk, rfl⟩)
  split at e
  · cases e
  · rename_i h1
    have h1 := orTerm_ok h1
    split at e
    · rename_i m _
      simp only [pure, Except.pure] at e
      exact .inl (fin m (.inl h1) e)
    · split at e
      · cases e
      · rename_i h2
        have h2 := orTerm_ok h2
        split at e
        · rename_i m _
          exact .inl (fin m (.inr h2) e)
        · right
          split at e
          · cases e
          · rename_i o' h3
            refine ⟨o', h1, h3, ?_⟩
            cases o' with
            | none => cases e; rfl
            | some ls => cases e; rfl

/-- What the loop keeps. -/
theorem keepLits_holds (L : Lawful K M) (hN : NoEmpty K M) {f : Simplifier} (h : GoodSimplifier K M f) :
    ∀ {ls : List Literal} {o : Option (List Literal)}, PlainClause K ⟨ls, Δ⟩ →
      keepLits K f.ctx Δ f.left f.right f.positive f.ids ls = .ok o →
      (o = none → ∀ ρ β, Models M Δ ρ → LitsHold M ρ β ls) ∧
      ∀ ks, o = some ks → (∀ k ∈ ks, k ∈ ls) ∧ ∀ ρ β, Models M Δ ρ → (LitsHold M ρ β ks ↔ LitsHold M ρ β ls) := by
  intro ls
  induction ls with
  | nil =>
    intro o _ e
    simp only [keepLits, Except.ok.injEq] at e
    subst e
    exact ⟨(fun h => by cases h), fun ks hk => by cases hk; exact ⟨by simp, fun _ _ _ => Iff.rfl⟩⟩
  | cons a as ih =>
    intro o hp e
    have hp' : PlainClause K ⟨as, Δ⟩ := ⟨hp.vars, fun l hl => hp.lits l (List.mem_cons_of_mem _ hl),
      fun l hl => hp.noSorts l (List.mem_cons_of_mem _ hl)⟩
    have split : ∀ ρ β, LitsHold M ρ β (a :: as) ↔ LitHolds M ρ β a ∨ LitsHold M ρ β as := by
      intro ρ β; simp [LitsHold]
    rcases keepLits_cons e with ⟨m, hm, ⟨ha, rfl⟩ | ⟨ha, hk, rfl⟩ | ⟨ha, e'⟩⟩ | ⟨o', _, e', rfl⟩
    · refine ⟨fun _ ρ β hρ => ?_, fun ks hk => by cases hk⟩
      exact (split ρ β).2 (.inl ((h.lit L hN hp (List.mem_cons_self ..) hm hρ).2 ha))
    · have : keysRemap m f.ids = true := hm.elim (fun e => h.remap e) fun e => h.remap e
      rw [this] at hk; cases hk
    · obtain ⟨i1, i2⟩ := ih hp' e'
      refine ⟨fun ho ρ β hρ => (split ρ β).2 (.inr (i1 ho ρ β hρ)), fun ks hk => ?_⟩
      obtain ⟨j1, j2⟩ := i2 ks hk
      refine ⟨fun k hk => List.mem_cons_of_mem _ (j1 k hk), fun ρ β hρ => ?_⟩
      rw [j2 ρ β hρ, split ρ β]
      exact ⟨.inr, fun hh => hh.resolve_left fun hl => ha ((h.lit L hN hp (List.mem_cons_self ..) hm hρ).1 hl)⟩
    · obtain ⟨i1, i2⟩ := ih hp' e'
      refine ⟨fun ho ρ β hρ => ?_, fun ks hk => ?_⟩
      · cases o' with
        | none => exact (split ρ β).2 (.inr (i1 rfl ρ β hρ))
        | some x => cases ho
      · cases o' with
        | none => cases hk
        | some x =>
          cases hk
          obtain ⟨j1, j2⟩ := i2 x rfl
          refine ⟨fun k hk => ?_, fun ρ β hρ => ?_⟩
          · rcases List.mem_cons.1 hk with rfl | hk
            · exact List.mem_cons_self ..
            · exact List.mem_cons_of_mem _ (j1 k hk)
          · rw [split ρ β, ← j2 ρ β hρ]; simp [LitsHold]

/-- The simplified clause means the same as the clause. -/
theorem makeSimplified_true (L : Lawful K M) (hN : NoEmpty K M) {f : Simplifier} (h : GoodSimplifier K M f)
    {ls : List Literal} {o : Option Clause} (hp : PlainClause K ⟨ls, Δ⟩)
    (e : makeSimplified K f.ctx Δ f.left f.right f.positive f.ids ls = .ok o) :
    (o = none → ClauseTrue M ⟨ls, Δ⟩) ∧
      ∀ c, o = some c → PlainClause K c ∧ (ClauseTrue M c ↔ ClauseTrue M ⟨ls, Δ⟩) := by
  simp only [makeSimplified, Bind.bind, Except.bind] at e
  split at e
  · cases e
  · rename_i ko hk
    obtain ⟨k1, k2⟩ := keepLits_holds L hN h hp hk
    cases ko with
    | none =>
      cases e
      exact ⟨fun _ ρ hρ β => k1 rfl ρ β hρ, fun c hc => by cases hc⟩
    | some ks =>
      dsimp only at e
      split at e
      · cases e
      · rename_i t ht
        have ht := orTerm_ok ht
        cases e
        obtain ⟨j1, j2⟩ := k2 ks rfl
        have hpk : PlainClause K ⟨ks, Δ⟩ := ⟨hp.vars, fun l hl => hp.lits l (j1 l hl), fun l hl => hp.noSorts l (j1 l hl)⟩
        have hr := renewed_withTrace L hN hpk ht
        refine ⟨(fun h => by cases h), fun c hc => ?_⟩
        cases hc
        refine ⟨hr.plain, hr.truth.trans ?_⟩
        exact forall_congr' fun ρ => forall_congr' fun hρ => forall_congr' fun β => j2 ρ β hρ

theorem good_forward {l : Literal} (hp : PlainClause K ⟨[l], Γ⟩) (ht : ClauseTrue M ⟨[l], Γ⟩) :
    GoodSimplifier K M ⟨l.left, l.right, l.positive, Γ, none⟩ :=
  ⟨hp, ht, fun _ h => by cases h⟩

theorem good_reversed (hN : NoEmpty K M) {l : Literal} {right left : Term} {Γ' : LCtx} {ids : List Nat}
    (hp : PlainClause K ⟨[l], Γ⟩) (ht : ClauseTrue M ⟨[l], Γ⟩)
    (e : Pdt.normalizedReversed l Γ = some (right, left, Γ', ids)) :
    GoodSimplifier K M ⟨right, left, l.positive, Γ', some ids⟩ := by
  obtain ⟨n1, n2, n3, n4, n5⟩ := Pdt.normalizedReversed_spec e
  simp only [Pdt.normalizedReversed, Option.bind_eq_bind, Option.bind_eq_some_iff, Option.pure_def,
    Option.some.injEq, Prod.mk.injEq] at e
  obtain ⟨⟨r1, ids1⟩, h1, ⟨a1, ids2⟩, h2, P1, h3, rfl, rfl, rfl, rfl⟩ := e
  have hp' : PlainClause K ⟨[⟨l.positive, l.right, l.left⟩], Γ⟩ := plain_flip hp (List.mem_singleton_self l) _
  have ht' : ClauseTrue M ⟨[⟨l.positive, l.right, l.left⟩], Γ⟩ := by
    intro ρ hρ β
    obtain ⟨x, hx, hh⟩ := ht ρ hρ β
    rw [List.mem_singleton.1 hx] at hh
    refine ⟨_, List.mem_singleton_self _, ?_⟩
    simp only [LitHolds] at hh ⊢
    split at hh
    · rename_i h; rw [if_pos h]; exact hh.symm
    · rename_i h; rw [if_neg h]; exact fun x => hh x.symm
  have en : litsNormVars Γ [] [⟨l.positive, l.right, l.left⟩] = some ([Literal.new l.positive r1 a1], ids2) := by
    simp [litsNormVars, Literal.normVars, h1, h2]
  have hr := renewed_rename hN hp' List.nodup_nil en h3
  refine ⟨?_, ?_, ?_⟩
  · refine plainClause_iff.2 ⟨hr.plain.vars, fun x hx => ?_⟩
    rw [List.mem_singleton.1 hx]
    exact neat_new.1 (hr.plain.neat (List.mem_singleton_self _))
  · intro ρ hρ β
    obtain ⟨x, hx, hh⟩ := hr.truth.2 ht' ρ hρ β
    rw [List.mem_singleton.1 hx] at hh
    exact ⟨_, List.mem_singleton_self _, (litHolds_new _ _ _).1 hh⟩
  · intro ids hi j hj
    cases hi
    have key : ∀ {t : Term}, (∀ i, t.hasVar i = true → i ∈ ids2) → (t.byIds ids2).hasVar j = true → j < ids2.length := by
      intro t hm hv
      obtain ⟨i, hi, rfl⟩ := hasVar_vmap hv
      exact List.idxOf_lt_length_of_mem (hm i hi)
    dsimp only at hj n2 n3 n4 n5
    rw [n2, n3] at hj
    exact hj.elim (key n4) (key n5)

/-! ### The loop -/

theorem has_steps {c : Clause} : p.Has c ↔ ∃ s, some s ∈ p.steps ∧ s.clause = c := by
  constructor
  · rintro ⟨id, s, sc, hw, rfl⟩
    exact ⟨s, List.mem_of_getElem? (steps_get.2 ⟨sc, hw⟩), rfl⟩
  · rintro ⟨s, hs, rfl⟩
    obtain ⟨id, hid⟩ := List.getElem?_of_mem hs
    obtain ⟨sc, hw⟩ := steps_get.1 hid
    exact ⟨id, s, sc, hw, rfl⟩

theorem has_append {news : List (Step R)} (e : p'.steps = p.steps ++ news.map some) {c : Clause} :
    p'.Has c ↔ p.Has c ∨ ∃ s ∈ news, s.clause = c := by
  rw [has_steps, has_steps, e]
  constructor
  · rintro ⟨s, hs, rfl⟩
    rcases List.mem_append.1 hs with h | h
    · exact .inl ⟨s, h, rfl⟩
    · obtain ⟨x, hx, ex⟩ := List.mem_map.1 h
      cases ex
      exact .inr ⟨s, hx, rfl⟩
  · rintro (⟨s, hs, rfl⟩ | ⟨s, hs, rfl⟩)
    · exact ⟨s, List.mem_append_left _ hs, rfl⟩
    · exact ⟨s, List.mem_append_right _ (List.mem_map_of_mem hs), rfl⟩

theorem has_forget {id : Nat} {s : Step R} {sc : Score} (hw : p.Waits id s sc) {c : Clause} :
    ((p.forget id sc).Has c → p.Has c) ∧ (p.Has c → (p.forget id sc).Has c ∨ c = s.clause) := by
  constructor
  · rintro ⟨j, t, st, h, rfl⟩
    exact ⟨j, t, st, ((waits_forget hw).1 h).2, rfl⟩
  · rintro ⟨j, t, st, h, rfl⟩
    by_cases hj : j = id
    · subst hj
      have e : some (some (s, sc)) = some (some (t, st)) := hw.symm.trans h
      cases e
      exact .inr rfl
    · exact .inl ⟨j, t, st, (waits_forget hw).2 ⟨hj, h⟩, rfl⟩

theorem forget_plain {id : Nat} {s : Step R} {sc : Score} (hw : p.Waits id s sc) (h : p.AllPlain K) :
    (p.forget id sc).AllPlain K := fun c hc => h c ((has_forget hw).1 hc)

theorem forget_true {id : Nat} {s : Step R} {sc : Score} (hw : p.Waits id s sc) (h : p.AllTrue M) :
    (p.forget id sc).AllTrue M := fun c hc => h c ((has_forget hw).1 hc)

theorem Visited.sound (L : Lawful S.K M) (hN : NoEmpty S.K M) {act : Step R} {f : Simplifier}
    (hf : GoodSimplifier S.K M f) {id i : Nat} {s : Step R} {sc : Score} {l : Literal} {new : Option (Step R)}
    (h : Visited S act f p id i s sc l new) (hp : PlainClause S.K s.clause) :
    (∀ n, new = some n → PlainClause S.K n.clause ∧ (ClauseTrue M n.clause ↔ ClauseTrue M s.clause)) ∧
      (new = none → AllInhabited S → ClauseTrue M s.clause) := by
  obtain ⟨_, hl, ⟨m, hm⟩, _, hr⟩ := h
  have hmem := List.mem_of_getElem? hl
  have hp' : PlainClause S.K ⟨s.clause.lits, s.clause.ctx⟩ := hp
  rcases hr with ⟨hs, rfl⟩ | ⟨_, e, rfl⟩ | ⟨c, _, e, ⟨_, hu, rfl⟩ | ⟨_, rfl⟩⟩
  · refine ⟨(fun n h => by cases h), fun _ _ ρ hρ β => ?_⟩
    exact ⟨l, hmem, (hf.lit L hN hp' hmem (.inl hm) hρ).2 hs.symm⟩
  · exact ⟨(fun n h => by cases h), fun _ _ => (makeSimplified_true L hN hf hp' e).1 rfl⟩
  · exact ⟨(fun n h => by cases h), fun _ hi => absurd ⟨fun T _ => hi _ T, fun T _ => hi _ T⟩ hu⟩
  · refine ⟨fun n h => ?_, fun h => by cases h⟩
    cases h
    exact (makeSimplified_true L hN hf hp' e).2 c rfl

theorem Visits.sound (L : Lawful S.K M) (hN : NoEmpty S.K M) {act : Step R} {f : Simplifier}
    (hf : GoodSimplifier S.K M f) {hits : List (Nat × Nat)} {news : List (Step R)}
    (h : Visits S act f p hits p' news) : p.AllPlain S.K →
      (p'.AllPlain S.K ∧ ∀ n ∈ news, PlainClause S.K n.clause) ∧
      (p.AllTrue M → p'.AllTrue M ∧ ∀ n ∈ news, ClauseTrue M n.clause) ∧
      (AllInhabited S → p'.AllTrue M → (∀ n ∈ news, ClauseTrue M n.clause) → p.AllTrue M) := by
  induction h with
  | nil p => intro hp; exact ⟨⟨hp, by simp⟩, fun h => ⟨h, by simp⟩, fun _ h _ => h⟩
  | skip _ _ ih => exact ih
  | @take p id i hits p' s sc l new news hv _ ih =>
    intro hp
    obtain ⟨⟨i1, i2⟩, i3, i4⟩ := ih (forget_plain hv.waits hp)
    obtain ⟨v1, v2⟩ := hv.sound L hN hf (hp _ ⟨id, s, sc, hv.waits, rfl⟩)
    refine ⟨⟨i1, fun n hn => ?_⟩, fun ht => ⟨(i3 (forget_true hv.waits ht)).1, fun n hn => ?_⟩, fun hi ht hn => ?_⟩
    · rcases List.mem_append.1 hn with hn | hn
      · exact (v1 n (by simpa using hn)).1
      · exact i2 n hn
    · rcases List.mem_append.1 hn with hn | hn
      · exact (v1 n (by simpa using hn)).2.2 (ht _ ⟨id, s, sc, hv.waits, rfl⟩)
      · exact (i3 (forget_true hv.waits ht)).2 n hn
    · intro c hc
      rcases (has_forget hv.waits).2 hc with hc | rfl
      · exact i4 hi ht (fun n h => hn n (List.mem_append_right _ h)) c hc
      · cases new with
        | none => exact v2 rfl hi
        | some n => exact (v1 n rfl).2.1 (hn n (by simp))

/-- What a simplification does to the meaning of the set. -/
structure SameMeaning (S : Setup R) (M : Interp.{u}) (p p' : PassiveSet R) : Prop where
  plain : p'.AllPlain S.K
  forward : p.AllTrue M → p'.AllTrue M
  backward : AllInhabited S → p'.AllTrue M → p.AllTrue M

theorem simplifyOne_sound (L : Lawful S.K M) (hN : NoEmpty S.K M) {order : List (Nat × Nat) → List (Nat × Nat)}
    (ho : ∀ l, (order l).Perm l) {act : Step R} {f : Simplifier} (hf : GoodSimplifier S.K M f) (ha : Agrees S p)
    (hs : Scored S p) (hp : p.AllPlain S.K) (e : p.simplifyOne S order act f = .ok p') :
    SameMeaning S M p p' ∧ Kept S p p' := by
  rcases simplifyOne_spec (S := S) ho (act := act) (f := f) ha hs with e' | ⟨hits, p1, news, q, e', _, hv, _, hk, hst⟩
  · rw [e'] at e; cases e
  · rw [e'] at e; cases e
    obtain ⟨⟨i1, i2⟩, i3, i4⟩ := hv.sound L hN hf hp
    refine ⟨⟨fun c hc => ?_, fun ht c hc => ?_, fun hi ht => i4 hi (fun c hc => ?_) fun n hn => ?_⟩, hk⟩
    · rcases (has_append hst).1 hc with h | ⟨n, hn, rfl⟩
      · exact i1 c h
      · exact i2 n hn
    · rcases (has_append hst).1 hc with h | ⟨n, hn, rfl⟩
      · exact (i3 ht).1 c h
      · exact (i3 ht).2 n hn
    · exact ht c ((has_append hst).2 (.inl hc))
    · exact ht _ ((has_append hst).2 (.inr ⟨n, hn, rfl⟩))

theorem simplify_sound (L : Lawful S.K M) (hN : NoEmpty S.K M) {order : List (Nat × Nat) → List (Nat × Nat)}
    (ho : ∀ l, (order l).Perm l) {act : Step R} (hl : act.clause.lits.length = 1) (hpa : PlainClause S.K act.clause)
    (hta : ClauseTrue M act.clause) (ha : Agrees S p) (hs : Scored S p) (hp : p.AllPlain S.K)
    (e : p.simplify S order act = .ok p') : SameMeaning S M p p' := by
  obtain ⟨l, hl⟩ := List.length_eq_one_iff.1 hl
  have hc : act.clause = ⟨[l], act.clause.ctx⟩ := by rw [← hl]
  rw [hc] at hpa hta
  rcases simplify_spec (S := S) ho hl ha hs with e' | ⟨p1, e1, ⟨_, e2⟩ | ⟨right, left, Γ, ids, p2, _, en, e2, e3⟩⟩
  · rw [e'] at e; cases e
  · rw [e2] at e; cases e
    exact (simplifyOne_sound L hN ho (good_forward hpa hta) ha hs hp e1).1
  · rw [e3] at e; cases e
    obtain ⟨m1, k1⟩ := simplifyOne_sound L hN ho (good_forward hpa hta) ha hs hp e1
    obtain ⟨m2, _⟩ := simplifyOne_sound L hN ho (good_reversed hN hpa hta en) k1.agrees k1.scored m1.plain e2
    exact ⟨m2.plain, fun h => m2.forward (m1.forward h), fun hi h => m1.backward hi (m2.backward hi h)⟩

/-! ### Histories -/

theorem op_sound (L : Lawful S.K M) (hN : NoEmpty S.K M) (ha : Agrees S p) (hs : Scored S p) (hp : p.AllPlain S.K)
    (ht : p.AllTrue M) {o : Op R} (ho : o.Ok) (hop : ∀ c, o.Uses c → PlainClause S.K c ∧ ClauseTrue M c)
    {x : Option (Entry R)} (e : p.op S o = .ok (p', x)) :
    p'.AllPlain S.K ∧ p'.AllTrue M ∧ ∀ y, x = some y → PlainClause S.K y.step.clause ∧ ClauseTrue M y.step.clause := by
  cases o with
  | push steps =>
    simp only [PassiveSet.op, Bind.bind, Except.bind] at e
    rcases push_spec ha hs steps with e' | ⟨q, e', _, _, h3, _⟩
    · rw [e'] at e; cases e
    · rw [e'] at e; cases e
      refine ⟨fun c hc => ?_, fun c hc => ?_, fun y h => by cases h⟩ <;> rcases (has_append h3).1 hc with h | ⟨n, hn, rfl⟩
      · exact hp c h
      · exact (hop _ ⟨n, hn, rfl⟩).1
      · exact ht c h
      · exact (hop _ ⟨n, hn, rfl⟩).2
  | pop =>
    simp only [PassiveSet.op, Bind.bind, Except.bind] at e
    rcases pop_spec ha with ⟨e', _⟩ | ⟨z, hw, e', _⟩
    · rw [e'] at e; cases e
      exact ⟨hp, ht, fun y h => by cases h⟩
    · rw [e'] at e; cases e
      refine ⟨forget_plain hw hp, forget_true hw ht, fun y h => ?_⟩
      cases h
      exact ⟨hp _ ⟨_, _, _, hw, rfl⟩, ht _ ⟨_, _, _, hw, rfl⟩⟩
  | popShallow =>
    simp only [PassiveSet.op, Bind.bind, Except.bind] at e
    rcases popShallow_spec ha with ⟨e', _⟩ | ⟨z, hw, _, e', _⟩
    · rw [e'] at e; cases e
      exact ⟨hp, ht, fun y h => by cases h⟩
    · rw [e'] at e; cases e
      refine ⟨forget_plain hw hp, forget_true hw ht, fun y h => ?_⟩
      cases h
      exact ⟨hp _ ⟨_, _, _, hw, rfl⟩, ht _ ⟨_, _, _, hw, rfl⟩⟩
  | simplify order act =>
    simp only [PassiveSet.op, Bind.bind, Except.bind] at e
    split at e
    · cases e
    · rename_i q e'
      cases e
      obtain ⟨h1, h2⟩ := hop act.clause rfl
      have := simplify_sound L hN ho.2 ho.1 h1 h2 ha hs hp e'
      exact ⟨this.plain, this.forward ht, fun y h => by cases h⟩

theorem run_sound (L : Lawful S.K M) (hN : NoEmpty S.K M) : ∀ (os : List (Op R)) {p p' : PassiveSet R} {es : List (Entry R)},
    Agrees S p → Scored S p → p.AllPlain S.K → p.AllTrue M → (∀ o ∈ os, Op.Ok o) →
    (∀ o ∈ os, ∀ c, o.Uses c → PlainClause S.K c ∧ ClauseTrue M c) → p.run S os = .ok (p', es) →
    p'.AllPlain S.K ∧ p'.AllTrue M ∧ ∀ y ∈ es, PlainClause S.K y.step.clause ∧ ClauseTrue M y.step.clause := by
  intro os
  induction os with
  | nil => intro p p' es _ _ hp ht _ _ e; cases e; exact ⟨hp, ht, by simp⟩
  | cons o os ih =>
    intro p p' es ha hs hp ht ho hop e
    simp only [PassiveSet.run, Bind.bind, Except.bind] at e
    rcases op_spec ha hs (ho o (List.mem_cons_self ..)) with e' | ⟨p1, x, e', h1, h2, _⟩
    · rw [e'] at e; cases e
    · rw [e'] at e
      obtain ⟨k1, k2, k3⟩ := op_sound L hN ha hs hp ht (ho o (List.mem_cons_self ..)) (hop o (List.mem_cons_self ..)) e'
      dsimp only at e
      split at e
      · cases e
      · rename_i q eq
        obtain ⟨q, es'⟩ := q
        cases e
        obtain ⟨j1, j2, j3⟩ := ih h1 h2 k1 k2 (fun o h => ho o (List.mem_cons_of_mem _ h))
          (fun o h => hop o (List.mem_cons_of_mem _ h)) eq
        refine ⟨j1, j2, fun y hy => ?_⟩
        rcases List.mem_append.1 hy with hy | hy
        · exact k3 y (by simpa using hy)
        · exact j3 y hy

/-! ### What stays after a simplification -/

theorem visit_same {act : Step R} {f : Simplifier} {id i : Nat} {s : Step R} {sc : Score} {l : Literal} {m : VMap}
    (hw : p.Waits id s sc) (hl : s.clause.lits[i]? = some l)
    (hm : pairMap S.K f.ctx s.clause.ctx f.left f.right l.left l.right = some (some m))
    (e : p.visit S act f id i = .ok (p, none)) : s.assumption = true ∧ l.positive = f.positive := by
  have no : ∀ new, (.ok (p.forget id sc, new) : Except Panic (PassiveSet R × Option (Step R))) ≠ .ok (p, none) := by
    intro new h
    have h1 : p.forget id sc = p := by injection h with h; exact congrArg Prod.fst h
    exact ((waits_forget hw).1 (h1.symm ▸ hw)).1 rfl
  have hw' : p.clauses[id]? = some (some (s, sc)) := hw
  unfold PassiveSet.visit at e
  rw [hw'] at e
  dsimp only at e
  rw [hl] at e
  dsimp only at e
  rw [hm] at e
  simp only [orTerm, Bind.bind, Except.bind, pure, Except.pure] at e
  split at e
  · rename_i h
    simp only [Bool.and_eq_true, beq_iff_eq] at h
    exact ⟨h.1, h.2.symm⟩
  · split at e
    · exact absurd e (no _)
    · split at e
      · cases e
      · split at e
        · exact absurd e (no _)
        · split at e
          · exact absurd e (no _)
          · exact absurd e (no _)

theorem Visits.later {act : Step R} {f : Simplifier} {hits : List (Nat × Nat)} {news : List (Step R)}
    (h : Visits S act f p hits p' news) : Later p p' := by
  induction h with
  | nil p => exact .refl _
  | skip _ _ ih => exact ih
  | take hv _ ih => exact (later_forget hv.waits).trans ih

theorem Visits.length {act : Step R} {f : Simplifier} {hits : List (Nat × Nat)} {news : List (Step R)}
    (h : Visits S act f p hits p' news) : p'.clauses.length = p.clauses.length := by
  induction h with
  | nil p => rfl
  | skip _ _ ih => exact ih
  | take hv _ ih => rw [ih]; simp [PassiveSet.forget]

theorem Visits.left {act : Step R} {f : Simplifier} {hits : List (Nat × Nat)} {news : List (Step R)}
    (h : Visits S act f p hits p' news) {id i : Nat} (hh : (id, i) ∈ hits) {s : Step R} {sc : Score} {l : Literal}
    {m : VMap} (hw : p'.Waits id s sc) (hid : id < p.clauses.length) (hl : s.clause.lits[i]? = some l)
    (hm : pairMap S.K f.ctx s.clause.ctx f.left f.right l.left l.right = some (some m)) :
    s.assumption = true ∧ l.positive = f.positive := by
  induction h with
  | nil p => cases hh
  | @skip p id' i' hits p' news hv hs ih =>
    rcases List.mem_cons.1 hh with e | hh
    · cases e
      obtain ⟨sc', hw'⟩ := hv.later.old id hid s sc hw
      exact visit_same hw' hl hm hs
    · exact ih hh hw hid
  | @take p id' i' hits p' s' sc' l' new news hv ht ih =>
    rcases List.mem_cons.1 hh with e | hh
    · cases e
      have hid' : id < (p.forget id sc').clauses.length := by simpa [PassiveSet.forget] using hid
      obtain ⟨sc'', hw'⟩ := ht.later.old id hid' s sc hw
      exact absurd rfl ((waits_forget hv.waits).1 hw').1
    · exact ih hh hw (by simpa [PassiveSet.forget] using hid)

theorem Agrees.hit (h : Agrees S p) {id i : Nat} {s : Step R} {sc : Score} {l : Literal} (hw : p.Waits id s sc)
    (hl : s.clause.lits[i]? = some l) : ∃ es, addLiterals S.K es = some p.literals ∧ (s.clause.ctx, l, (id, i)) ∈ es := by
  obtain ⟨es, h1, _, h3⟩ := h.index
  exact ⟨es, h1, h3 id s sc hw i l hl⟩

theorem simplifyOne_left {order : List (Nat × Nat) → List (Nat × Nat)} (ho : ∀ l, (order l).Perm l) {act : Step R}
    {f : Simplifier} (ha : Agrees S p) (hs : Scored S p) (e : p.simplifyOne S order act f = .ok p') {id i : Nat}
    {s : Step R} {sc : Score} {l : Literal} {m : VMap} (hw : p'.Waits id s sc) (hid : id < p.clauses.length)
    (hl : s.clause.lits[i]? = some l)
    (hm : pairMap S.K f.ctx s.clause.ctx f.left f.right l.left l.right = some (some m))
    (hf : ∀ sc, p.Waits id s sc → ∀ hits, findSpecializing S.K p.literals f.ctx f.left f.right = some hits → (id, i) ∈ hits) :
    s.assumption = true ∧ l.positive = f.positive := by
  rcases simplifyOne_spec (S := S) ho (act := act) (f := f) ha hs with e' | ⟨hits, p1, news, q, e', h1, hv, hk1, hk, hst⟩
  · rw [e'] at e; cases e
  · rw [e'] at e; cases e
    obtain ⟨sc1, hw1⟩ := (later_steps hst).old id (Nat.lt_of_lt_of_le hid hk1.later.len) s sc hw
    obtain ⟨sc0, hw0⟩ := hk.later.old id hid s sc hw
    exact hv.left ((ho hits).mem_iff.2 (hf sc0 hw0 hits h1)) hw1 hid hl hm

/-! ### Where new steps come from -/

theorem keepLits_shorter {l r : Term} {positive : Bool} {ids : Option (List Nat)} :
    ∀ {ls ks : List Literal}, keepLits K Γ Δ l r positive ids ls = .ok (some ks) → ks.Sublist ls ∧
      ∀ a ∈ ls, ∀ m, pairMap K Γ Δ l r a.left a.right = some (some m) → ks.length < ls.length := by
  intro ls
  induction ls with
  | nil => intro ks e; simp only [keepLits, Except.ok.injEq, Option.some.injEq] at e; subst e; simp
  | cons a as ih =>
    intro ks e
    rcases keepLits_cons e with ⟨m, hm, ⟨_, h⟩ | ⟨_, _, h⟩ | ⟨_, e'⟩⟩ | ⟨o', hn, e', ho⟩
    · cases h
    · cases h
    · obtain ⟨i1, _⟩ := ih e'
      exact ⟨i1.trans (List.sublist_cons_self ..), fun _ _ _ _ => Nat.lt_succ_of_le i1.length_le⟩
    · cases o' with
      | none => cases ho
      | some x =>
        cases ho
        obtain ⟨i1, i2⟩ := ih e'
        refine ⟨i1.cons_cons a, fun b hb m hm => ?_⟩
        rcases List.mem_cons.1 hb with rfl | hb
        · rw [hn] at hm; cases hm
        · exact Nat.succ_lt_succ (i2 b hb m hm)

theorem Visits.from {act : Step R} {f : Simplifier} {p0 : PassiveSet R} {hits : List (Nat × Nat)} {news : List (Step R)}
    (h : Visits S act f p hits p' news)
    (hp : ∀ id s sc, p.Waits id s sc → Origin S p0 act s) :
    ∀ n ∈ news, ∃ s, Origin S p0 act s ∧ SimplifiedFrom S act s n := by
  induction h with
  | nil p => simp
  | skip _ _ ih => exact ih hp
  | @take p id i hits p' s sc l new news hv ht ih =>
    intro n hn
    rcases List.mem_append.1 hn with hn | hn
    · obtain ⟨hw, hl, ⟨m, hm⟩, _, hr⟩ := hv
      rcases hr with ⟨_, rfl⟩ | ⟨_, _, rfl⟩ | ⟨c, _, e, ⟨_, _, rfl⟩ | ⟨_, rfl⟩⟩
      · simp at hn
      · simp at hn
      · simp at hn
      · simp only [Option.toList_some, List.mem_singleton] at hn
        subst hn
        simp only [makeSimplified, Bind.bind, Except.bind] at e
        split at e
        · cases e
        · rename_i ko hk
          cases ko with
          | none => cases e
          | some ks =>
            dsimp only at e
            split at e
            · cases e
            · rename_i t ht'
              cases e
              obtain ⟨k1, k2⟩ := keepLits_shorter hk
              exact ⟨s, hp id s sc hw, ks, t, k1, k2 l (List.mem_of_getElem? hl) m hm, orTerm_ok ht', rfl⟩
    · exact ih (fun j t st h => hp j t st ((waits_forget hv.waits).1 h).2) n hn

theorem simplifyOne_from {order : List (Nat × Nat) → List (Nat × Nat)} (ho : ∀ l, (order l).Perm l) {act : Step R}
    {f : Simplifier} (ha : Agrees S p) (hs : Scored S p) (e : p.simplifyOne S order act f = .ok p') {p0 : PassiveSet R}
    (hp : ∀ id s sc, p.Waits id s sc → Origin S p0 act s) :
    Kept S p p' ∧ ∀ id s sc, p'.Waits id s sc → p.clauses.length ≤ id → ∃ o, Origin S p0 act o ∧ SimplifiedFrom S act o s := by
  rcases simplifyOne_spec (S := S) ho (act := act) (f := f) ha hs with e' | ⟨hits, p1, news, q, e', _, hv, hk1, hk, hst⟩
  · rw [e'] at e; cases e
  · rw [e'] at e; cases e
    refine ⟨hk, fun id s sc hw hid => ?_⟩
    have hg := steps_get.2 ⟨sc, hw⟩
    have hl : p1.steps.length = p.clauses.length := by
      have := hv.length
      simpa [PassiveSet.steps] using this
    rw [hst, List.getElem?_append_right (by omega), List.getElem?_map] at hg
    obtain ⟨n, hn, e2⟩ := Option.map_eq_some_iff.1 hg
    cases e2
    exact hv.from hp s (List.mem_of_getElem? hn)

/-! ### The number of waiting steps -/

theorem waiting_count (h : Agrees S p) : p.len = (p.steps.filter (·.isSome)).length := by
  have hn : (((List.range p.clauses.length).filter fun i => ((p.clauses[i]?).bind (fun o => o)).isSome)).Nodup :=
    List.nodup_range.filter _
  have h1 : (p.queue.map Prod.snd).Nodup := by
    rw [List.Nodup, List.pairwise_map]
    refine List.Pairwise.imp_of_mem ?_ h.queue.nodup
    intro a b ha hb hab e
    obtain ⟨i, s, sc, hi, rfl⟩ := (h.queue.mem a).1 ha
    obtain ⟨j, t, st, hj, rfl⟩ := (h.queue.mem b).1 hb
    dsimp only at e
    subst e
    rw [hi] at hj
    cases hj
    exact hab rfl
  have h2 : (p.queue.map Prod.snd).Perm
      ((List.range p.clauses.length).filter fun i => ((p.clauses[i]?).bind (fun o => o)).isSome) := by
    refine (List.perm_ext_iff_of_nodup h1 hn).2 fun i => ?_
    simp only [List.mem_map, List.mem_filter, List.mem_range]
    constructor
    · rintro ⟨k, hk, rfl⟩
      obtain ⟨i, s, sc, hi, rfl⟩ := (h.queue.mem k).1 hk
      exact ⟨(List.getElem?_eq_some_iff.1 hi).1, by simp [hi]⟩
    · rintro ⟨hi, hb⟩
      obtain ⟨x, hx⟩ := Option.isSome_iff_exists.1 hb
      obtain ⟨o, ho, rfl⟩ := Option.bind_eq_some_iff.1 hx
      exact ⟨(x.2, i), (h.queue.mem _).2 ⟨i, x.1, x.2, ho, rfl⟩, rfl⟩
  have h3 : ∀ cs : List (Option (Step R × Score)),
      ((List.range cs.length).filter fun i => ((cs[i]?).bind (fun o => o)).isSome).length =
        ((cs.map (Option.map Prod.fst)).filter (·.isSome)).length := by
    intro cs
    induction cs with
    | nil => rfl
    | cons c cs ih =>
      rw [List.length_cons, List.range_succ_eq_map, List.filter_cons, List.filter_map, List.map_cons, List.filter_cons]
      cases c with
      | none => simpa [Function.comp_def] using ih
      | some x => simpa [Function.comp_def] using ih
  have := h2.length_eq
  rw [List.length_map, h3] at this
  exact this

/-! ### Contradictions -/

theorem reports_model (hr : ReportsHold S M) (hv : ValueVars S.K Γ) (hi : Inhabits S Γ) (d : M.D) :
    ∃ ρ, Models M Γ ρ := by
  have key : ∀ i, ∃ d : M.D, ∀ T, Γ.get i = some T → ∀ ρ β, M.mem d (eval M ρ β T) := by
    intro i
    cases hT : Γ.get i with
    | none => exact ⟨d, fun T h => by cases h⟩
    | some T =>
      have hm : some T ∈ Γ := by
        unfold LCtx.get at hT
        obtain ⟨o, ho, e⟩ := Option.bind_eq_some_iff.1 hT
        exact List.mem_of_getElem? (ho.trans (congrArg some e))
      obtain ⟨d, hd⟩ := hr Γ T (hi T hm)
      exact ⟨d, fun T' h => by cases h; exact hd⟩
  exact ⟨fun i => Classical.choose (key i), fun i T h β => Classical.choose_spec (key i) T h _ β⟩

end Passive
end Acorn
