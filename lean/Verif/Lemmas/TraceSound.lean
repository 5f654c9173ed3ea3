/-
The checker of certificates keeps only true clauses.
-/
import Verif.Lemmas.TraceRulesSound
namespace Acorn
open Spec

universe u

variable {K : KCtx} {M : Interp.{u}} {ρ β : Nat → M.D} {E : TraceEnv} {st st' : TraceState} {step : CertStep}

/-- The state of the checker of certificates: everything it keeps is true. -/
structure TraceInv (K : KCtx) (M : Interp.{u}) (ρ β : Nat → M.D) (st : TraceState) : Prop where
  inv : Inv K M ρ β st.checker
  known : ∀ sc ∈ st.clauses, ∀ c ∈ sc.all, Known K M c

/-- What is fixed during the check. -/
structure Setting (K : KCtx) (M : Interp.{u}) (E : TraceEnv) : Prop where
  law : Lawful K M
  sig : PlainSignature K
  full : NoEmpty K M
  ctx : E.env.K = K
  hold : AliasesHold M E.aliases
  ok : AliasesOk K E.aliases

theorem mem_dedup {p c : Clause} {as : List Clause} : ∀ {acc : List Clause}, c ∈ StepClauses.dedup p acc as →
    c ∈ acc ∨ c ∈ as := by
  induction as with
  | nil => intro acc h; exact .inl h
  | cons a as ih =>
    intro acc h
    rw [StepClauses.dedup] at h
    rcases ih h with h | h
    · split at h
      · rcases List.mem_append.1 h with h | h
        · exact .inl h
        · rw [List.mem_singleton] at h; exact .inr (by simp [h])
      · exact .inl h
    · exact .inr (by simp [h])

theorem mem_stepClauses {p c : Clause} {as : List Clause} (h : c ∈ (StepClauses.new p as).all) : c = p ∨ c ∈ as := by
  simp only [StepClauses.all, StepClauses.new, List.mem_cons] at h
  rcases h with h | h
  · exact .inl h
  · rcases mem_dedup h with h | h
    · cases h
    · exact .inr h

theorem TraceInv.add (h : TraceInv K M ρ β st) {s : Checker} (hs : Inv K M ρ β s) {c : Clause} {as : List Clause}
    (hc : Known K M c) (ha : ∀ a ∈ as, Known K M a) :
    TraceInv K M ρ β ⟨s, st.clauses ++ [StepClauses.new c as]⟩ := by
  refine ⟨hs, fun sc hm d hd => ?_⟩
  rcases List.mem_append.1 hm with hm | hm
  · exact h.known sc hm d hd
  · rw [List.mem_singleton] at hm
    subst hm
    rcases mem_stepClauses hd with rfl | hd
    · exact hc
    · exact ha d hd

theorem TraceInv.accept (S : Setting K M E) (h : TraceInv K M ρ β st) {c : Clause} {as : List Clause}
    (hc : Known K M c) (ha : ∀ a ∈ as, Known K M a) (e : TraceState.accept E st c as = .done (some st')) :
    TraceInv K M ρ β st' := by
  simp only [TraceState.accept, Out.bind_done] at e
  obtain ⟨s, e1, e⟩ := e
  rw [Out.pure_done, Option.some.injEq] at e
  subst e
  refine h.add (h.inv.insertAll S.law S.full S.ctx (fun d hd => ?_) e1) hc ha
  rcases mem_stepClauses hd with rfl | hd
  · exact hc
  · exact ha d hd

theorem TraceInv.sources (h : TraceInv K M ρ β st) {i : Nat} {cs : List Clause} (e : st.sources i = some cs) :
    ∀ c ∈ cs, Known K M c := by
  rw [TraceState.sources, Option.map_eq_some_iff] at e
  obtain ⟨sc, e, rfl⟩ := e
  exact h.known sc (List.mem_of_getElem? e)

theorem TraceInv.allSources (h : TraceInv K M ρ β st) : ∀ {is : List Nat} {cs : List Clause},
    st.allSources is = some cs → ∀ c ∈ cs, Known K M c := by
  intro is
  induction is with
  | nil => intro cs e; cases e; simp
  | cons i is ih =>
    intro cs e
    simp only [TraceState.allSources, Option.bind_eq_bind, Option.bind_eq_some_iff, Option.pure_def,
      Option.some.injEq] at e
    obtain ⟨a, ea, b, eb, rfl⟩ := e
    intro c hc
    rcases List.mem_append.1 hc with hc | hc
    · exact h.sources ea c hc
    · exact ih eb c hc

/-- The clauses of a claim: both are well typed, the special form follows from the general one. -/
structure Parts (K : KCtx) (M : Interp.{u}) (step : CertStep) (g d : Clause) (w : Bool) : Prop where
  code : ∃ c, step.code = .claim c w
  general : generalForm step = g
  tidy : TidyClause K g
  special : TidyClause K d
  imp : ClauseTrue M g → ClauseTrue M d
  same : step.generic = true → w = true → d = g

theorem claimParts_spec (S : Setting K M E) (h : StepOk K step) {g d : Clause} {w : Bool}
    (e : TraceState.claimParts E step = .done (some (g, d, w))) : Parts K M step g d w := by
  unfold TraceState.claimParts at e
  unfold StepOk at h
  split at e
  · cases e
  · rename_i c w0 hc
    rw [hc] at h
    dsimp only at h
    split at e
    · rename_i hw
      simp only [Out.done.injEq, Option.some.injEq, Prod.mk.injEq] at e
      obtain ⟨rfl, rfl, rfl⟩ := e
      exact ⟨⟨c, hc⟩, by simp [generalForm, hc], h.clause, h.clause, id, fun _ _ => rfl⟩
    · rename_i hw
      simp only [Out.bind_done] at e
      obtain ⟨r, e1, e⟩ := e
      rw [Out.pure_done, Option.map_eq_some_iff] at e
      obtain ⟨d0, rfl, e⟩ := e
      simp only [Prod.mk.injEq] at e
      obtain ⟨rfl, rfl, rfl⟩ := e
      obtain ⟨h1, h2, _⟩ := specialized_known S.law S.full S.hold S.ok h e1
      exact ⟨⟨c, hc⟩, by simp [generalForm, hc], h.clause, h1, h2, fun a b => absurd (by simp [a, b]) hw⟩

/-- Without arguments the two forms say the same. -/
theorem claimParts_bare (S : Setting K M E) (h : StepOk K step) {g d : Clause} {w : Bool}
    (e : TraceState.claimParts E (bare step) = .done (some (g, d, w))) :
    StepOk K (bare step) ∧ g = generalForm step ∧ (ClauseTrue M d → ClauseTrue M g) := by
  unfold TraceState.claimParts at e
  unfold StepOk at h
  cases hc : step.code with
  | satisfy x => rw [bare, hc] at e; dsimp only at e; rw [hc] at e; cases e
  | claim c w0 =>
    rw [hc] at h
    have hok : ClaimOk K ⟨c.clause, []⟩ := ⟨h.clause, fun i t hi => by simp [VMap.get] at hi⟩
    rw [bare, hc] at e
    dsimp only at e
    have hg : generalForm step = c.clause := by simp [generalForm, hc]
    refine ⟨by rw [bare, hc]; exact hok, ?_⟩
    split at e
    · simp only [Out.done.injEq, Option.some.injEq, Prod.mk.injEq] at e
      obtain ⟨rfl, rfl, rfl⟩ := e
      exact ⟨hg.symm, id⟩
    · simp only [Out.bind_done] at e
      obtain ⟨r, e1, e⟩ := e
      rw [Out.pure_done, Option.map_eq_some_iff] at e
      obtain ⟨d0, rfl, e⟩ := e
      simp only [Prod.mk.injEq] at e
      obtain ⟨rfl, rfl, rfl⟩ := e
      exact ⟨hg.symm, (specialized_known S.law S.full S.hold S.ok hok e1).2.2 rfl⟩

theorem claimResult_tidy (S : Setting K M E) (h : StepOk K step) {d : Clause}
    (e : TraceState.claimResult E step = .done (some d)) : TidyClause K d := by
  unfold TraceState.claimResult at e
  unfold StepOk at h
  split at e
  · cases e
  · rename_i c w0 hc
    rw [hc] at h
    split at e
    · cases e; exact h.clause
    · exact (specialized_known S.law S.full S.hold S.ok h e).1

/-- What the rules that keep the general form find out: one of the two forms is true. -/
def Tested (K : KCtx) (M : Interp.{u}) (ρ β : Nat → M.D) (E : TraceEnv) (st : TraceState) (step : CertStep)
    (st' : TraceState) (keep : Bool) : Prop :=
  ∃ g d w s, TraceState.claimParts E step = .done (some (g, d, w)) ∧ (ClauseTrue M g ∨ ClauseTrue M d) ∧
    Inv K M ρ β s ∧ TraceState.accept E { st with checker := s } (if step.generic then g else d)
      (if keep then TraceState.aliasesOf g d w else []) = .done (some st')

theorem factStep_tested (S : Setting K M E) (h : TraceInv K M ρ β st) (hk : StepOk K step)
    (e : TraceState.factStep E st step = .done (some st')) : Tested K M ρ β E st step st' true := by
  simp only [TraceState.factStep, Out.bind_done] at e
  obtain ⟨r, e1, e⟩ := e
  split at e
  · cases e
  · rename_i g d w
    have P := claimParts_spec S hk e1
    simp only [Out.bind_done, Prod.exists] at e
    obtain ⟨r, s, e2, e⟩ := e
    split at e
    · rename_i hr
      have hp : PlainClause K (if step.generic = true then g else d) := by
        split
        · exact P.tidy.plain
        · exact P.special.plain
      have key : ∀ {x : Out (Option StepReason × Checker)} {f : Checker → Out (Option StepReason × Checker)}
          {r : Option StepReason} {s : Checker} {A B : Prop},
          (∀ r s, x = .done (r, s) → Inv K M ρ β s ∧ (r.isSome = true → A)) →
          (∀ s, Inv K M ρ β s → ∀ r s', f s = .done (r, s') → Inv K M ρ β s' ∧ (r.isSome = true → B)) →
          Checker.orElse x f = .done (r, s) → Inv K M ρ β s ∧ (r.isSome = true → A ∨ B) := by
        intro x f r s A B h1 h2 e
        simp only [Checker.orElse, Out.bind_done, Prod.exists] at e
        obtain ⟨r1, s1, e1, e⟩ := e
        obtain ⟨i1, k1⟩ := h1 _ _ e1
        split at e
        · rw [Out.pure_done, Prod.mk.injEq] at e
          obtain ⟨rfl, rfl⟩ := e
          exact ⟨i1, fun _ => .inl (k1 rfl)⟩
        · obtain ⟨i2, k2⟩ := h2 _ i1 _ _ e
          exact ⟨i2, fun hr => .inr (k2 hr)⟩
      obtain ⟨hi, ht⟩ := key (fun r s e => key (fun r s e => h.inv.checkTrace S.law S.full P.tidy.plain e)
        (fun s hs r s' e => hs.checkTrace S.law S.full hp e) e)
        (fun s hs r s' e => hs.checkTrace S.law S.full P.special.plain e) e2
      refine ⟨g, d, w, s, e1, ?_, hi, e⟩
      rcases ht hr with (ht | ht) | ht
      · exact .inl ht
      · split at ht
        · exact .inl ht
        · exact .inr ht
      · exact .inr ht
    · cases e

theorem brStep_tested (S : Setting K M E) (h : TraceInv K M ρ β st) (hk : StepOk K step)
    (e : TraceState.brStep E st step = .done (some st')) : Tested K M ρ β E st step st' false := by
  unfold TraceState.brStep at e
  split at e
  · split at e
    · cases e
    · rename_i i hp cs hs
      simp only [Out.bind_done] at e
      obtain ⟨r, e1, e⟩ := e
      split at e
      · cases e
      · rename_i g d w
        have P := claimParts_spec S hk e1
        split at e
        · rename_i k j _ _
          by_cases hany : cs.any (TraceState.reduces E.env st.checker k j
            [if step.generic = true then g else d, g, d]) = true
          · rw [if_pos hany] at e
            refine ⟨g, d, w, st.checker, e1, ?_, h.inv, e⟩
            obtain ⟨c, hc, hr⟩ := List.any_eq_true.1 hany
            have hkn := h.sources hs c hc
            unfold TraceState.reduces at hr
            split at hr
            · cases hr
            · rename_i x hx
              have kx := applyReduction_known S.law S.full S.ctx hkn hx
              have : ∃ t ∈ [if step.generic = true then g else d, g, d], ClauseTrue M t := by
                rcases Bool.or_eq_true_iff.1 hr with hr | hr
                · exact ⟨x, by simpa using hr, kx.truth⟩
                · rw [List.contains_iff_mem, List.mem_filterMap] at hr
                  obtain ⟨t, ht, et⟩ := hr
                  refine ⟨t, ht, (renewed_canonical S.law S.full ?_ et).truth.1 kx.truth⟩
                  simp only [List.mem_cons, List.not_mem_nil, or_false] at ht
                  rcases ht with rfl | rfl | rfl
                  · split
                    · exact P.tidy.plain
                    · exact P.special.plain
                  · exact P.tidy.plain
                  · exact P.special.plain
              obtain ⟨t, ht, tt⟩ := this
              simp only [List.mem_cons, List.not_mem_nil, or_false] at ht
              rcases ht with rfl | rfl | rfl
              · split at tt
                · exact .inl tt
                · exact .inr tt
              · exact .inl tt
              · exact .inr tt
          · rw [if_neg hany] at e
            cases e
        · cases e
  · cases e

theorem covered_true (S : Setting K M E) {s : Checker} {ps : List Clause} (hp : ∀ p ∈ ps, Known K M p) {d : Clause}
    (hd : PlainClause K d) (e : TraceState.covered E.env s ps d = true) : ClauseTrue M d := by
  obtain ⟨p, hm, e⟩ := List.any_eq_true.1 e
  rcases Bool.or_eq_true_iff.1 e with e | e
  · exact of_decide_eq_true e ▸ (hp p hm).truth
  · split at e
    · cases e
    · rename_i q hq
      have r1 := renewed_canonical S.law S.full (hp p hm).plain hq
      have r2 := renewed_canonical S.law S.full hd (of_decide_eq_true e)
      exact r2.truth.1 (r1.truth.2 (hp p hm).truth)

theorem introduces_true (S : Setting K M E) {s : Checker} {ps : List Clause} (hp : ∀ p ∈ ps, Known K M p) {c : Clause}
    (hc : PlainClause K c) (e : TraceState.introduces E.env s ps c = .done true) : ClauseTrue M c := by
  simp only [TraceState.introduces, Out.bind_done] at e
  obtain ⟨sets, e1, e⟩ := e
  rw [Out.pure_done] at e
  obtain ⟨ds, hm, e⟩ := List.any_eq_true.1 e
  obtain ⟨h1, h2⟩ := reductionSets_plain S.law S.full S.ctx hc e1 ds hm
  exact h2 fun d hd => covered_true S hp (h1 d hd) (List.all_eq_true.1 e d hd)

theorem brIntroStep_tested (S : Setting K M E) (h : TraceInv K M ρ β st) (hk : StepOk K step)
    (e : TraceState.brIntroStep E st step = .done (some st')) : Tested K M ρ β E st step st' true := by
  simp only [TraceState.brIntroStep, Out.bind_done] at e
  obtain ⟨r, e1, e⟩ := e
  split at e
  · cases e
  · rename_i g d w
    have P := claimParts_spec S hk e1
    rw [Out.bind_done] at e
    obtain ⟨r, e2, e⟩ := e
    split at e
    · rename_i s
      have hp : PlainClause K (if step.generic = true then g else d) := by
        split
        · exact P.tidy.plain
        · exact P.special.plain
      have fin : ∀ {cs : List Clause}, (∀ c ∈ cs, c = g ∨ c = d ∨ c = if step.generic = true then g else d) →
          (∃ c ∈ cs, ClauseTrue M c) → ClauseTrue M g ∨ ClauseTrue M d := by
        rintro cs hc ⟨c, hm, ht⟩
        rcases hc c hm with rfl | rfl | rfl
        · exact .inl ht
        · exact .inr ht
        · split at ht
          · exact .inl ht
          · exact .inr ht
      unfold TraceState.introTest at e2
      split at e2
      · simp only [Out.bind_done] at e2
        obtain ⟨p, e2, e3⟩ := e2
        rw [Out.pure_done, Option.some.injEq] at e3
        subst e3
        obtain ⟨hi, ht⟩ := h.inv.provesAny S.law S.full S.ctx (fun c hc => by
          simp only [List.mem_cons, List.not_mem_nil, or_false] at hc
          rcases hc with rfl | rfl | rfl
          · exact P.tidy.plain
          · exact hp
          · exact P.special.plain) e2
        refine ⟨g, d, w, s, e1, fin (cs := [g, if step.generic = true then g else d, d]) ?_ (ht rfl), hi, e⟩
        intro c hc
        simp only [List.mem_cons, List.not_mem_nil, or_false] at hc
        rcases hc with rfl | rfl | rfl <;> simp
      · split at e2
        · cases e2
        · rename_i ps hps
          simp only [Out.bind_done] at e2
          obtain ⟨b, e2, e3⟩ := e2
          rw [Out.pure_done, Option.some.injEq, Prod.mk.injEq] at e3
          obtain ⟨rfl, rfl⟩ := e3
          obtain ⟨c, hc, ec⟩ := Out.any_true e2
          simp only [List.mem_cons, List.not_mem_nil, or_false] at hc
          have hcp : PlainClause K c := by
            rcases hc with rfl | rfl | rfl
            · exact hp
            · exact P.special.plain
            · exact P.tidy.plain
          have ht := introduces_true S (h.allSources hps) hcp ec
          refine ⟨g, d, w, _, e1, fin (cs := [c]) ?_ ⟨c, by simp, ht⟩, h.inv, e⟩
          intro x hx
          rw [List.mem_singleton] at hx
          subst hx
          rcases hc with rfl | rfl | rfl <;> simp
    · cases e

/-- A step that keeps the general form has tested it or is allowed to keep it. -/
theorem Tested.inv (S : Setting K M E) (h : TraceInv K M ρ β st) (hk : StepOk K step) {keep : Bool}
    (t : Tested K M ρ β E st step st' keep)
    (hg : (∃ c, step.code = .claim c false) → (keep = true ∨ step.generic = true) → ClauseTrue M (generalForm step)) :
    TraceInv K M ρ β st' := by
  obtain ⟨g, d, w, s, e1, ht, hi, e⟩ := t
  have P := claimParts_spec S hk e1
  obtain ⟨c, hc⟩ := P.code
  have hd : ClauseTrue M d := ht.elim P.imp id
  have hs : TraceInv K M ρ β { st with checker := s } := ⟨hi, h.known⟩
  have general : w = false → (keep = true ∨ step.generic = true) → Known K M g := fun hw hk => by
    subst hw
    exact Known.of_tidy P.tidy (P.general ▸ hg ⟨c, hc⟩ hk)
  refine hs.accept S ?_ ?_ e
  · split
    · rename_i hgen
      cases w with
      | true => exact Known.of_tidy P.tidy (P.same hgen rfl ▸ hd)
      | false => exact general rfl (.inr hgen)
    · exact Known.of_tidy P.special hd
  · intro a ha
    split at ha
    · unfold TraceState.aliasesOf at ha
      split at ha
      · cases ha
      · rename_i hw
        unfold claimAliases at ha
        split at ha
        · cases ha
        · rw [List.mem_singleton] at ha
          subst ha
          exact general (by simpa using hw) (.inl (by assumption))
    · cases ha

/-- If the claim without arguments passes the test then the general form is true. -/
theorem Tested.general (S : Setting K M E) (hk : StepOk K step) {keep : Bool}
    (t : Tested K M ρ β E st (bare step) st' keep) : ClauseTrue M (generalForm step) := by
  obtain ⟨g, d, w, s, e1, ht, _, _⟩ := t
  obtain ⟨_, rfl, h⟩ := claimParts_bare S hk e1
  exact ht.elim id h

theorem TraceInv.instStep (S : Setting K M E) (h : TraceInv K M ρ β st) (hk : StepOk K step)
    (e : TraceState.instStep E st step = .done (some st')) : TraceInv K M ρ β st' := by
  unfold TraceState.instStep at e
  split at e
  · split at e
    · cases e
    · rename_i i hp cs hs
      simp only [Out.bind_done] at e
      obtain ⟨r, e1, e⟩ := e
      split at e
      · cases e
      · rename_i g d w
        have P := claimParts_spec S hk e1
        split at e
        · rename_i hany
          obtain ⟨c, hc, hr⟩ := List.any_eq_true.1 hany
          have hkn := h.sources hs c hc
          have hg : ClauseTrue M g := by
            rcases Bool.or_eq_true_iff.1 hr with hr | hr
            · exact of_decide_eq_true hr ▸ hkn.truth
            · split at hr
              · cases hr
              · rename_i x hx
                have r1 := renewed_canonical S.law S.full P.tidy.plain hx
                have r2 := renewed_canonical S.law S.full hkn.plain (of_decide_eq_true hr)
                exact r1.truth.1 (r2.truth.2 hkn.truth)
          exact h.accept S (Known.of_tidy P.special (P.imp hg)) (by simp) e
        · cases e
  · cases e

theorem localTest_true (S : Setting K M E) (h : TraceInv K M ρ β st) {d : Clause} (hd : PlainClause K d)
    (e : TraceState.localTest E st step d = .done (some true)) : ClauseTrue M d := by
  unfold TraceState.localTest at e
  split at e
  · cases e
  · rename_i cs hs
    simp only [Out.bind_done, Prod.exists] at e
    obtain ⟨s, e1, r, s1, e2, e⟩ := e
    have hi := ((inv_new K M ρ β).setEager false).insertAll S.law S.full S.ctx (h.allSources hs) e1
    obtain ⟨h1, k1⟩ := hi.checkTrace S.law S.full hd e2
    split at e
    · rename_i hr; exact k1 hr
    · simp only [Out.bind_done, Prod.exists] at e
      obtain ⟨b, s2, e3, e⟩ := e
      rw [Out.pure_done, Option.some.injEq] at e
      subst e
      exact (h1.graphAny S.law S.full hd (h.allSources hs) e3).2 rfl

theorem TraceInv.oneTest (S : Setting K M E) (h : TraceInv K M ρ β st) {d : Clause} (hd : PlainClause K d) {b : Bool}
    {s : Checker} (e : TraceState.oneTest E st step d = .done (some (b, s))) :
    Inv K M ρ β s ∧ (b = true → ClauseTrue M d) := by
  unfold TraceState.oneTest at e
  split at e
  · split at e
    · cases e
    · rename_i i _ cs hs
      simp only [Out.bind_done] at e
      obtain ⟨p, e1, e⟩ := e
      rw [Out.pure_done, Option.some.injEq] at e
      subst e
      exact h.inv.graphAny S.law S.full hd (h.sources hs) e1
  · simp only [Out.done.injEq, Option.some.injEq, Prod.mk.injEq] at e
    obtain ⟨rfl, rfl⟩ := e
    exact ⟨h.inv, fun h => by cases h⟩

theorem TraceInv.eqTest (S : Setting K M E) (h : TraceInv K M ρ β st) {d : Clause} (hd : PlainClause K d)
    {s : Checker} (e : TraceState.eqTest E st step d = .done (some s)) :
    Inv K M ρ β s ∧ ClauseTrue M d := by
  unfold TraceState.eqTest at e
  split at e
  · simp only [Out.bind_done, Prod.exists] at e
    obtain ⟨r, s1, e1, e⟩ := e
    rw [Out.pure_done] at e
    split at e
    · rename_i hr
      cases e
      obtain ⟨h1, h2⟩ := h.inv.checkTrace S.law S.full hd e1
      exact ⟨h1, h2 hr⟩
    · cases e
  · simp only [Out.bind_done] at e
    obtain ⟨r, e1, e⟩ := e
    split at e
    · cases e
    · rw [Out.pure_done, Option.some.injEq] at e
      subst e
      obtain ⟨h1, h2⟩ := h.oneTest S hd e1
      exact ⟨h1, h2 rfl⟩
    · simp only [Out.bind_done] at e
      obtain ⟨r, e2, e⟩ := e
      split at e
      · rw [Out.pure_done, Option.some.injEq] at e
        subst e
        exact ⟨(h.oneTest S hd e1).1, localTest_true S h hd e2⟩
      · cases e

theorem TraceInv.eqStep (S : Setting K M E) (h : TraceInv K M ρ β st) (hk : StepOk K step)
    (e : TraceState.eqStep E st step = .done (some st')) : TraceInv K M ρ β st' := by
  simp only [TraceState.eqStep, Out.bind_done] at e
  obtain ⟨r, e1, e⟩ := e
  split at e
  · cases e
  · rename_i d
    have hd := claimResult_tidy S hk e1
    simp only [Out.bind_done] at e
    obtain ⟨r, e2, e⟩ := e
    split at e
    · cases e
    · rename_i s
      obtain ⟨h1, h2⟩ := h.eqTest S hd.plain e2
      exact TraceInv.accept S (st := { st with checker := s }) ⟨h1, h.known⟩ (Known.of_tidy hd h2) (by simp) e

theorem TraceInv.deriveStep (S : Setting K M E) (h : TraceInv K M ρ β st)
    (e : TraceState.deriveStep E st step = .done (some st')) : TraceInv K M ρ β st' := by
  unfold TraceState.deriveStep at e
  split at e
  · split at e
    · cases e
    · rename_i i _ cs hs
      simp only [Out.bind_done] at e
      obtain ⟨r, e1, e⟩ := e
      split at e
      · cases e
      · rename_i d
        simp only [Out.bind_done] at e
        obtain ⟨b, e2, e⟩ := e
        split at e
        · rename_i hb
          subst hb
          obtain ⟨c, hc, ec⟩ := Out.any_true e2
          exact h.accept S (derives_known S.law S.sig S.full S.ctx (h.sources hs c hc) ec) (by simp) e
        · cases e
  · cases e

theorem TraceInv.witStep (S : Setting K M E) (h : TraceInv K M ρ β st) (hk : StepOk K step) (hch : Chosen M step)
    (e : TraceState.witStep E st step = .done (some st')) : TraceInv K M ρ β st' := by
  unfold TraceState.witStep at e
  unfold StepOk at hk
  unfold Chosen at hch
  split at e
  · cases e
  · rename_i w hw
    rw [hw] at hk hch
    dsimp only at hk hch
    simp only [Out.bind_done] at e
    obtain ⟨r, e1, e⟩ := e
    split at e
    · cases e
    · rename_i d
      obtain ⟨k1, k2, k3⟩ := specialized_known S.law S.full S.hold S.ok hk.claim e1
      have k3 := k3 hk.bare
      simp only [Out.bind_done, Prod.exists] at e
      obtain ⟨r, s, e2, e⟩ := e
      split at e
      · rename_i hr
        simp only [Checker.orElse, Out.bind_done, Prod.exists] at e2
        obtain ⟨r1, s1, e2, e3⟩ := e2
        obtain ⟨i1, t1⟩ := h.inv.checkTrace S.law S.full hk.claim.clause.plain e2
        have : Inv K M ρ β s ∧ ClauseTrue M w.justification.clause := by
          split at e3
          · rw [Out.pure_done, Prod.mk.injEq] at e3
            obtain ⟨rfl, rfl⟩ := e3
            exact ⟨i1, t1 rfl⟩
          · obtain ⟨i2, t2⟩ := i1.checkTrace S.law S.full k1.plain e3
            exact ⟨i2, k3 (t2 hr)⟩
        obtain ⟨hi, hj⟩ := this
        have kd : Known K M d := Known.of_tidy k1 (k2 hj)
        have kj : Known K M w.justification.clause := Known.of_tidy hk.claim.clause hj
        have km : ∀ c ∈ w.specialized.toList ++ w.witnesses, Known K M c := fun c hc =>
          Known.of_tidy (hk.clauses c hc) (hch hj c hc)
        simp only [TraceState.declare, Out.bind_done] at e
        obtain ⟨s2, e4, e⟩ := e
        rw [Out.pure_done, Option.some.injEq] at e
        subst e
        refine h.add (hi.insertAll S.law S.full S.ctx (fun c hc => ?_) e4) kd fun c hc => ?_
        · rcases List.mem_cons.1 hc with rfl | hc
          · exact kj
          · rcases List.mem_cons.1 hc with rfl | hc
            · exact kd
            · exact km c hc
        · rcases List.mem_cons.1 hc with rfl | hc
          · exact kj
          · exact km c hc
      · cases e

theorem contraStep_none (S : Setting K M E) (h : TraceInv K M ρ β st) :
    TraceState.contraStep E st step ≠ .done (some st') := by
  intro e
  simp only [TraceState.contraStep, Out.bind_done] at e
  obtain ⟨b, e1, e⟩ := e
  split at e
  · rename_i hb
    subst hb
    unfold TraceState.contraTest at e1
    split at e1
    · rw [h.inv.hasContradiction] at e1; cases e1
    · split at e1
      · cases e1
      · rename_i i _ cs hs
        obtain ⟨c, hc, ec⟩ := Out.any_true e1
        exact reductionCloses_false S.law S.sig S.full S.ctx h.inv (h.sources hs c hc) ec
    · split at e1
      · rename_i i j _ cs ds hs hs'
        obtain ⟨c, hc, ec⟩ := Out.any_true e1
        obtain ⟨d, hd, ed⟩ := Out.any_true ec
        exact clausesContradict_false S.law S.full S.ctx ρ β (h.sources hs c hc) (h.sources hs' d hd) ed
      · cases e1
    · cases e1
  · cases e

/-- One step. -/
theorem TraceInv.checkStep (S : Setting K M E) (h : TraceInv K M ρ β st) (hk : StepOk K step) (hch : Chosen M step)
    (hg : KeepsGeneral step → (∃ st', st.checkStep E (bare step) = .done (some st')) ∨ ClauseTrue M (generalForm step))
    (e : st.checkStep E step = .done (some st')) : TraceInv K M ρ β st' := by
  have hb : StepOk K (bare step) := by
    unfold StepOk at hk ⊢
    cases hc : step.code with
    | satisfy x => rw [bare, hc]; simp only [hc]; rw [hc] at hk; exact hk
    | claim c w =>
      rw [hc] at hk
      rw [bare, hc]
      exact ⟨hk.clause, fun i t hi => by simp [VMap.get] at hi⟩
  have hrule : (bare step).rule = step.rule := by unfold bare; split <;> rfl
  have hgn : (∃ st', st.checkStep E (bare step) = .done (some st')) → ∀ {keep : Bool},
      (∀ {st'}, st.checkStep E (bare step) = .done (some st') → Tested K M ρ β E st (bare step) st' keep) →
      ClauseTrue M (generalForm step) := fun ⟨st', e⟩ _ ht => (ht e).general S hk
  cases hr : step.rule <;> simp only [TraceState.checkStep, hr, hrule] at e hg hgn
  case fact =>
    refine (factStep_tested S h hk e).inv S h hk fun hc _ => ?_
    exact (hg ⟨hc, .inl hr⟩).elim (fun x => hgn x fun e => factStep_tested S h hb e) id
  case claim =>
    refine (factStep_tested S h hk e).inv S h hk fun hc _ => ?_
    exact (hg ⟨hc, .inr (.inl hr)⟩).elim (fun x => hgn x fun e => factStep_tested S h hb e) id
  case br =>
    refine (brStep_tested S h hk e).inv S h hk fun hc hx => ?_
    refine (hg ⟨hc, .inr (.inr (.inr ⟨hr, ?_⟩))⟩).elim (fun x => hgn x fun e => brStep_tested S h hb e) id
    exact hx.elim (fun h => by cases h) id
  case brIntro =>
    refine (brIntroStep_tested S h hk e).inv S h hk fun hc _ => ?_
    exact (hg ⟨hc, .inr (.inr (.inl hr))⟩).elim (fun x => hgn x fun e => brIntroStep_tested S h hb e) id
  case inst => exact h.instStep S hk e
  case eq => exact h.eqStep S hk e
  case er => exact h.deriveStep S e
  case ef => exact h.deriveStep S e
  case ext => exact h.deriveStep S e
  case inj => exact h.deriveStep S e
  case wit => exact h.witStep S hk hch e
  case contra => exact absurd e (contraStep_none S h)

/-- No certificate is accepted. -/
theorem TraceInv.checkFrom : ∀ {steps : List (TraceEnv × CertStep)} {st : TraceState} {n m : Nat},
    (∀ p ∈ steps, Setting K M p.1 ∧ StepOk K p.2 ∧ Chosen M p.2) → TraceInv K M ρ β st →
    Careful (ClauseTrue M) st steps → TraceState.checkFrom n st steps ≠ .done (some m) := by
  intro steps
  induction steps with
  | nil =>
    intro st n m _ h _ e
    rw [TraceState.checkFrom, h.inv.hasContradiction] at e
    cases e
  | cons p steps ih =>
    obtain ⟨E, step⟩ := p
    intro st n m hs h hc e
    rw [TraceState.checkFrom, h.inv.hasContradiction] at e
    simp only [Bool.false_eq_true, ↓reduceIte, Out.bind_done] at e
    obtain ⟨r, e1, e⟩ := e
    split at e
    · cases e
    · rename_i st'
      obtain ⟨S, hk, hch⟩ := hs (E, step) (by simp)
      exact ih (fun p hp => hs p (by simp [hp])) (h.checkStep S hk hch (hc _ e1).1 e1) (hc _ e1).2 e

end Acorn
