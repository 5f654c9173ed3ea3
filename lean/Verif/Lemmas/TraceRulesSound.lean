/-
The rules of the checker of certificates lead from true clauses to true clauses.
-/
import Verif.Lemmas.ClaimSound
import Verif.Lemmas.MatchClause
import Verif.Spec.TraceChecker
namespace Acorn
open Spec

universe u

variable {K : KCtx} {M : Interp.{u}} {ρ β : Nat → M.D} {s s' : Checker} {env : CheckEnv}

theorem Known.of_tidy {c : Clause} (h : TidyClause K c) (ht : ClauseTrue M c) : Known K M c :=
  ⟨h.plain, ht, fun l hl => ⟨(h.tidy l hl).1, (h.tidy l hl).2⟩⟩

theorem Inv.setEager (h : Inv K M ρ β s) (b : Bool) : Inv K M ρ β (s.setEager b) :=
  h.of_eq rfl rfl rfl

theorem Inv.insertAll (L : Lawful K M) (hN : NoEmpty K M) (hE : env.K = K) {reason : StepReason} :
    ∀ {cs : List Clause} {s s' : Checker}, Inv K M ρ β s → (∀ c ∈ cs, Known K M c) →
    TraceState.insertAll env reason s cs = .done s' → Inv K M ρ β s' := by
  intro cs
  induction cs with
  | nil => intro s s' h _ e; simp only [TraceState.insertAll, Out.done.injEq] at e; exact e ▸ h
  | cons c cs ih =>
    intro s s' h hc e
    simp only [TraceState.insertAll, Out.bind_done] at e
    obtain ⟨s1, e1, e⟩ := e
    have := hc c (by simp)
    exact ih (h.insertTrace L hN hE this.plain this.truth e1) (fun c h => hc c (by simp [h])) e

theorem Inv.reductionProves (L : Lawful K M) (hN : NoEmpty K M) (hE : env.K = K) (h : Inv K M ρ β s) {c : Clause}
    (hp : PlainClause K c) {b : Bool} (e : Checker.reductionProves env s c = .done (b, s')) :
    Inv K M ρ β s' ∧ (b = true → ClauseTrue M c) := by
  simp only [Checker.reductionProves, Out.bind_done, Prod.exists] at e
  obtain ⟨d, e1, r, s1, e2, e⟩ := e
  rw [Out.pure_done, Prod.mk.injEq] at e
  obtain ⟨rfl, rfl⟩ := e
  obtain ⟨rn, _⟩ := renewed_normal L hN hp e1
  obtain ⟨h1, h2⟩ := h.checkBool L hN hE rn.plain e2
  exact ⟨h1, fun hb => rn.truth.1 (h2 hb)⟩

theorem reductionCloses_false (L : Lawful K M) (hK : PlainSignature K) (hN : NoEmpty K M) (hE : env.K = K)
    (h : Inv K M ρ β s) {c : Clause} (hc : Known K M c) : Checker.reductionCloses env s c ≠ .done true := by
  intro e
  simp only [Checker.reductionCloses, Out.bind_done] at e
  obtain ⟨d, e1, e⟩ := e
  have hd := known_normal L hN hc.plain hc.truth e1
  rw [hd.possible hN] at e
  simp only [Bool.false_eq_true, ↓reduceIte, Out.bind_done] at e
  obtain ⟨s1, e2, e⟩ := e
  have h1 := (h.setEager false).insertTrace L hN hE hd.plain hd.truth e2
  split at e
  · cases e
  · simp only [Out.bind_done] at e
    obtain ⟨s2, e3, e⟩ := e
    have h2 := (h1.setEager true).reduceBool L hN (insertInternal_inv L hK hN hE _) hE hd e3
    rw [Out.pure_done, h2.hasContradiction] at e
    cases e

theorem renewed_canonical (L : Lawful K M) (hN : NoEmpty K M) {c d : Clause} (hp : PlainClause K c)
    (e : Checker.canonical env s c = some d) : Renewed K M c d := by
  simp only [Checker.canonical, Checker.normFound, Option.bind_eq_bind, Option.bind_eq_some_iff] at e
  obtain ⟨t, e1, e⟩ := e
  have r := renewed_withTrace L hN hp e1
  exact r.trans (renewed_checker L hN r.plain e).1

theorem applyReduction_known (L : Lawful K M) (hN : NoEmpty K M) (hE : env.K = K) {c d : Clause} (hc : Known K M c)
    {k : BoolKind} {i : Nat} (e : Checker.applyReduction env s c k i = some d) : Known K M d := by
  subst hE
  simp only [Checker.applyReduction, Option.bind_eq_bind, Option.bind_eq_some_iff] at e
  obtain ⟨t, e1, e⟩ := e
  obtain ⟨h1, h2⟩ := boolReduction_true L hN hc.plain e1
  exact known_normTrace L hN h1 (h2 hc.truth) e

theorem derives_known (L : Lawful K M) (hK : PlainSignature K) (hN : NoEmpty K M) (hE : env.K = K) {c d : Clause}
    (hc : Known K M c) {rule : CertRule} (e : TraceState.derives env s rule c d = .done true) : Known K M d := by
  subst hE
  unfold TraceState.derives at e
  split at e
  · simp only [Checker.resolutionDerives, Out.bind_done, Out.ofOption_done] at e
    obtain ⟨fs, ef, e⟩ := e
    rw [Out.pure_done, List.any_eq_true] at e
    obtain ⟨f, hf, e⟩ := e
    obtain ⟨h1, h2⟩ := resolution_true L hN hc.plain hc.truth ef f hf
    exact known_normFound L hN h1 h2 (of_decide_eq_true e)
  · simp only [Checker.factoringDerives, Out.bind_done, Out.ofOption_done] at e
    obtain ⟨fs, ef, e⟩ := e
    rw [Out.pure_done, List.any_eq_true] at e
    obtain ⟨f, hf, e⟩ := e
    obtain ⟨h1, h2⟩ := factoring_true L hN hc.plain hc.truth ef f hf
    exact known_normFound L hN h1 h2 (of_decide_eq_true e)
  · simp only [Checker.extensionalityDerives] at e
    split at e
    · cases e
    · rename_i ls P ex
      simp only [Out.bind_done, Out.ofOption_done] at e
      obtain ⟨r, er, e⟩ := e
      rw [Out.pure_done] at e
      have e := of_decide_eq_true e
      subst e
      obtain ⟨p1, p2, p3⟩ := extensionality_true (M := M) L hK hc.plain hc.crisp ex
      have rn := renewed_new L hN p1 er
      exact ⟨rn.plain, rn.truth.2 (p3 hc.truth), rn.crisp p2⟩
  · simp only [Checker.injectivityDerives, Out.bind_done, Out.ofOption_done] at e
    obtain ⟨rs, er, e⟩ := e
    rw [Out.pure_done, List.any_eq_true] at e
    obtain ⟨ls, hl, e⟩ := e
    obtain ⟨h1, h2⟩ := injectivity_true (M := M) hK hc.plain hc.crisp er ls hl
    exact known_normFound L hN h1 (h2 hc.truth) (of_decide_eq_true e)

theorem Inv.graphDerives (L : Lawful K M) (hN : NoEmpty K M) (h : Inv K M ρ β s) {c d : Clause} (hc : Known K M c)
    (hd : PlainClause K d) {b : Bool} (e : Checker.graphDerives env s c d = .done (b, s')) :
    Inv K M ρ β s' ∧ (b = true → ClauseTrue M d) := by
  simp only [Checker.graphDerives, Out.bind_done, Prod.exists] at e
  obtain ⟨r, s1, e1, e⟩ := e
  obtain ⟨h1, k1⟩ := h.simplifyVariable L hN hc e1
  split at e
  · rename_i hr
    rw [Out.pure_done, Prod.mk.injEq] at e
    obtain ⟨rfl, rfl⟩ := e
    exact ⟨h1, fun _ => (k1 d hr).truth⟩
  · simp only [Out.bind_done, Prod.exists] at e
    obtain ⟨r2, s2, e2, e⟩ := e
    rw [Out.pure_done, Prod.mk.injEq] at e
    obtain ⟨rfl, rfl⟩ := e
    exact h1.checkTrace L hN hd e2

theorem Inv.graphAny (L : Lawful K M) (hN : NoEmpty K M) {d : Clause} (hd : PlainClause K d) {b : Bool} :
    ∀ {cs : List Clause} {s s' : Checker}, Inv K M ρ β s → (∀ c ∈ cs, Known K M c) →
    TraceState.graphAny env d s cs = .done (b, s') → Inv K M ρ β s' ∧ (b = true → ClauseTrue M d) := by
  intro cs
  induction cs with
  | nil =>
    intro s s' h _ e
    simp only [TraceState.graphAny, Out.done.injEq, Prod.mk.injEq] at e
    obtain ⟨rfl, rfl⟩ := e
    exact ⟨h, fun h => by cases h⟩
  | cons c cs ih =>
    intro s s' h hc e
    simp only [TraceState.graphAny, Out.bind_done, Prod.exists] at e
    obtain ⟨b1, s1, e1, e⟩ := e
    obtain ⟨h1, k1⟩ := h.graphDerives L hN (hc c (by simp)) hd e1
    split at e
    · rename_i hb
      rw [Out.pure_done, Prod.mk.injEq] at e
      obtain ⟨rfl, rfl⟩ := e
      exact ⟨h1, fun _ => k1 hb⟩
    · exact ih h1 (fun c h => hc c (by simp [h])) e

theorem Inv.provesAny (L : Lawful K M) (hN : NoEmpty K M) (hE : env.K = K) {b : Bool} :
    ∀ {cs : List Clause} {s s' : Checker}, Inv K M ρ β s → (∀ c ∈ cs, PlainClause K c) →
    TraceState.provesAny env s cs = .done (b, s') → Inv K M ρ β s' ∧ (b = true → ∃ c ∈ cs, ClauseTrue M c) := by
  intro cs
  induction cs with
  | nil =>
    intro s s' h _ e
    simp only [TraceState.provesAny, Out.done.injEq, Prod.mk.injEq] at e
    obtain ⟨rfl, rfl⟩ := e
    exact ⟨h, fun h => by cases h⟩
  | cons c cs ih =>
    intro s s' h hc e
    simp only [TraceState.provesAny, Out.bind_done, Prod.exists] at e
    obtain ⟨b1, s1, e1, e⟩ := e
    obtain ⟨h1, k1⟩ := h.reductionProves L hN hE (hc c (by simp)) e1
    split at e
    · rename_i hb
      rw [Out.pure_done, Prod.mk.injEq] at e
      obtain ⟨rfl, rfl⟩ := e
      exact ⟨h1, fun _ => ⟨c, by simp, k1 hb⟩⟩
    · obtain ⟨h2, k2⟩ := ih h1 (fun c h => hc c (by simp [h])) e
      exact ⟨h2, fun hb => let ⟨c, hc, ht⟩ := k2 hb; ⟨c, by simp [hc], ht⟩⟩

theorem specializes_true (L : Lawful K M) (hN : NoEmpty K M) (hE : env.K = K) {c d : Clause} (hc : PlainClause K c)
    (hd : PlainClause K d) (e : Checker.specializes env c d = .done true) (ht : ClauseTrue M c) : ClauseTrue M d := by
  subst hE
  simp only [Checker.specializes, Out.bind_done] at e
  obtain ⟨c1, e1, d1, e2, e⟩ := e
  obtain ⟨r1, _⟩ := renewed_normal L hN hc e1
  obtain ⟨r2, _⟩ := renewed_normal L hN hd e2
  refine r2.truth.1 ?_
  split at e
  · rename_i h; exact h ▸ r1.truth.2 ht
  · exact clauseMatches_true L hN r1.plain r2.plain e (r1.truth.2 ht)

theorem orTest_true {a b : Out Bool} (e : Checker.orTest a b = .done true) : a = .done true ∨ b = .done true := by
  simp only [Checker.orTest, Out.bind_done] at e
  obtain ⟨x, e1, e⟩ := e
  split at e
  · rename_i h; exact .inl (h ▸ e1)
  · exact .inr e

theorem plain_negate {c : Clause} {l : Literal} (h : PlainClause K c) (hl : c.lits = [l]) :
    PlainClause K ⟨[l.negate], c.ctx⟩ := by
  refine plainClause_iff.2 ⟨h.vars, fun a ha => ?_⟩
  rw [List.mem_singleton] at ha
  subst ha
  obtain ⟨T, h1, h2⟩ := h.neat (l := l) (by simp [hl])
  exact ⟨T, h1, h2⟩

theorem unitsContradict_false (L : Lawful K M) (hN : NoEmpty K M) (hE : env.K = K) {c d : Clause} {l r : Literal}
    (hc : Known K M c) (hd : Known K M d) (hl : c.lits = [l]) (hr : d.lits = [r]) :
    Checker.unitsContradict env c d l r ≠ .done true := by
  intro e
  simp only [Checker.unitsContradict, Out.bind_done, Out.ofOption_done] at e
  obtain ⟨nl, e1, nr, e2, e⟩ := e
  have r1 := renewed_new L hN (plain_negate hc.plain hl) e1
  have r2 := renewed_new L hN (plain_negate hd.plain hr) e2
  rcases orTest_true e with e | e
  · exact known_consistent hN hd.plain.vars hr hd.truth
      (r2.truth.1 (specializes_true L hN hE hc.plain r2.plain e hc.truth))
  · exact known_consistent hN hc.plain.vars hl hc.truth
      (r1.truth.1 (specializes_true L hN hE hd.plain r1.plain e hd.truth))

theorem clausesContradict_false (L : Lawful K M) (hN : NoEmpty K M) (hE : env.K = K) {c d : Clause} (ρ β : Nat → M.D)
    (hc : Known K M c) (hd : Known K M d) : Checker.clausesContradict env c d ≠ .done true := by
  intro e
  unfold Checker.clausesContradict at e
  rw [hc.possible hN, hd.possible hN] at e
  simp only [Bool.or_self, Bool.false_eq_true, ↓reduceIte] at e
  split at e
  · rename_i l r hl hr
    exact unitsContradict_false L hN hE hc hd hl hr e
  · split at e
    · cases e
    · simp only [Out.bind_done] at e
      obtain ⟨s1, e1, s2, e2, e⟩ := e
      have h1 := (inv_new K M ρ β).insertTrace L hN hE hc.plain hc.truth e1
      have h2 := h1.insertTrace L hN hE hd.plain hd.truth e2
      rw [Out.pure_done, h2.hasContradiction] at e
      cases e

end Acorn
