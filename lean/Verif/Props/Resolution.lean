/-
C15, continued: equality resolution and equality factoring are sound, for clauses whose variables are
values.

The unifier treats a typeclass and the sort `Type0` as equal, also where they are the domain of a
quantifier.  Equality resolution is unsound there (`C15_resolution_sort_unsound`).
-/
import Verif.Lemmas.Resolution
import Verif.Lemmas.PlainClauses
import Verif.Props.Unifier
import Verif.Lemmas.NormalizeClauseTerm
import Verif.Spec.Monomorphic
import Verif.Spec.DemoSimple
namespace Acorn
open Term Spec Unifier

universe u

theorem notSort_fvar (i : Nat) : NotSort (.fvar i) := ⟨by simp, by simp⟩

/-- Applying a unifier to a plain literal. -/
theorem neat_litAp {K : KCtx} {Γ : LCtx} {st : UState} (hm : Mono K NotSort st) (hin : st.inputs 1 = some Γ)
    {l : Literal} (h : Neat K Γ l) (hc : LitCov st l) : Neat K st.out (litAp st l) := by
  have sf : ∀ {t : Term}, SortFree t → SortFree (ap st 1 t) := by
    intro t ht a ha
    rcases atoms_apply ha with h | ⟨i, u, hu, h⟩
    · exact ht a h
    · exact (hm.vals 1 i u hu).2 a h
  obtain ⟨⟨T, hT, h1, h2⟩, s1, s2⟩ := h
  exact neat_new.2 ⟨⟨T, hT, ap_typed hm hin h1 hc.1, ap_typed hm hin h2 hc.2⟩, sf s1, sf s2⟩

/-- One resolution step. -/
theorem resolution_sound {K : KCtx} {M : Interp.{u}} (L : Lawful K M) {c : Clause} {n : Nat}
    {fs : List Found} (hv : ValueVars K c.ctx) (ht : LitsTyped K c.ctx c.lits) (hs : NoSorts c.lits)
    (hu : VarsUsed M c.ctx c.lits) (e : findResolutions K n c = some fs) :
    ∀ f ∈ fs, (ClauseTrue M c → ClauseTrue M ⟨f.lits, f.ctx⟩) ∧ LitsTyped K f.ctx f.lits ∧ ValueVars K f.ctx ∧
      ((∀ l ∈ c.lits, Neat K c.ctx l) → ∀ l ∈ f.lits, Neat K f.ctx l) := by
  intro f hf
  obtain ⟨i, l, hi, hp, e⟩ := mem_resolutionsFrom rfl e hf
  have hl : l ∈ c.lits := List.mem_of_getElem? hi
  obtain ⟨T, t1, t2⟩ := ht l hl
  have q1 : ∀ a ∈ l.left.atoms, NotSort a := fun a ha => hs l hl a (by simp [ha])
  have q2 : ∀ a ∈ l.right.atoms, NotSort a := fun a ha => hs l hl a (by simp [ha])
  have m0 := clauseUnifier_mono hv notSort_fvar
  have s0 := clauseUnifier_solved c.ctx
  have c0 : ctxOf (clauseUnifier c.ctx) 1 = some c.ctx := by simp [ctxOf, clauseUnifier, Unifier.init]
  unfold resolveAt at e
  split at e
  · cases e
  · cases e
  · rename_i st e1
    split at e
    · cases e
    · rename_i ls st' e2
      simp only [Option.some.injEq] at e
      subst e
      obtain ⟨p1, same⟩ := (correct K n).unify s0 e1
      obtain ⟨m1, o1⟩ := (monoOk K NotSort n).unify s0 m0 (.of_nil c0 t1 q1) (.of_nil c0 t2 q2) e1
      obtain ⟨sb, cov, rfl⟩ := applyLits_spec p1.solved m1 e2
      have same := same rfl
      have same' : Same st' 1 l.left 1 l.right :=
        ⟨sb.cov _ _ same.cov1, sb.cov _ _ same.cov2, by
          rw [sb.ap _ _ same.cov1, sb.ap _ _ same.cov2]; exact same.unified⟩
      have hin : st'.inputs 1 = some c.ctx := by
        rw [sb.ext.inputs, o1.inputs]; rfl
      have all : ∀ k ∈ c.lits, LitCov st' k := by
        intro k hk
        rcases mem_eraseIdx_or hi hk with rfl | hk
        · exact ⟨same'.cov1, same'.cov2⟩
        · exact cov k hk
      have hmap : ∀ j T, c.ctx.get j = some T → ((st'.maps 1).get j).isSome = true ∨
          ∃ d, ∀ ρ β, M.mem d (eval M ρ β T) := by
        intro j T hT
        rcases hu j T hT with ⟨k, hk, hj⟩ | h
        · rcases hj with hj | hj
          · exact .inl ((all k hk).1 (by decide) j hj)
          · exact .inl ((all k hk).2 (by decide) j hj)
        · exact .inr h
      refine ⟨fun h ρ' hρ β => ?_, fun k hk => ?_, sb.mono.out, fun hn k hk => ?_⟩
      · obtain ⟨ρ, r1, r2⟩ := assignment L sb.solved sb.mono hin hmap hρ
        obtain ⟨k, hk, hh⟩ := h ρ r1 β
        rcases mem_eraseIdx_or hi hk with rfl | hk'
        · have := same_value L sb.solved sb.mono hin t1 q1 same' hρ β
          rw [← r2 _ _ same'.cov1, ← r2 _ _ same'.cov2] at this
          simp only [LitHolds, hp, Bool.false_eq_true, if_false] at hh
          exact absurd this hh
        · exact ⟨_, List.mem_map_of_mem hk', (litAp_holds r2 (cov k hk')).2 hh⟩
      · obtain ⟨k0, hk0, rfl⟩ := List.mem_map.1 hk
        exact litAp_typed sb.mono hin (ht k0 (List.mem_of_mem_eraseIdx hk0)) (cov k0 hk0)
      · obtain ⟨k0, hk0, rfl⟩ := List.mem_map.1 hk
        exact neat_litAp sb.mono hin (hn k0 (List.mem_of_mem_eraseIdx hk0)) (cov k0 hk0)

/-- Equality resolution of a true clause gives true, well-typed clauses. -/
theorem C15_resolution_partial {K : KCtx} {M : Interp.{u}} (L : Lawful K M) {c : Clause} {n : Nat}
    {fs : List Found} (hv : ValueVars K c.ctx) (ht : LitsTyped K c.ctx c.lits) (hs : NoSorts c.lits)
    (hu : VarsUsed M c.ctx c.lits) (e : findResolutions K n c = some fs) (h : ClauseTrue M c) :
    ∀ f ∈ fs, ClauseTrue M ⟨f.lits, f.ctx⟩ ∧ LitsTyped K f.ctx f.lits ∧ ValueVars K f.ctx :=
  fun f hf => (resolution_sound L hv ht hs hu e f hf).imp (fun k => k h) fun h => h.imp_right fun h => h.1

/-- One factoring step. -/
theorem factorAt_sound {K : KCtx} {M : Interp.{u}} (L : Lawful K M) {Γ : LCtx} {rest : List Literal} {n : Nat}
    {f : Found} {l0 l : Literal} {s t u v : Term} {i : Nat} (hv : ValueVars K Γ) (ht : LitsTyped K Γ (l0 :: rest))
    (hs : NoSorts (l0 :: rest)) (hu : VarsUsed M Γ (l0 :: rest))
    (hi : rest[i]? = some l) (p0 : l0.positive = true) (p1 : l.positive = true)
    (h0 : (s = l0.left ∧ t = l0.right) ∨ (s = l0.right ∧ t = l0.left))
    (h1 : (u = l.left ∧ v = l.right) ∨ (u = l.right ∧ v = l.left))
    (e : factorAt K n Γ rest s t i u v = some (some f)) :
    (ClauseTrue M ⟨l0 :: rest, Γ⟩ → ClauseTrue M ⟨f.lits, f.ctx⟩) ∧ LitsTyped K f.ctx f.lits ∧ ValueVars K f.ctx ∧
      ((∀ l ∈ l0 :: rest, Neat K Γ l) → ∀ l ∈ f.lits, Neat K f.ctx l) := by
  have hl : l ∈ rest := List.mem_of_getElem? hi
  have tst : ∃ T, SHasType K Γ s T ∧ SHasType K Γ t T := by
    obtain ⟨T, a, b⟩ := ht l0 (by simp)
    rcases h0 with ⟨rfl, rfl⟩ | ⟨rfl, rfl⟩
    · exact ⟨T, a, b⟩
    · exact ⟨T, b, a⟩
  have tuv : ∃ T, SHasType K Γ u T ∧ SHasType K Γ v T := by
    obtain ⟨T, a, b⟩ := ht l (by simp [hl])
    rcases h1 with ⟨rfl, rfl⟩ | ⟨rfl, rfl⟩
    · exact ⟨T, a, b⟩
    · exact ⟨T, b, a⟩
  have e0 : ∀ ρ β, LitHolds M ρ β l0 ↔ eval M ρ β s = eval M ρ β t := by
    intro ρ β
    simp only [LitHolds, p0, if_true]
    rcases h0 with ⟨rfl, rfl⟩ | ⟨rfl, rfl⟩
    · rfl
    · exact eq_comm
  have e1 : ∀ ρ β, LitHolds M ρ β l ↔ eval M ρ β u = eval M ρ β v := by
    intro ρ β
    simp only [LitHolds, p1, if_true]
    rcases h1 with ⟨rfl, rfl⟩ | ⟨rfl, rfl⟩
    · rfl
    · exact eq_comm
  obtain ⟨T0, ts, tt⟩ := tst
  obtain ⟨T1, tu, tv⟩ := tuv
  have qs : ∀ a ∈ s.atoms, NotSort a := fun a ha => hs l0 (by simp) a (by
    rcases h0 with ⟨rfl, rfl⟩ | ⟨rfl, rfl⟩ <;> simp [ha])
  have qu : ∀ a ∈ u.atoms, NotSort a := fun a ha => hs l (by simp [hl]) a (by
    rcases h1 with ⟨rfl, rfl⟩ | ⟨rfl, rfl⟩ <;> simp [ha])
  have m0 := clauseUnifier_mono hv notSort_fvar
  have s0 := clauseUnifier_solved Γ
  have c0 : ctxOf (clauseUnifier Γ) 1 = some Γ := by simp [ctxOf, clauseUnifier, Unifier.init]
  unfold factorAt at e
  split at e
  · cases e
  · cases e
  rename_i st eu
  split at e
  · cases e
  rename_i ltv st1 ea
  split at e
  · cases e
  rename_i luv st2 eb
  split at e
  · cases e
  rename_i ls st3 ec
  simp only [Option.some.injEq] at e
  subst e
  obtain ⟨pu, same⟩ := (correct K n).unify s0 eu
  obtain ⟨m1, o1⟩ := (monoOk K NotSort n).unify s0 m0 (.of_nil c0 ts qs) (.of_nil c0 tu qu) eu
  obtain ⟨sa, ca, rfl⟩ := applyLit_spec pu.solved m1 ea
  obtain ⟨sb, cb, rfl⟩ := applyLit_spec sa.solved sa.mono eb
  obtain ⟨sc, cc, rfl⟩ := applyLits_spec sb.solved sb.mono ec
  have same := same rfl
  have sall := (sa.trans sb).trans sc
  have same' : Same st3 1 s 1 u :=
    ⟨sall.cov _ _ same.cov1, sall.cov _ _ same.cov2, by
      rw [sall.ap _ _ same.cov1, sall.ap _ _ same.cov2]; exact same.unified⟩
  have hin : st3.inputs 1 = some Γ := by
    rw [sall.ext.inputs, o1.inputs]; rfl
  rw [← sc.litAp cb, ← (sb.trans sc).litAp ca]
  have ca' := (sb.trans sc).litCov ca
  have cb' := sc.litCov cb
  have all : ∀ k ∈ l0 :: rest, LitCov st3 k := by
    intro k hk
    rcases List.mem_cons.1 hk with rfl | hk
    · rcases h0 with ⟨rfl, rfl⟩ | ⟨rfl, rfl⟩
      · exact ⟨same'.cov1, ca'.1⟩
      · exact ⟨ca'.1, same'.cov1⟩
    · rcases mem_eraseIdx_or hi hk with rfl | hk
      · rcases h1 with ⟨rfl, rfl⟩ | ⟨rfl, rfl⟩
        · exact cb'
        · exact ⟨cb'.2, cb'.1⟩
      · exact cc k hk
  have hmap : ∀ j T, Γ.get j = some T → ((st3.maps 1).get j).isSome = true ∨
      ∃ d, ∀ ρ β, M.mem d (eval M ρ β T) := by
    intro j T hT
    rcases hu j T hT with ⟨k, hk, hj⟩ | h
    · rcases hj with hj | hj
      · exact .inl ((all k hk).1 (by decide) j hj)
      · exact .inl ((all k hk).2 (by decide) j hj)
    · exact .inr h
  refine ⟨fun h ρ' hρ β => ?_, fun k hk => ?_, sall.mono.out, fun hn k hk => ?_⟩
  · obtain ⟨ρ, r1, r2⟩ := assignment L sall.solved sall.mono hin hmap hρ
    have hsu := same_value L sall.solved sall.mono hin ts qs same' hρ β
    rw [← r2 _ _ same'.cov1, ← r2 _ _ same'.cov2] at hsu
    by_cases htv : eval M ρ β t = eval M ρ β v
    · obtain ⟨k, hk, hh⟩ := h ρ r1 β
      have huv : eval M ρ β u = eval M ρ β v → LitsHold M ρ' β (litAp st3 ⟨false, t, v⟩ ::
          litAp st3 ⟨true, u, v⟩ :: (rest.eraseIdx i).map (litAp st3)) := fun hh =>
        ⟨_, by simp, (litAp_holds (l := ⟨true, u, v⟩) r2 cb').2 (by simpa [LitHolds] using hh)⟩
      rcases List.mem_cons.1 hk with rfl | hk
      · exact huv (by rw [← hsu, (e0 ρ β).1 hh, htv])
      · rcases mem_eraseIdx_or hi hk with rfl | hk
        · exact huv ((e1 ρ β).1 hh)
        · exact ⟨litAp st3 k, List.mem_cons_of_mem _ (List.mem_cons_of_mem _ (List.mem_map_of_mem hk)),
            (litAp_holds r2 (cc k hk)).2 hh⟩
    · exact ⟨_, List.mem_cons_self, (litAp_holds (l := ⟨false, t, v⟩) r2 ca').2 (by simpa [LitHolds] using htv)⟩
  · rcases List.mem_cons.1 hk with rfl | hk
    · refine litAp_typed sall.mono hin ?_ ca'
      rcases same_type sall.mono hin ts tu qs same' with rfl | ⟨k0, k1⟩
      · exact ⟨T0, tt, tv⟩
      · exact ⟨.type0, kind_type0 tt k0, kind_type0 tv k1⟩
    · rcases List.mem_cons.1 hk with rfl | hk
      · exact litAp_typed sall.mono hin ⟨T1, tu, tv⟩ cb'
      · obtain ⟨k0, hk0, rfl⟩ := List.mem_map.1 hk
        exact litAp_typed sall.mono hin (ht k0 (by simp [List.mem_of_mem_eraseIdx hk0])) (cc k0 hk0)
  · have sides : ∀ {l : Literal} {a b : Term}, Neat K Γ l → ((a = l.left ∧ b = l.right) ∨ (a = l.right ∧ b = l.left)) →
        ∃ T, PlainTy K T ∧ SHasType K Γ a T ∧ SHasType K Γ b T ∧ SortFree a ∧ SortFree b := by
      intro l a b ⟨⟨T, hT, h1, h2⟩, s1, s2⟩ hab
      rcases hab with ⟨rfl, rfl⟩ | ⟨rfl, rfl⟩
      · exact ⟨T, hT, h1, h2, s1, s2⟩
      · exact ⟨T, hT, h2, h1, s2, s1⟩
    obtain ⟨U0, hU0, ps, pt, fs, ft⟩ := sides (hn l0 (by simp)) h0
    obtain ⟨U1, hU1, pu, pv, fu, fv⟩ := sides (hn l (by simp [hl])) h1
    rcases List.mem_cons.1 hk with rfl | hk
    · refine neat_litAp sall.mono hin ⟨?_, ft, fv⟩ ca'
      rcases same_type sall.mono hin ps pu qs same' with rfl | ⟨k0, k1⟩
      · exact ⟨U0, hU0, pt, pv⟩
      · exact ⟨.type0, .inr rfl, kind_type0 pt k0, kind_type0 pv k1⟩
    · rcases List.mem_cons.1 hk with rfl | hk
      · exact neat_litAp sall.mono hin ⟨⟨U1, hU1, pu, pv⟩, fu, fv⟩ cb'
      · obtain ⟨k0, hk0, rfl⟩ := List.mem_map.1 hk
        exact neat_litAp sall.mono hin (hn k0 (by simp [List.mem_of_mem_eraseIdx hk0])) (cc k0 hk0)

/-- The factorings of a clause. -/
theorem factoring_sound {K : KCtx} {M : Interp.{u}} (L : Lawful K M) {c : Clause} {n : Nat}
    {fs : List Found} (hv : ValueVars K c.ctx) (ht : LitsTyped K c.ctx c.lits) (hs : NoSorts c.lits)
    (hu : VarsUsed M c.ctx c.lits) (e : findFactorings K n c = some fs) :
    ∀ f ∈ fs, (ClauseTrue M c → ClauseTrue M ⟨f.lits, f.ctx⟩) ∧ LitsTyped K f.ctx f.lits ∧ ValueVars K f.ctx ∧
      ((∀ l ∈ c.lits, Neat K c.ctx l) → ∀ l ∈ f.lits, Neat K f.ctx l) := by
  intro f hf
  obtain ⟨ls, Γ⟩ := c
  cases ls with
  | nil => simp only [findFactorings, Option.some.injEq] at e; subst e; cases hf
  | cons l0 rest =>
    unfold findFactorings at e
    dsimp only at e
    split at e
    · cases e; cases hf
    · rename_i hp
      have p0 : l0.positive = true := by
        cases hl : l0.positive with
        | true => rfl
        | false => rw [hl] at hp; exact absurd rfl hp
      split at e
      · cases e
      · cases e; cases hf
      · split at e
        · rename_i as bs ea eb
          simp only [Option.some.injEq] at e
          subst e
          rcases List.mem_append.1 hf with hf | hf
          · obtain ⟨j, l, hj, p1, h1 | h1⟩ := mem_factorRest rfl ea hf
            · exact factorAt_sound L hv ht hs hu hj p0 p1 (.inl ⟨rfl, rfl⟩) (.inl ⟨rfl, rfl⟩) h1
            · exact factorAt_sound L hv ht hs hu hj p0 p1 (.inl ⟨rfl, rfl⟩) (.inr ⟨rfl, rfl⟩) h1
          · obtain ⟨j, l, hj, p1, h1 | h1⟩ := mem_factorRest rfl eb hf
            · exact factorAt_sound L hv ht hs hu hj p0 p1 (.inr ⟨rfl, rfl⟩) (.inl ⟨rfl, rfl⟩) h1
            · exact factorAt_sound L hv ht hs hu hj p0 p1 (.inr ⟨rfl, rfl⟩) (.inr ⟨rfl, rfl⟩) h1
        · cases e

/-- Equality factoring of a true clause gives true, well-typed clauses. -/
theorem C15_factoring_partial {K : KCtx} {M : Interp.{u}} (L : Lawful K M) {c : Clause} {n : Nat}
    {fs : List Found} (hv : ValueVars K c.ctx) (ht : LitsTyped K c.ctx c.lits) (hs : NoSorts c.lits)
    (hu : VarsUsed M c.ctx c.lits) (e : findFactorings K n c = some fs) (h : ClauseTrue M c) :
    ∀ f ∈ fs, ClauseTrue M ⟨f.lits, f.ctx⟩ ∧ LitsTyped K f.ctx f.lits ∧ ValueVars K f.ctx :=
  fun f hf => (factoring_sound L hv ht hs hu e f hf).imp (fun k => k h) fun h => h.imp_right fun h => h.1

/-- Disagreement: `(exists (T: mon). single[T]) != (exists (T: Type0). single[T])` is a well-typed true clause
without free variables: no member of `mon` has at most one element, but `void` has none.  Equality
resolution derives the empty clause from it, because the unifier does not distinguish the two domains. -/
theorem C15_resolution_sort_unsound : ∃ (c : Clause) (n : Nat) (f : Found), Lawful Demo.K Demo.M ∧
    ValueVars Demo.K c.ctx ∧ LitsTyped Demo.K c.ctx c.lits ∧ VarsUsed Demo.M c.ctx c.lits ∧
    ClauseTrue Demo.M c ∧ findResolutions Demo.K n c = some [f] ∧ f.lits = [] ∧
    ¬ ClauseTrue Demo.M ⟨f.lits, f.ctx⟩ := by
  have hb : ∀ {A : Term} {Γ : LCtx}, A = Demo.mon ∨ A = .type0 → STyped Demo.K Γ (BCtx.cons A BCtx.nil)
      (.app Demo.single (.bvar 0)) (.ty .boolTy) := by
    intro A Γ hA
    refine .appTy (A := .type0) (B := .boolTy) (Demo.s_sym rfl rfl) ?_ rfl
    rcases hA with rfl | rfl
    · exact .forget (m := 0) (l := 0) (.bvar rfl)
    · exact .bvar rfl
  let c : Clause := ⟨[⟨false, .ex Demo.mon (.app Demo.single (.bvar 0)),
    .ex .type0 (.app Demo.single (.bvar 0))⟩], []⟩
  have none : ∀ i T, LCtx.get [] i = some T → False := fun i T h => by simp [LCtx.get] at h
  refine ⟨c, 20, ⟨[], [], []⟩, Demo.lawful, fun i T h => (none i T h).elim, ?_, fun i T h => (none i T h).elim,
    ?_, by with_unfolding_all rfl, rfl, ?_⟩
  · intro l hl
    simp only [c, List.mem_cons, List.not_mem_nil, or_false] at hl
    subst hl
    exact ⟨.boolTy, .ex .tyClass (hb (.inl rfl)), .ex .tyType0 (hb (.inr rfl))⟩
  · intro ρ hρ β
    refine ⟨_, List.mem_cons_self, ?_⟩
    simp only [LitHolds, Bool.false_eq_true, if_false]
    intro h
    have h2 : Tr Demo.M ρ β (.ex .type0 (.app Demo.single (.bvar 0))) := by
      rw [tr_ex Demo.lawful hρ (hb (.inr rfl)) bmodels_nil]
      refine ⟨(∅ : ZFSet), SetModel.U_empty, ?_⟩
      show SetModel.app (SetModel.lam SetModel.U _) (∅ : ZFSet) = _
      rw [SetModel.app_lam SetModel.U_empty, SetModel.ofProp,
        if_pos (fun a ha => absurd ha (ZFSet.notMem_empty a))]
      rfl
    have h1 : Tr Demo.M ρ β (.ex Demo.mon (.app Demo.single (.bvar 0))) := h.trans h2
    rw [tr_ex Demo.lawful hρ (hb (.inl rfl)) bmodels_nil] at h1
    obtain ⟨d, hd, h1⟩ := h1
    have hd : d = ZFSet.omega := ZFSet.mem_singleton.1 hd
    subst hd
    have h1 : SetModel.app (SetModel.lam SetModel.U _) ZFSet.omega = SetModel.tt := h1
    rw [SetModel.app_lam SetModel.U_omega, SetModel.ofProp] at h1
    split at h1
    · rename_i hall
      have : (∅ : ZFSet) = insert ∅ ∅ := hall _ ZFSet.omega_zero _ (ZFSet.omega_succ ZFSet.omega_zero)
      exact ZFSet.notMem_empty ∅ (Eq.mpr (congrArg (∅ ∈ ·) this) (ZFSet.mem_insert ∅ ∅))
    · exact SetModel.tt_ne_ff h1.symm
  · intro h
    obtain ⟨l, hl, _⟩ := h (fun _ => (∅ : ZFSet)) (Demo.models_nil _) (fun _ => (∅ : ZFSet))
    cases hl

/-- Non-vacuity: `x0 != zero or even(x0)` gives `even(zero)`. -/
example : ∃ c : Clause, ValueVars Demo.K c.ctx ∧ LitsTyped Demo.K c.ctx c.lits ∧ NoSorts c.lits ∧
    VarsUsed Demo.M c.ctx c.lits ∧ ClauseTrue Demo.M c ∧
    (findResolutions Demo.K 10 c).map (·.map Found.lits) =
      some [[Literal.new true (.app Demo.even Demo.zero) .tt]] := by
  refine ⟨⟨[⟨false, .fvar 0, Demo.zero⟩, ⟨true, .app Demo.even (.fvar 0), .tt⟩], [some Demo.nat]⟩,
    ?_, ?_, ?_, ?_, ?_, by with_unfolding_all rfl⟩
  · intro i T h
    match i, h with
    | 0, h => cases h; exact Demo.s_nat
  · intro l hl
    simp only [List.mem_cons, List.not_mem_nil, or_false] at hl
    rcases hl with rfl | rfl
    · exact ⟨Demo.nat, .fvar rfl rfl, Demo.s_zero⟩
    · exact ⟨.boolTy, Demo.s_even (.fvar rfl rfl), Demo.s_tt⟩
  · intro l hl
    simp only [List.mem_cons, List.not_mem_nil, or_false] at hl
    rcases hl with rfl | rfl <;> intro a ha <;> simp [atoms] at ha <;> rcases ha with rfl | rfl | rfl <;> simp
  · intro i T h
    match i, h with
    | 0, h => exact .inl ⟨_, List.mem_cons_self, .inl rfl⟩
  · intro ρ hρ β
    by_cases h : ρ 0 = (∅ : ZFSet)
    · refine ⟨⟨true, .app Demo.even (.fvar 0), .tt⟩, by simp, ?_⟩
      simp only [LitHolds, if_true]
      show SetModel.app (SetModel.lam ZFSet.omega _) (ρ 0) = _
      have h0 : ρ 0 ∈ ZFSet.omega := hρ 0 Demo.nat rfl β
      rw [SetModel.app_lam h0, SetModel.ofProp]
      exact if_pos h
    · exact ⟨_, List.mem_cons_self, h⟩

/-- Non-vacuity: `suc(x0) = suc(x0) or suc(x1) = zero` gives factors, among them
`suc(x0) != zero or suc(x0) = zero`. -/
example : ∃ c : Clause, ValueVars Demo.K c.ctx ∧ LitsTyped Demo.K c.ctx c.lits ∧ NoSorts c.lits ∧
    VarsUsed Demo.M c.ctx c.lits ∧ ClauseTrue Demo.M c ∧
    (findFactorings Demo.K 20 c).map (·.map Found.lits) =
      some [[Literal.new false (.app Demo.suc (.fvar 0)) Demo.zero, Literal.new true (.app Demo.suc (.fvar 0)) Demo.zero],
        [Literal.new false (.app Demo.suc (.fvar 0)) Demo.zero, Literal.new true (.app Demo.suc (.fvar 0)) Demo.zero]] := by
  have hn : ∀ {Γ : LCtx} {i : Nat}, Γ.get i = some Demo.nat → SHasType Demo.K Γ (.app Demo.suc (.fvar i)) Demo.nat :=
    fun h => Demo.s_suc (.fvar h rfl)
  refine ⟨⟨[⟨true, .app Demo.suc (.fvar 0), .app Demo.suc (.fvar 0)⟩, ⟨true, .app Demo.suc (.fvar 1), Demo.zero⟩],
    [some Demo.nat, some Demo.nat]⟩, ?_, ?_, ?_, ?_, ?_, by with_unfolding_all rfl⟩
  · intro i T h
    match i, h with
    | 0, h => cases h; exact Demo.s_nat
    | 1, h => cases h; exact Demo.s_nat
  · intro l hl
    simp only [List.mem_cons, List.not_mem_nil, or_false] at hl
    rcases hl with rfl | rfl
    · exact ⟨Demo.nat, hn rfl, hn rfl⟩
    · exact ⟨Demo.nat, hn rfl, Demo.s_zero⟩
  · intro l hl
    simp only [List.mem_cons, List.not_mem_nil, or_false] at hl
    rcases hl with rfl | rfl <;> intro a ha <;> simp [atoms] at ha <;> grind
  · intro i T h
    match i, h with
    | 0, h => exact .inl ⟨_, List.mem_cons_self, .inl rfl⟩
    | 1, h => exact .inl ⟨_, List.mem_cons_of_mem _ List.mem_cons_self, .inl rfl⟩
  · intro ρ hρ β
    exact ⟨_, List.mem_cons_self, rfl⟩

/-- C12 for value variables: a unifier for well-typed terms over value variables, fresh from the start,
binds every variable to a term of its declared type (whether or not it succeeds). -/
theorem C12_typed {K : KCtx} {inputs : Nat → Option LCtx} {st' : UState} {n s1 s2 : Nat} {t1 t2 T1 T2 : Term}
    {Γ1 Γ2 : LCtx} {b : Bool} (h0 : s1 ≠ 0) (h0' : s2 ≠ 0)
    (hin : ∀ s Γ, inputs s = some Γ → ValueVars K Γ) (i1 : inputs s1 = some Γ1) (i2 : inputs s2 = some Γ2)
    (h1 : SHasType K Γ1 t1 T1) (h2 : SHasType K Γ2 t2 T2)
    (e : Unifier.unify K n (Unifier.init inputs) s1 t1 s2 t2 = some (b, st')) :
    ∀ s i t, s ≠ 0 → (st'.maps s).get i = some t →
      ∃ Γ T, inputs s = some Γ ∧ Γ.get i = some T ∧ SHasType K st'.out t T := by
  have hs : Unifier.Solved (Unifier.init inputs) := Unifier.solved_of_reach (.init _) (K := K)
  have hm : Unifier.Mono K (fun _ => True) (Unifier.init inputs) := by
    refine ⟨hin, fun i T e => ?_, fun i T e => ?_, fun s i t e => ?_, fun _ => trivial⟩
    · simp [Unifier.init, LCtx.get] at e
    · simp [Unifier.init, LCtx.get] at e
    · rw [show (Unifier.init inputs).maps s = [] from rfl, get_nil] at e; cases e
  obtain ⟨m, o⟩ := (Unifier.monoOk K (fun _ => True) n).unify hs hm
    (Unifier.Tm.of_nil (by simp [Unifier.ctxOf, h0, Unifier.init, i1]) h1 fun _ _ => trivial)
    (Unifier.Tm.of_nil (by simp [Unifier.ctxOf, h0', Unifier.init, i2]) h2 fun _ _ => trivial) e
  intro s i t h0 hg
  obtain ⟨⟨Γ, T, a, c, d⟩, -⟩ := m.vals s i t hg
  simp only [Unifier.ctxOf, h0, if_false] at a
  rw [o.inputs] at a
  exact ⟨Γ, T, a, c, d⟩

/-- Non-vacuity: the terms of the first example for C12 are well typed. -/
example : ∀ s Γ, demoUnifier.inputs s = some Γ → ValueVars Demo.K Γ ∧
    SHasType Demo.K Γ (.app (.app Demo.add (.fvar 0)) (.app Demo.suc (.fvar 1))) Demo.nat ∧
    SHasType Demo.K Γ (.app (.app Demo.add (.app Demo.suc (.fvar 0))) (.fvar 0)) Demo.nat := by
  intro s Γ h
  change (if s = 1 ∨ s = 2 then some [some Demo.nat, some Demo.nat] else none) = some Γ at h
  split at h
  · cases h
    refine ⟨fun i T h => ?_, Demo.s_add (.fvar rfl rfl) (Demo.s_suc (.fvar rfl rfl)),
      Demo.s_add (Demo.s_suc (.fvar rfl rfl)) (.fvar rfl rfl)⟩
    match i, h with
    | 0, h => cases h; exact Demo.s_nat
    | 1, h => cases h; exact Demo.s_nat
  · cases h

end Acorn
