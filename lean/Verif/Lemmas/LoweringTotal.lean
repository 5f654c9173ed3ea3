/-
Lowering succeeds on values whose constants and types are in the tables.
-/
import Verif.Lemmas.Lowering
namespace Acorn
namespace Elab

open Spec

variable {L : Tables} {tv : List (String × Nat)}

mutual

theorem lowerType_some : ∀ t : Ty, TyDeclared L tv t → ∃ T, lowerType L tv t = some T
  | .bool, _ => ⟨_, rfl⟩
  | .data d as, ⟨⟨g, hg⟩, ha⟩ => by
    obtain ⟨As, hAs⟩ := lowerTypes_some as ha
    exact ⟨_, by simp only [lowerType, hg, hAs, Option.bind_eq_bind, Option.bind_some, Option.pure_def]; rfl⟩
  | .fn as r, ⟨ha, hr⟩ => by
    obtain ⟨As, hAs⟩ := lowerTypes_some as ha
    obtain ⟨R, hR⟩ := lowerType_some r hr
    exact ⟨_, by simp only [lowerType, hR, hAs, Option.bind_eq_bind, Option.bind_some, Option.pure_def]; rfl⟩
  | .tvar n, ⟨i, hi⟩ => ⟨_, by simp only [lowerType, hi, Option.map_some]; rfl⟩
  | .arb n, hn => by
    simp only [lowerType]
    cases hl : tv.lookup n with
    | some i => exact ⟨_, rfl⟩
    | none =>
      rcases hn with ⟨i, hi⟩ | ⟨g, hg⟩
      · rw [hl] at hi; cases hi
      · exact ⟨_, by simp only [hg, Option.map_some]; rfl⟩
  | .type0, _ => ⟨_, rfl⟩
  | .constraint c, ⟨g, hg⟩ => ⟨_, by simp only [lowerType, hg, Option.map_some]; rfl⟩

theorem lowerTypes_some : ∀ ts : List Ty, TysDeclared L tv ts → ∃ Ts, lowerTypes L tv ts = some Ts
  | [], _ => ⟨_, rfl⟩
  | t :: ts, ⟨ht, hts⟩ => by
    obtain ⟨T, hT⟩ := lowerType_some t ht
    obtain ⟨Ts, hTs⟩ := lowerTypes_some ts hts
    exact ⟨_, by simp only [lowerTypes, hT, hTs, Option.bind_eq_bind, Option.bind_some, Option.pure_def]; rfl⟩

end

theorem lowerValueType_some {v : Value} {t : Ty} (hg : v.getType = some t)
    (ht : ∀ t, v.getType = some t → TyDeclared L tv t) : ∃ T, v.lowerValueType L tv = some T := by
  obtain ⟨T, hT⟩ := lowerType_some t (ht t hg)
  unfold Value.lowerValueType
  simp only [hg, Option.bind_some, hT]
  split
  · split
    · split <;> exact ⟨_, rfl⟩
    · exact ⟨_, rfl⟩
  · exact ⟨_, rfl⟩

theorem pushVars_some : ∀ (n : Nat) (st : List Term), ∃ st', Value.pushVars n st = some st' ∧ st'.length = st.length + n
  | 0, st => ⟨st, rfl, rfl⟩
  | n + 1, st => by
    simp only [Value.pushVars, mapM_shift, Option.bind_eq_bind, Option.bind_some]
    obtain ⟨st', h1, h2⟩ := pushVars_some n (st.map (Term.up 0 1) ++ [.bvar 0])
    refine ⟨st', h1, ?_⟩
    rw [h2]
    simp
    omega

/-- With enough fuel, lowering on a stack of size `n` succeeds. -/
def Succeeds (L : Tables) (tv : List (String × Nat)) (prefer : Bool) (n : Nat) (v : Value) : Prop :=
  ∃ N, ∀ fuel, N ≤ fuel → ∀ st : List Term, st.length = n → ∃ term, v.lower L tv prefer fuel st = some term

theorem binder_some {prefer : Bool} {n : Nat} {ts : List Ty} {b : Value} (ht : TysDeclared L tv ts)
    (hb : Succeeds L tv prefer (n + ts.length) b) (q : Binder) :
    ∃ N, ∀ fuel, N ≤ fuel → ∀ st : List Term, st.length = n →
      ∃ term, Value.lowerBinder L tv prefer fuel st q ts b = some term := by
  obtain ⟨N, hN⟩ := hb
  refine ⟨N + 1, fun fuel hf st hst => ?_⟩
  obtain ⟨fuel, rfl⟩ : ∃ k, fuel = k + 1 := ⟨fuel - 1, by omega⟩
  obtain ⟨Ts, hTs⟩ := lowerTypes_some ts ht
  obtain ⟨st', h1, h2⟩ := pushVars_some ts.length st
  obtain ⟨b', hb'⟩ := hN fuel (by omega) st' (by omega)
  exact ⟨_, by simp only [Value.lowerBinder, hTs, h1, hb', Option.bind_eq_bind, Option.bind_some, Option.pure_def]; rfl⟩

theorem partial_parts {prefer : Bool} (n : Nat) : ∀ (b : Value) (ts : List Ty) (s : Symbol) (o : Option Ty)
    (parts : List Value), Value.partialLogical n ts b = some (s, o, parts) →
    (∀ t ∈ o, t ∈ ts) ∧ ∀ m, Succeeds L tv prefer m b → ∀ p ∈ parts, Succeeds L tv prefer m p := by
  have step : ∀ (m : Nat) (a c : Value), Succeeds L tv prefer m a →
      (∀ fuel st term, a.lower L tv prefer (fuel + 1) st = some term → ∃ t, c.lower L tv prefer fuel st = some t) →
      Succeeds L tv prefer m c := by
    rintro m a c ⟨N, hN⟩ hc
    refine ⟨N, fun fuel hf st hst => ?_⟩
    obtain ⟨term, e⟩ := hN (fuel + 1) (by omega) st hst
    exact hc fuel st term e
  have left : ∀ m op a b, Succeeds L tv prefer m (.bin op a b) → Succeeds L tv prefer m a := by
    refine fun m op a b hs => step m _ a hs fun fuel st term e => ?_
    simp only [Value.lower, Option.bind_eq_bind] at e
    obtain ⟨l, hl, _⟩ := Option.bind_eq_some_iff.1 e
    exact ⟨l, hl⟩
  intro b
  induction b using Value.rec (motive_2 := fun _ => True) (motive_3 := fun _ => True) (motive_4 := fun _ => True) with
  | group a ih =>
    intro ts s o parts e
    obtain ⟨h1, h2⟩ := ih ts s o parts e
    exact ⟨h1, fun m hs => h2 m (step m _ a hs fun fuel st term e => ⟨term, e⟩)⟩
  | not a _ =>
    intro ts s o parts e
    simp only [Value.partialLogical] at e
    split at e
    · split at e
      · cases e
        exact ⟨fun t ht => by simp at ht, fun m hs p hp => by simp at hp⟩
      · cases e
    · cases e
  | bin op a b _ _ =>
    intro ts s o parts e
    simp only [Value.partialLogical] at e
    split at e <;>
    first
    | (split at e
       · cases e
         refine ⟨fun t ht => ?_, fun m hs p hp => ?_⟩
         · first
           | (simp at ht; done)
           | (cases ht; simp)
         · first
           | (simp at hp; done)
           | (rw [List.mem_singleton.1 hp]; exact left m _ _ _ hs)
       · cases e)
    | cases e
  | ite c a b _ _ _ =>
    intro ts s o parts e
    simp only [Value.partialLogical] at e
    have lc : ∀ m, Succeeds L tv prefer m (.ite c a b) → Succeeds L tv prefer m c := by
      refine fun m hs => step m _ c hs fun fuel st term e => ?_
      simp only [Value.lower, Option.bind_eq_bind] at e
      obtain ⟨l, hl, _⟩ := Option.bind_eq_some_iff.1 e
      exact ⟨l, hl⟩
    have la : ∀ m, Succeeds L tv prefer m (.ite c a b) → Succeeds L tv prefer m a := by
      refine fun m hs => step m _ a hs fun fuel st term e => ?_
      simp only [Value.lower, Option.bind_eq_bind] at e
      obtain ⟨l, hl, e⟩ := Option.bind_eq_some_iff.1 e
      obtain ⟨l, hl, _⟩ := Option.bind_eq_some_iff.1 e
      exact ⟨l, hl⟩
    split at e
    · split at e
      · cases e
        exact ⟨fun t ht => by cases ht; simp, fun m hs p hp => by simp at hp⟩
      · cases e
    · split at e
      · cases e
        exact ⟨fun t ht => by cases ht; simp, fun m hs p hp => by rw [List.mem_singleton.1 hp]; exact lc m hs⟩
      · cases e
    · split at e
      · cases e
        refine ⟨fun t ht => by cases ht; simp, fun m hs p hp => ?_⟩
        rcases List.mem_cons.1 hp with rfl | hp
        · exact lc m hs
        · rw [List.mem_singleton.1 hp]
          exact la m hs
      · cases e
    · cases e
  | _ => intros; simp_all [Value.partialLogical]

theorem all_succeed {prefer : Bool} {n : Nat} : ∀ (vs : List Value), (∀ v ∈ vs, Succeeds L tv prefer n v) →
    ∃ N, ∀ fuel, N ≤ fuel → ∀ st : List Term, st.length = n →
      ∃ terms, Value.lowerAll L tv prefer fuel st vs = some terms
  | [], _ => ⟨1, fun fuel hf st _ => by
      obtain ⟨fuel, rfl⟩ : ∃ k, fuel = k + 1 := ⟨fuel - 1, by omega⟩
      exact ⟨_, rfl⟩⟩
  | v :: vs, hv => by
    obtain ⟨N1, h1⟩ := hv v List.mem_cons_self
    obtain ⟨N2, h2⟩ := all_succeed vs fun w hw => hv w (List.mem_cons_of_mem _ hw)
    refine ⟨N1 + N2 + 1, fun fuel hf st hst => ?_⟩
    obtain ⟨fuel, rfl⟩ : ∃ k, fuel = k + 1 := ⟨fuel - 1, by omega⟩
    obtain ⟨t, ht⟩ := h1 fuel (by omega) st hst
    obtain ⟨ts, hts⟩ := h2 fuel (by omega) st hst
    exact ⟨_, by simp only [Value.lowerAll, ht, hts, Option.bind_eq_bind, Option.bind_some, Option.pure_def]; rfl⟩

theorem cases_succeed {prefer : Bool} {n : Nat} : ∀ (cs : List Case),
    (∀ c ∈ cs, TysDeclared L tv (caseVars c) ∧
      Succeeds L tv prefer (n + (caseVars c).length) (Value.caseResult c)) →
    ∃ N, ∀ fuel, N ≤ fuel → ∀ st : List Term, st.length = n →
      ∃ terms, Value.lowerCases L tv prefer fuel st cs = some terms
  | [], _ => ⟨1, fun fuel hf st _ => by
      obtain ⟨fuel, rfl⟩ : ∃ k, fuel = k + 1 := ⟨fuel - 1, by omega⟩
      exact ⟨_, rfl⟩⟩
  | .mk ts p r i k :: cs, hv => by
    obtain ⟨ht, hb⟩ := hv _ List.mem_cons_self
    obtain ⟨N1, h1⟩ := binder_some ht hb .lam
    obtain ⟨N2, h2⟩ := cases_succeed cs fun w hw => hv w (List.mem_cons_of_mem _ hw)
    refine ⟨N1 + N2 + 1, fun fuel hf st hst => ?_⟩
    obtain ⟨fuel, rfl⟩ : ∃ k, fuel = k + 1 := ⟨fuel - 1, by omega⟩
    obtain ⟨t, ht⟩ := h1 fuel (by omega) st hst
    obtain ⟨ts', hts⟩ := h2 fuel (by omega) st hst
    have ht : Value.lowerBinder L tv prefer fuel st .lam ts r = some t := ht
    exact ⟨_, by simp only [Value.lowerCases, ht, hts, Option.bind_eq_bind, Option.bind_some, Option.pure_def]; rfl⟩

/-! ### Complete matches -/

theorem sort_index (cs : List Case) {n : Nat} (hnd : (cs.map Value.caseIndex).Nodup)
    (hlt : ∀ c ∈ cs, Value.caseIndex c < n) (hall : ∀ i, i < n → ∃ c ∈ cs, Value.caseIndex c = i) :
    (Value.sortCases cs).map Value.caseIndex = List.range n := by
  have hperm : (cs.map Value.caseIndex).Perm (List.range n) := by
    refine (List.perm_ext_iff_of_nodup hnd List.nodup_range).2 fun i => ?_
    rw [List.mem_range, List.mem_map]
    exact ⟨fun ⟨c, hc, e⟩ => e ▸ hlt c hc, fun hi => hall i hi⟩
  have hperm2 : ((Value.sortCases cs).map Value.caseIndex).Perm (List.range n) := ((sort_perm cs).map _).trans hperm
  have hs : ((Value.sortCases cs).map Value.caseIndex).Pairwise (· ≤ ·) := by
    rw [List.pairwise_map]
    exact sort_sorted cs
  refine List.Perm.eq_of_pairwise (le := (· ≤ ·)) (fun a b _ _ h1 h2 => Nat.le_antisymm h1 h2) hs ?_ hperm2
  exact List.pairwise_le_range

theorem complete_of {cs : List Case} {n : Nat} (hnd : (cs.map Value.caseIndex).Nodup)
    (hlt : ∀ c ∈ cs, Value.caseIndex c < n ∧ Value.caseTotal c = n)
    (hall : ∀ i, i < n → ∃ c ∈ cs, Value.caseIndex c = i) : Value.casesComplete (Value.sortCases cs) = true := by
  have hr := sort_index cs hnd (fun c hc => (hlt c hc).1) hall
  have hlen : (Value.sortCases cs).length = n := by
    have := congrArg List.length hr
    simpa using this
  unfold Value.casesComplete
  rw [List.all_eq_true]
  rintro ⟨c, i⟩ hci
  rw [List.mem_zipIdx_iff_getElem?] at hci
  simp only at hci
  have h1 := (hlt c ((sort_perm cs).mem_iff.1 (List.mem_of_getElem? hci))).2
  have h2 : ((Value.sortCases cs).map Value.caseIndex)[i]? = some (Value.caseIndex c) := by
    rw [List.getElem?_map, hci]
    rfl
  rw [hr] at h2
  have h3 := (List.getElem?_eq_some_iff.1 h2)
  obtain ⟨h4, h5⟩ := h3
  simp only [List.getElem_range] at h5
  simp only [Bool.and_eq_true, beq_iff_eq]
  exact ⟨h1.trans hlen.symm, h5.symm⟩

variable {S : Theory}

theorem same_results {Γ : List Ty} {ks : List (String × List Ty × List Ty)} {t : Ty} {cs : List Case}
    (hne : cs ≠ []) (hc : CasesOk S Γ cs ks t) : Value.sameResults cs = true := by
  unfold Value.sameResults
  rw [getType_okCases cs Γ ks t hne hc]
  simp only [List.all_eq_true]
  intro c hcm
  obtain ⟨_, _, _, _, hv⟩ := caseOk_get ((casesOk_iff cs).1 hc c hcm)
  exact (typeIs_iff _ _).2 (getType_ok _ _ _ hv)

theorem tysDeclared_mem : ∀ {ts : List Ty}, TysDeclared L tv ts → ∀ t ∈ ts, TyDeclared L tv t
  | [], _, t, h => by simp at h
  | u :: ts, hh, t, h => by
    rcases List.mem_cons.1 h with rfl | h
    · exact hh.1
    · exact tysDeclared_mem hh.2 t h

mutual

theorem lower_some (prefer : Bool) : ∀ (v : Value) (Γ : List Ty) (t : Ty), ValueOk S Γ v t → Declared L tv v →
    Succeeds L tv prefer Γ.length v
  | .var i t', Γ, t, hv, _ => ⟨1, fun fuel hf st hst => by
      obtain ⟨fuel, rfl⟩ : ∃ k, fuel = k + 1 := ⟨fuel - 1, by omega⟩
      have := (List.getElem?_eq_some_iff.1 hv.2).1
      exact ⟨st[i]'(by omega), by simp only [Value.lower]; exact List.getElem?_eq_getElem _⟩⟩
  | .const n ps t', Γ, t, _, ⟨⟨s, hs⟩, hp⟩ => ⟨1, fun fuel hf st hst => by
      obtain ⟨fuel, rfl⟩ : ∃ k, fuel = k + 1 := ⟨fuel - 1, by omega⟩
      obtain ⟨Ps, hPs⟩ := lowerTypes_some ps hp
      simp only [Value.lower, Value.lowerConst]
      split
      · exact ⟨_, rfl⟩
      · exact ⟨_, by simp only [hs, hPs, Option.bind_eq_bind, Option.bind_some, Option.pure_def]; rfl⟩⟩
  | .app f as, Γ, t, ⟨u, hf, ha⟩, ⟨df, da⟩ => by
    obtain ⟨N1, h1⟩ := lower_some prefer f Γ u hf df
    obtain ⟨N2, h2⟩ := all_succeed as (lower_someArgs prefer as Γ u t ha da)
    refine ⟨N1 + N2 + 1, fun fuel hf st hst => ?_⟩
    obtain ⟨fuel, rfl⟩ : ∃ k, fuel = k + 1 := ⟨fuel - 1, by omega⟩
    obtain ⟨t, ht⟩ := h1 fuel (by omega) st hst
    obtain ⟨ts, hts⟩ := h2 fuel (by omega) st hst
    exact ⟨_, by simp only [Value.lower, ht, hts, Option.bind_eq_bind, Option.bind_some, Option.pure_def]; rfl⟩
  | .tapp _ _ _, _, _, hv, _ => hv.elim
  | .lam ts b, Γ, t, ⟨r, _, hb⟩, ⟨dt, db⟩ => by
    have hs := lower_some prefer b (Γ ++ ts) r hb db
    rw [List.length_append] at hs
    obtain ⟨N1, h1⟩ := binder_some dt hs .lam
    cases hp : Value.partialLogical Γ.length ts b with
    | none =>
      refine ⟨N1 + 1, fun fuel hf st hst => ?_⟩
      obtain ⟨fuel, rfl⟩ : ∃ k, fuel = k + 1 := ⟨fuel - 1, by omega⟩
      obtain ⟨t, ht⟩ := h1 fuel (by omega) st hst
      exact ⟨t, by simp only [Value.lower, hst, hp]; exact ht⟩
    | some x =>
      obtain ⟨s, o, parts⟩ := x
      obtain ⟨ho, hparts⟩ := partial_parts (L := L) (tv := tv) (prefer := prefer) _ b ts s o parts hp
      obtain ⟨N2, h2⟩ := all_succeed parts (hparts _ hs)
      refine ⟨N2 + 1, fun fuel hf st hst => ?_⟩
      obtain ⟨fuel, rfl⟩ : ∃ k, fuel = k + 1 := ⟨fuel - 1, by omega⟩
      have hO : ∃ Os, lowerTypes L tv o.toList = some Os := by
        refine lowerTypes_some _ ?_
        cases o with
        | none => exact trivial
        | some u => exact ⟨tysDeclared_mem dt u (ho u rfl), trivial⟩
      obtain ⟨Os, hOs⟩ := hO
      obtain ⟨ps, hps⟩ := h2 fuel (by omega) (st ++ List.replicate ts.length .tt) (by simp [hst])
      exact ⟨_, by simp only [Value.lower, hst, hp, hOs, hps, Option.bind_eq_bind, Option.bind_some, Option.pure_def]; rfl⟩
  | .bin op a b, Γ, t, ⟨_, u, ha, hb, _⟩, ⟨da, db, dt⟩ => by
    obtain ⟨N1, h1⟩ := lower_some prefer a Γ u ha da
    obtain ⟨N2, h2⟩ := lower_some prefer b Γ u hb db
    refine ⟨N1 + N2 + 1, fun fuel hf st hst => ?_⟩
    obtain ⟨fuel, rfl⟩ : ∃ k, fuel = k + 1 := ⟨fuel - 1, by omega⟩
    obtain ⟨x, hx⟩ := h1 fuel (by omega) st hst
    obtain ⟨y, hy⟩ := h2 fuel (by omega) st hst
    obtain ⟨T, hT⟩ := lowerValueType_some (getType_ok a Γ u ha) dt
    cases op <;>
      exact ⟨_, by simp only [Value.lower, hx, hy, hT, Option.bind_eq_bind, Option.bind_some, Option.pure_def]; rfl⟩
  | .not a, Γ, t, ⟨_, ha⟩, da => by
    obtain ⟨N1, h1⟩ := lower_some prefer a Γ _ ha da
    refine ⟨N1 + 1, fun fuel hf st hst => ?_⟩
    obtain ⟨fuel, rfl⟩ : ∃ k, fuel = k + 1 := ⟨fuel - 1, by omega⟩
    obtain ⟨x, hx⟩ := h1 fuel (by omega) st hst
    exact ⟨_, by simp only [Value.lower, hx, Option.bind_eq_bind, Option.bind_some, Option.pure_def]; rfl⟩
  | .try_ _ _, _, _, hv, _ => hv.elim
  | .all ts b, Γ, t, ⟨_, hb⟩, ⟨dt, db⟩ => by
    have hs := lower_some prefer b (Γ ++ ts) _ hb db
    rw [List.length_append] at hs
    obtain ⟨N1, h1⟩ := binder_some dt hs .all
    refine ⟨N1 + 1, fun fuel hf st hst => ?_⟩
    obtain ⟨fuel, rfl⟩ : ∃ k, fuel = k + 1 := ⟨fuel - 1, by omega⟩
    obtain ⟨x, hx⟩ := h1 fuel (by omega) st hst
    exact ⟨x, by simp only [Value.lower]; exact hx⟩
  | .ex ts b, Γ, t, ⟨_, hb⟩, ⟨dt, db⟩ => by
    have hs := lower_some prefer b (Γ ++ ts) _ hb db
    rw [List.length_append] at hs
    obtain ⟨N1, h1⟩ := binder_some dt hs .ex
    refine ⟨N1 + 1, fun fuel hf st hst => ?_⟩
    obtain ⟨fuel, rfl⟩ : ∃ k, fuel = k + 1 := ⟨fuel - 1, by omega⟩
    obtain ⟨x, hx⟩ := h1 fuel (by omega) st hst
    exact ⟨x, by simp only [Value.lower]; exact hx⟩
  | .group a, Γ, t, hv, da => by
    obtain ⟨N1, h1⟩ := lower_some prefer a Γ t hv da
    refine ⟨N1 + 1, fun fuel hf st hst => ?_⟩
    obtain ⟨fuel, rfl⟩ : ∃ k, fuel = k + 1 := ⟨fuel - 1, by omega⟩
    obtain ⟨x, hx⟩ := h1 fuel (by omega) st hst
    exact ⟨x, by simp only [Value.lower]; exact hx⟩
  | .bool b, _, _, _, _ => ⟨1, fun fuel hf st hst => by
      obtain ⟨fuel, rfl⟩ : ∃ k, fuel = k + 1 := ⟨fuel - 1, by omega⟩
      exact ⟨_, rfl⟩⟩
  | .ite c a b, Γ, t, ⟨_, hc, ha, hb⟩, ⟨dc, da, db, dt⟩ => by
    obtain ⟨N0, h0⟩ := lower_some prefer c Γ _ hc dc
    obtain ⟨N1, h1⟩ := lower_some prefer a Γ t ha da
    obtain ⟨N2, h2⟩ := lower_some prefer b Γ t hb db
    refine ⟨N0 + N1 + N2 + 1, fun fuel hf st hst => ?_⟩
    obtain ⟨fuel, rfl⟩ : ∃ k, fuel = k + 1 := ⟨fuel - 1, by omega⟩
    obtain ⟨z, hz⟩ := h0 fuel (by omega) st hst
    obtain ⟨x, hx⟩ := h1 fuel (by omega) st hst
    obtain ⟨y, hy⟩ := h2 fuel (by omega) st hst
    obtain ⟨T, hT⟩ := lowerValueType_some (getType_ok a Γ t ha) dt
    exact ⟨_, by simp only [Value.lower, hz, hx, hy, hT, Option.bind_eq_bind, Option.bind_some, Option.pure_def]; rfl⟩
  | .match_ s cs, Γ, t, ⟨_, hne, d, as, ks, hs, _, hi, hc⟩, ⟨ds, dc, hnd, hm⟩ => by
    obtain ⟨N0, h0⟩ := lower_some prefer s Γ _ hs ds
    have hsg := getType_ok s Γ _ hs
    obtain ⟨⟨m, hm⟩, dA⟩ := hm d as hsg
    obtain ⟨As, hAs⟩ := lowerTypes_some as dA
    have hcs := lower_someCases prefer cs Γ ks t hc dc
    obtain ⟨N1, h1⟩ := cases_succeed (Value.sortCases cs) fun c hcm =>
      ⟨(hcs c ((sort_perm cs).mem_iff.1 hcm)).1, (hcs c ((sort_perm cs).mem_iff.1 hcm)).2.1⟩
    refine ⟨N0 + N1 + 1, fun fuel hf st hst => ?_⟩
    obtain ⟨fuel, rfl⟩ : ∃ k, fuel = k + 1 := ⟨fuel - 1, by omega⟩
    obtain ⟨x, hx⟩ := h0 fuel (by omega) st hst
    obtain ⟨ys, hys⟩ := h1 fuel (by omega) st hst
    have hcomp : Value.casesComplete (Value.sortCases cs) = true := by
      refine complete_of hnd (fun c hcm => ?_) hi
      obtain ⟨h1, k, h2, _⟩ := caseOk_get ((casesOk_iff cs).1 hc c hcm)
      exact ⟨(List.getElem?_eq_some_iff.1 h2).1, h1⟩
    have hsame := same_results hne hc
    match cs, hne, hc, hcs with
    | .mk ts0 p0 r0 i0 n0 :: cs0, _, hc, hcs =>
      have hr := (hcs _ List.mem_cons_self).2.2
      obtain ⟨T, hT⟩ := lowerValueType_some (getType_ok r0 _ t hc.2.1) hr
      refine ⟨(Term.apply (.sym m) (As ++ [T])).apply (x :: ys), ?_⟩
      simp only [Value.lower, hsg, hsame, hcomp, Bool.and_true, if_true, hm, hAs, hT, hx, hys, Option.bind_eq_bind,
        Option.bind_some, Option.pure_def]

theorem lower_someArgs (prefer : Bool) : ∀ (as : List Value) (Γ : List Ty) (u t : Ty), ArgsOk S Γ as u t →
    DeclaredAll L tv as → ∀ a ∈ as, Succeeds L tv prefer Γ.length a
  | [], _, _, _, _, _, a, ha => by simp at ha
  | b :: as, Γ, _, t, ⟨p, ps, r, _, hb, hs⟩, ⟨db, ds⟩, a, ha => by
    rcases List.mem_cons.1 ha with e | ha
    · exact e ▸ lower_some prefer b Γ p hb db
    · exact lower_someArgs prefer as Γ _ t hs ds a ha

theorem lower_someCases (prefer : Bool) : ∀ (cs : List Case) (Γ : List Ty) (ks : List (String × List Ty × List Ty))
    (t : Ty), CasesOk S Γ cs ks t → DeclaredCases L tv cs → ∀ c ∈ cs, TysDeclared L tv (caseVars c) ∧
      Succeeds L tv prefer (Γ.length + (caseVars c).length) (Value.caseResult c) ∧
      ∀ t, (Value.caseResult c).getType = some t → TyDeclared L tv t
  | [], _, _, _, _, _, c, hc => by simp at hc
  | .mk ts p r i n :: cs, Γ, ks, t, ⟨_, hr, hcs⟩, ⟨dt, dr, dtr, ds⟩, c, hc => by
    rcases List.mem_cons.1 hc with rfl | hc
    · have := lower_some prefer r (Γ ++ ts) t hr dr
      rw [List.length_append] at this
      exact ⟨dt, this, dtr⟩
    · exact lower_someCases prefer cs Γ ks t hcs ds c hc

end

end Elab
end Acorn
