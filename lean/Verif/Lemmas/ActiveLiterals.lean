/-
What the set of known literals says about a literal.
-/
import Verif.Lemmas.PassiveSound
import Verif.Lemmas.ActiveRewrite
import Verif.Props.Pdt
namespace Acorn
namespace Active
open Spec Term
open Passive (Step)

universe u

variable {R : Type} {E : Env R} {M : Interp.{u}} {K : KCtx}

theorem fitsAtom_iff {a : Atom} : fitsAtom a = true ↔ AtomFits a := by
  cases a with
  | fvar i => simp [fitsAtom, AtomFits]
  | bvar i => simp [fitsAtom, AtomFits]
  | sym s => cases s <;> simp [fitsAtom, AtomFits, fitsSymbol, SymbolFits]

theorem fits_of_all {t : Term} (h : t.atoms.all fitsAtom = true) : Fits t := fun a ha =>
  fitsAtom_iff.1 (List.all_eq_true.1 h a ha)

/-- A stored literal fits, in both directions. -/
def Stored (l : Literal) (Γ : LCtx) : Prop := fitsLit l = true ∧ fitsReversed l Γ = true

theorem stored_pairs {l : Literal} {id : Nat} {P : LCtx} (h : Stored l P) : ∀ x ∈ Pdt.literalPairs l id P,
    Fits x.1 ∧ Fits x.2.1 := by
  intro x hx
  obtain ⟨h1, h2⟩ := h
  rw [fitsLit, Bool.and_eq_true] at h1
  simp only [Pdt.literalPairs, List.mem_cons] at hx
  rcases hx with rfl | hx
  · exact ⟨fits_of_all h1.1, fits_of_all h1.2⟩
  · split at hx
    · rename_i r a P' ids hs hn
      rw [List.mem_singleton] at hx
      subst hx
      rw [fitsReversed, hn] at h2
      dsimp only at h2
      rw [Bool.and_eq_true] at h2
      exact ⟨fits_of_all h2.1, fits_of_all h2.2⟩
    · cases hx

theorem apply_some (rs : List Term) (t : Term) : VMap.apply (rs.map some) t = instantiate rs t := by
  induction t with
  | atom a =>
    cases a with
    | fvar i =>
      simp only [VMap.apply, instantiate, VMap.get, List.getElem?_map, List.getD]
      cases rs[i]? <;> rfl
    | _ => rfl
  | app f a ih1 ih2 => simp only [VMap.apply, instantiate, ih1, ih2]
  | bind b A B ih1 ih2 => simp only [VMap.apply, instantiate, ih1, ih2]

theorem small_plainType {T : Term} (h : Small K T) : PlainType T := by
  refine ⟨h.closed, fun a ha => ⟨fun i e => ?_, ?_⟩⟩
  · subst e
    have := h.noVars i
    simp only [hasVar, List.any_eq_false] at this
    exact this _ ha (by simp)
  · exact h.sortFree a ha

/-- A pair of terms that was found in a tree, at a true literal. -/
theorem pair_found_true (L : Lawful K M) (hN : NoEmpty K M) {p : Pdt.Tree Pdt.Entry}
    {H : List (Term × Term × Pdt.Entry × LCtx)} (hp : PairTree p H) (hfit : ∀ e ∈ H, Fits e.1 ∧ Fits e.2.1)
    {q : Literal} (hl : Fits q.left) (hr : Fits q.right) {Γ : LCtx} (hv : ValueVars K Γ) (hq : Neat K Γ q) {fuel : Nat}
    {v : Pdt.Entry} {rs : List Term} (hfind : p.findPair K fuel q.left q.right Γ = some (some (v, rs))) :
    ∃ a b P, (a, b, v, P) ∈ H ∧ ∀ positive, PlainClause K ⟨[⟨positive, a, b⟩], P⟩ → ClauseTrue M ⟨[⟨positive, a, b⟩], P⟩ →
      ∀ ρ β, Models M Γ ρ → LitHolds M ρ β ⟨positive, q.left, q.right⟩ := by
  obtain ⟨⟨S, hS, hts, htt⟩, -, -⟩ := hq
  have hΓ := ctxOk_of hv.ordered hv.closed
  obtain ⟨id, Γ', P, hh, hP, hv1, hver⟩ := Pdt.first_sound (by simp [hl, hr]) hfind
  obtain ⟨h1, h2, a, b, v', P', rfl, hlast, hv', hP', hw⟩ := hh.pair hp hfit
  rw [hv1] at hv'; cases hv'
  rw [hP] at hP'; cases hP'
  obtain ⟨_, hi, hnum, hb⟩ := hw.spec
  simp only [List.map_cons, List.map_nil, List.cons.injEq, and_true] at hi
  have typed : ∀ i r T, rs[i]? = some r → P.get i = some T → PlainType T → SHasType K Γ r T := by
    intro i r T hr hT hpl
    refine Pdt.verify_typed hΓ hb (hw.part (Δ := Γ) ?_ (by simp)) hver hr hT hpl
    intro u hu
    simp only [List.mem_cons, List.not_mem_nil, or_false] at hu
    rcases hu with rfl | rfl
    · exact ⟨BCtx.nil, _, 0, fun _ => rfl, hts, (HasType.fscoped hΓ hts.typed).1⟩
    · exact ⟨BCtx.nil, _, 0, fun _ => rfl, htt, (HasType.fscoped hΓ htt.typed).1⟩
  obtain ⟨_, hall, hlt⟩ := Pdt.numbered_all _ _ _ hnum
  simp only [List.flatMap_cons, List.flatMap_nil, List.append_nil, List.mem_append] at hall hlt
  refine ⟨a, b, P, by simp, fun positive hpl htr ρ β hρ => ?_⟩
  obtain ⟨⟨S', hS', ha', hb'⟩, -, -⟩ := hpl.neat (l := ⟨positive, a, b⟩) (List.mem_singleton_self _)
  have hPok := ctxOk_of hpl.vars.ordered hpl.vars.closed
  have inP : ∀ i, i ∈ a.fvars ∨ i ∈ b.fvars → ∃ T, P.get i = some T := by
    intro i hi
    rcases hi with hi | hi
    · exact Option.isSome_iff_exists.1 ((HasType.fscoped hPok ha'.typed).1 i (mem_fvars.1 hi))
    · exact Option.isSome_iff_exists.1 ((HasType.fscoped hPok hb'.typed).1 i (mem_fvars.1 hi))
  have small : ∀ i T, P.get i = some T → Small K T := fun i T hT => hpl.vars i T hT
  have pt : ∀ i T, P.get i = some T → PlainType T := fun i T hT => small_plainType (small i T hT)
  have tyr : ∀ i r, rs[i]? = some r → ∃ T, P.get i = some T ∧ SHasType K Γ r T := by
    intro i r hr
    have hi := (List.getElem?_eq_some_iff.1 hr).1
    obtain ⟨T, hT⟩ := inP i (hall i (Nat.zero_le _) hi)
    exact ⟨T, hT, typed i r T hr hT (pt i T hT)⟩
  have hmc : MapClosed (rs.map some) := by
    intro i r hr
    simp only [VMap.get, List.getElem?_map] at hr
    cases e : rs[i]? with
    | none => rw [e] at hr; cases hr
    | some r' =>
      rw [e] at hr
      cases hr
      obtain ⟨T, hT, ht⟩ := tyr i r e
      exact (HasType.closed ht.typed).1
  have ex : ∃ σ : Nat → M.D, ∀ i, (∀ r, rs[i]? = some r → ∀ β, σ i = eval M ρ β r) ∧
      (rs[i]? = none → ∀ T, P.get i = some T → ∀ τ β, M.mem (σ i) (eval M τ β T)) := by
    have ex : ∀ i, ∃ d : M.D, (∀ r, rs[i]? = some r → ∀ β, d = eval M ρ β r) ∧
        (rs[i]? = none → ∀ T, P.get i = some T → ∀ τ β, M.mem d (eval M τ β T)) := by
      intro i
      cases e : rs[i]? with
      | some r =>
        refine ⟨eval M ρ ρ r, fun t' e' β => ?_, fun h => by cases h⟩
        cases e'
        obtain ⟨T, hT, ht⟩ := tyr i r e
        exact eval_closed M ρ ρ β r (HasType.closed ht.typed).1
      | none =>
        cases eΓ : P.get i with
        | none => exact ⟨ρ 0, fun t h => (by cases h), fun _ T h => (by cases h)⟩
        | some T =>
          obtain ⟨d, hd⟩ := hN T (small i T eΓ)
          exact ⟨d, fun t h => (by cases h), fun _ T' h => (by cases h; exact hd)⟩
    exact ⟨fun i => Classical.choose (ex i), fun i => Classical.choose_spec (ex i)⟩
  obtain ⟨σ, hσ⟩ := ex
  have hmod : Models M P σ := by
    intro i T hT γ
    cases e : rs[i]? with
    | none => exact (hσ i).2 e T hT σ γ
    | some r =>
      obtain ⟨T', hT', ht⟩ := tyr i r e
      rw [hT] at hT'; cases hT'
      rw [(hσ i).1 r e γ, eval_fvars M T σ ρ γ fun j hj => by
        rw [(small i T hT).noVars j] at hj; cases hj]
      exact HasType.mem L hρ ht.typed γ
  have val : ∀ t, (∀ i, t.hasVar i = true → i < rs.length) → eval M ρ β (instantiate rs t) = eval M σ β t := by
    intro t ht
    rw [← apply_some, eval_apply hmc]
    refine eval_fvars M t _ _ β fun i hi => ?_
    have hlt := ht i hi
    simp only [Through, VMap.get, List.getElem?_map, List.getElem?_eq_getElem hlt, Option.map_some, Option.join_some]
    exact ((hσ i).1 _ (List.getElem?_eq_getElem hlt) β).symm
  obtain ⟨x, hx, hh⟩ := htr σ hmod β
  rw [List.mem_singleton] at hx
  subst hx
  have v1 := val a fun i hi => hlt i (.inl (mem_fvars.2 hi))
  have v2 := val b fun i hi => hlt i (.inr (mem_fvars.2 hi))
  rw [hi.1] at v1
  rw [hi.2] at v2
  simp only [LitHolds] at hh ⊢
  rw [v1, v2]
  exact hh

theorem literalPairs_true (hN : NoEmpty K M) {l : Literal} {id : Nat} {P : LCtx} {x : Term × Term × Pdt.Entry × LCtx}
    (hx : x ∈ Pdt.literalPairs l id P) : x.2.2.1.sign = l.positive ∧ x.2.2.1.id = id ∧
      (PlainClause K ⟨[l], P⟩ → ClauseTrue M ⟨[l], P⟩ →
        PlainClause K ⟨[⟨l.positive, x.1, x.2.1⟩], x.2.2.2⟩ ∧ ClauseTrue M ⟨[⟨l.positive, x.1, x.2.1⟩], x.2.2.2⟩) := by
  simp only [Pdt.literalPairs, List.mem_cons] at hx
  rcases hx with rfl | hx
  · refine ⟨rfl, rfl, fun hp ht => ?_⟩
    have := Passive.good_forward hp ht
    exact ⟨this.plain, this.truth⟩
  · split at hx
    · rename_i r a P' ids hs hn
      rw [List.mem_singleton] at hx
      subst hx
      refine ⟨rfl, rfl, fun hp ht => ?_⟩
      have := Passive.good_reversed hN hp ht hn
      exact ⟨this.plain, this.truth⟩
    · cases hx

/-- What the set of literals says about a literal is so, when the literal that it found is true. -/
theorem evaluate_sound (L : Lawful E.K M) (hN : NoEmpty E.K M) {a : ActiveSet R} {h : List (Literal × Nat × LCtx)}
    (hp : LiteralTree a.literals h) (hfit : ∀ e ∈ h, Stored e.1 e.2.2) {q : Literal} {Γ : LCtx}
    (hv : ValueVars E.K Γ) (hq : Neat E.K Γ q) {value : Bool} {by_ : Option Nat}
    (e : evaluate E a q Γ = some (some (value, by_))) :
    (by_ = none ∧ ∀ ρ β, LitHolds M ρ β q ↔ value = true) ∨
      ∃ l id P, by_ = some id ∧ (l, id, P) ∈ h ∧ (PlainClause E.K ⟨[l], P⟩ → ClauseTrue M ⟨[l], P⟩ →
        ∀ ρ β, Models M Γ ρ → (LitHolds M ρ β q ↔ value = true)) := by
  rw [evaluate] at e
  split at e
  · rename_i heq
    cases e
    refine .inl ⟨rfl, fun ρ β => ?_⟩
    simp only [LitHolds, heq]
    cases q.positive <;> simp
  · split at e
    · cases e
    · rename_i hf
      simp only [Option.map_eq_some_iff] at e
      obtain ⟨o, ho, x, rfl, e⟩ := e
      obtain ⟨same, id, flipped, m⟩ := x
      simp only [Prod.mk.injEq] at e
      obtain ⟨rfl, rfl⟩ := e
      simp only [Pdt.findWithMap] at ho
      split at ho
      · cases ho
      · cases ho
      · rename_i v rs hpair
        simp only [Option.some.injEq, Option.map_eq_some_iff, Prod.mk.injEq] at ho
        obtain ⟨m', hm, rfl, rfl, rfl, rfl⟩ := ho
        rw [Bool.not_eq_true, Bool.not_eq_false', fitsLit, Bool.and_eq_true] at hf
        obtain ⟨a, b, P, hmem, key⟩ := pair_found_true L hN hp.pairs (fun e he => by
          obtain ⟨x, hx, he⟩ := List.mem_flatMap.1 he
          exact stored_pairs (hfit x hx) e he) (fits_of_all hf.1) (fits_of_all hf.2) hv hq hpair
        obtain ⟨⟨l, id, P0⟩, hx, he⟩ := List.mem_flatMap.1 hmem
        obtain ⟨s1, s2, s3⟩ := literalPairs_true (M := M) hN he
        dsimp only at s1 s2 s3
        subst s2
        refine .inr ⟨l, _, P0, rfl, hx, fun hpl ht ρ β hρ => ?_⟩
        obtain ⟨k1, k2⟩ := s3 hpl ht
        have := key l.positive k1 k2 ρ β hρ
        rw [s1, decide_eq_true_eq]
        simp only [LitHolds] at this ⊢
        cases hl : l.positive <;> cases hqp : q.positive <;> simp_all

end Active
end Acorn
