/-
A claim with arguments follows from the claim without them.
-/
import Verif.Spec.TraceChecker
import Verif.Lemmas.CheckerSound
namespace Acorn
open Spec Term

universe u

variable {K : KCtx} {Γ : LCtx} {M : Interp.{u}}

/-! ### Renumbering without reordering -/

theorem compactLits_norm : ∀ {ls ls' : List Literal} {ids ids' : List Nat},
    compactLits Γ ids ls = some (ls', ids') →
    litsNormVars Γ ids ls = some (ls'.map fun l => Literal.new l.positive l.left l.right, ids') := by
  intro ls
  induction ls with
  | nil => intro ls' ids ids' e; cases e; rfl
  | cons l ls ih =>
    intro ls' ids ids' e
    simp only [compactLits, Option.bind_eq_bind, Option.bind_eq_some_iff, Prod.exists] at e
    obtain ⟨a, ids1, e1, b, ids2, e2, ls2, ids3, e3, e⟩ := e
    cases e
    simp [litsNormVars, Literal.normVars, e1, e2, ih e3]

theorem renewed_compact (hN : NoEmpty K M) {c d : Clause} (h : PlainClause K c) (e : c.compact = some d) :
    Renewed K M c d := by
  simp only [Clause.compact, Option.bind_eq_bind, Option.bind_eq_some_iff, Prod.exists] at e
  obtain ⟨ls, ids, e1, Γ', e2, e⟩ := e
  cases e
  obtain ⟨p, k, t⟩ := renewed_rename hN h List.nodup_nil (compactLits_norm e1) e2
  refine ⟨plainClause_iff.2 ⟨p.vars, fun l hl => neat_new.1 (p.neat (List.mem_map.2 ⟨l, hl, rfl⟩))⟩,
    fun hc l hl => ?_, Iff.trans ?_ t⟩
  · have := k hc _ (List.mem_map.2 ⟨l, hl, rfl⟩)
    obtain ⟨h1, h2⟩ := this
    simp only [Literal.new, Literal.newWithFlip] at h1 h2
    split at h1
    · rename_i hh
      rw [if_pos hh] at h2
      exact ⟨h2, h1⟩
    · rename_i hh
      rw [if_neg hh] at h2
      exact ⟨h1, h2⟩
  · refine forall_congr' fun ρ => forall_congr' fun hρ => forall_congr' fun β => ?_
    simp only [LitsHold, List.mem_map]
    constructor
    · rintro ⟨l, hl, hh⟩; exact ⟨_, ⟨l, hl, rfl⟩, (litHolds_new _ _ _).2 hh⟩
    · rintro ⟨_, ⟨l, hl, rfl⟩, hh⟩; exact ⟨l, hl, (litHolds_new _ _ _).1 hh⟩

/-! ### Instance attributes -/

theorem canonSpine_sortFree {A : Aliases} (hA : ∀ m l targs s, A.lookup m l targs = some s → isKindSym s = false)
    {t : Term} : ∀ {args : List Term}, SortFree t → (∀ a ∈ args, SortFree a) → SortFree (A.canonSpine t args) := by
  induction t with
  | atom h =>
    intro args ht ha
    simp only [Aliases.canonSpine]
    split
    · exact ht
    · cases e : A.call h args with
      | none => exact SortFree.apply ht ha
      | some r =>
        obtain ⟨m, l, n, s, rfl, hn, hle, hs, rfl⟩ := call_some e
        exact SortFree.apply (.sym (hA _ _ _ _ hs)) fun a h => ha a (List.mem_of_mem_drop h)
  | app f a ihf iha =>
    intro args ht ha
    simp only [Aliases.canonSpine]
    refine ihf (SortFree.app.1 ht).1 fun x hx => ?_
    rcases List.mem_cons.1 hx with rfl | hx
    · exact iha (SortFree.app.1 ht).2 (by simp)
    · exact ha x hx
  | bind b A' B ihA ihB =>
    intro args ht ha
    simp only [Aliases.canonSpine]
    exact SortFree.apply (SortFree.bind.2 ⟨ihA (SortFree.bind.1 ht).1 (by simp), ihB (SortFree.bind.1 ht).2 (by simp)⟩) ha

theorem apply_sortFree {m : VMap} (hm : ∀ i t, m.get i = some t → SortFree t) {t : Term} (h : SortFree t) :
    SortFree (m.apply t) := by
  induction t with
  | atom a =>
    cases a with
    | fvar i =>
      simp only [VMap.apply]
      cases e : m.get i with
      | none => exact h
      | some u => exact hm i u e
    | bvar i => exact h
    | sym s => exact h
  | app f a ihf iha => exact SortFree.app.2 ⟨ihf (SortFree.app.1 h).1, iha (SortFree.app.1 h).2⟩
  | bind b A B ihA ihB => exact SortFree.bind.2 ⟨ihA (SortFree.bind.1 h).1, ihB (SortFree.bind.1 h).2⟩

/-! ### Specialization of plain clauses -/

/-- The context of a specialized claim. -/
theorem specClause_ctx {A : Aliases} {c : Claim} (h : ClaimOk K c) {d : Clause}
    (e : c.map.specClause A c.clause = some d) :
    d.lits = c.clause.lits.map (c.map.specLiteral A) ∧ (∀ i T, d.ctx.get i = some T → c.clause.ctx.get i = some T) ∧
    ∀ i T, c.clause.ctx.get i = some T →
      match c.map.get i with
      | some u => SHasType K d.ctx u T
      | none => d.ctx.get i = some T := by
  obtain ⟨out, eo, e⟩ := Option.bind_eq_some_iff.1 e
  cases e
  have ap : ∀ i T, c.clause.ctx.get i = some T → c.map.apply T = T := fun i T hi =>
    NoVars.apply (Small.noVars (h.clause.plain.vars i T hi)) _
  have hout := foldlM_set c.map.outVars [] out eo
  have hget : ∀ i, out.get i = if i ∈ c.map.outVars then c.clause.ctx.get i else none := by
    intro i
    rw [hout i]
    split
    · cases ei : c.clause.ctx.get i with
      | none => rfl
      | some T => simp [ap i T ei]
    · simp [LCtx.get]
  refine ⟨rfl, fun i T hi => ?_, fun i T hi => ?_⟩
  · rw [keepUnmapped_get] at hi
    split at hi
    · exact hi
    · rw [hget] at hi
      split at hi
      · exact hi
      · cases hi
  · cases em : c.map.get i with
    | none =>
      show (c.map.keepUnmapped c.clause.ctx out).get i = some T
      rw [keepUnmapped_get, if_pos ⟨em, by rw [hi]; rfl⟩, hi]
    | some u =>
      obtain ⟨_, T', hT', hu⟩ := h.map i u em
      rw [hi] at hT'
      cases hT'
      refine hu.ctx_congr fun j hj => ?_
      rw [keepUnmapped_get]
      split
      · rfl
      · rw [hget, if_pos (mem_outVars em hj)]

theorem Spec.ClaimOk.mapClosed {c : Claim} (h : ClaimOk K c) : MapClosed c.map := fun i t hi => by
  obtain ⟨_, T, _, ht⟩ := h.map i t hi
  exact (HasType.closed ht.typed).1

/-- A specialized claim is plain, and follows from the claim; without arguments it is the claim. -/
theorem specClause_plain (L : Lawful K M) {A : Aliases} (hA : AliasesHold M A) (hT : AliasesOk K A) {c : Claim}
    (h : ClaimOk K c) {d : Clause} (e : c.map.specClause A c.clause = some d) :
    PlainClause K d ∧ (ClauseTrue M c.clause → ClauseTrue M d) ∧
      (c.map = [] → ClauseTrue M d → ClauseTrue M c.clause) := by
  obtain ⟨hl, hd, hc⟩ := specClause_ctx h e
  have hm := h.mapClosed
  have hmt : MapTyped K c.map c.clause.ctx d.ctx := by
    intro i T hi
    have := hc i T hi
    have ap : c.map.apply T = T := NoVars.apply (Small.noVars (h.clause.plain.vars i T hi)) _
    rw [ap]
    exact this
  refine ⟨plainClause_iff.2 ⟨fun i T hi => h.clause.plain.vars i T (hd i T hi), fun l hl' => ?_⟩, fun ht ρ hρ β => ?_,
    fun h0 ht ρ hρ β => ?_⟩
  · rw [hl, List.mem_map] at hl'
    obtain ⟨l0, h0, rfl⟩ := hl'
    obtain ⟨⟨T, hT', h1, h2⟩, s1, s2⟩ := h.clause.plain.neat h0
    have tp : ∀ {t : Term}, SHasType K c.clause.ctx t T → SHasType K d.ctx (A.canon (c.map.apply t)) T := fun ht =>
      canon_typed L hA hT.typed
        (mono_apply (m := c.map) (Γ' := d.ctx) h.clause.plain.vars ht (by intro i T h; cases h) fun i U _ hi => hc i U hi)
    have sf : ∀ {t : Term}, SortFree t → SortFree (A.canon (c.map.apply t)) := fun hs =>
      canonSpine_sortFree hT.const (apply_sortFree (fun i t hi => (h.map i t hi).1) hs) (by simp)
    exact neat_new.2 ⟨⟨T, hT', tp h1, tp h2⟩, sf s1, sf s2⟩
  · rw [hl, specLits_hold hA hm]
    exact ht _ (through_models L hm hmt hρ β) β
  · have hth : Through M c.map ρ β = ρ := by
      funext i; simp [Through, h0, VMap.get]
    have hρ' : Models M d.ctx ρ := fun i T hi γ => hρ i T (hd i T hi) γ
    have := ht ρ hρ' β
    rw [hl, specLits_hold hA hm, hth] at this
    exact this

/-- The clauses of a claim. -/
theorem specialized_known (L : Lawful K M) (hN : NoEmpty K M) {A : Aliases} (hA : AliasesHold M A) (hT : AliasesOk K A)
    {c : Claim} (h : ClaimOk K c) {fuel : Nat} {d : Clause} (e : c.specialized A fuel = .done (some d)) :
    TidyClause K d ∧ (ClauseTrue M c.clause → ClauseTrue M d) ∧
      (c.map = [] → ClauseTrue M d → ClauseTrue M c.clause) := by
  simp only [Claim.specialized] at e
  split at e
  · cases e
  · simp only [Out.bind_done, Out.ofOption_done] at e
    obtain ⟨d1, e1, d2, e2, d3, e3, d4, e4, e⟩ := e
    rw [Out.pure_done] at e
    cases e
    obtain ⟨p, h1, h2⟩ := specClause_plain L hA hT h e1
    have r2 := renewed_compact hN p e2
    obtain ⟨r3, k3⟩ := renewed_subterms L hN r2.plain e3
    have r4 := renewed_new L hN r3.plain e4
    have r := (r2.trans r3).trans r4
    exact ⟨⟨r4.plain, fun l hl => ⟨(r4.crisp k3 l hl).left, (r4.crisp k3 l hl).right⟩⟩, fun ht => r.truth.2 (h1 ht),
      fun h0 ht => h2 h0 (r.truth.1 ht)⟩

end Acorn
