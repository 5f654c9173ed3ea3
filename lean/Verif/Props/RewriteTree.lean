/-
C59: the index of rewrite rules.
-/
import Verif.Lemmas.RewriteTree
import Verif.Spec.DemoSimple
namespace Acorn
open Spec Pdt Term Rewrites

/-! ### Examples -/

namespace Demo59

/-- `add(x0, x1) = x0`, which holds in the demo interpretation. -/
def rule0 : Literal := ⟨true, .app (.app Demo.add (.fvar 0)) (.fvar 1), .fvar 0⟩
/-- `even(zero)`. -/
def rule1 : Literal := ⟨true, .app Demo.even Demo.zero, .tt⟩

def rules : List (Nat × Literal × LCtx) := [(7, rule0, [some Demo.nat, some Demo.nat]), (8, rule1, [])]

def tree : Rewrites.Tree :=
  (insertLiteral ((insertLiteral .empty 7 rule0 [some Demo.nat, some Demo.nat]).get (by decide +kernel)) 8 rule1
    []).get (by decide +kernel)

theorem ruleTree : RuleTree tree rules := .insert (.insert .empty (Option.some_get _).symm) (Option.some_get _).symm

/-- `suc(x0)`. -/
def query : Term := .app Demo.suc (.fvar 0)

/-- What `suc(x0)` is rewritten to: `add(suc(x0), x3)` with a fresh variable. -/
theorem found : getRewrites Demo.K 9 tree query 3 [some Demo.nat] =
    some [⟨7, false, .app (.app Demo.add query) (.fvar 3), [some Demo.nat, none, none, some Demo.nat]⟩] := by
  with_unfolding_all rfl

theorem fits : ∀ e ∈ rules, Fits e.2.1.left ∧ Fits e.2.1.right := by
  intro e he
  simp only [rules, List.mem_cons, List.not_mem_nil, or_false] at he
  rcases he with rfl | rfl <;> constructor <;> intro a ha <;>
    simp [rule0, rule1, Term.atoms, Term.sym, Term.fvar, Term.tt] at ha <;>
    rcases ha with rfl | rfl | rfl <;> simp [AtomFits, SymbolFits]

theorem plainNat : PlainType Demo.nat := by
  refine ⟨rfl, fun a ha => ?_⟩
  rw [show a = .sym (.type 0 0) from List.mem_singleton.1 ha]
  exact ⟨(fun i h => by cases h), (fun h => by cases h), fun m l h => by cases h⟩

theorem onlyNat : ∀ e ∈ rules, ∀ i T, e.2.2.get i = some T → T = Demo.nat := by
  intro e he i T hT
  simp only [rules, List.mem_cons, List.not_mem_nil, or_false] at he
  rcases he with rfl | rfl
  · match i, hT with
    | 0, hT => cases hT; rfl
    | 1, hT => cases hT; rfl
  · simp [LCtx.get] at hT

theorem plain : ∀ e ∈ rules, PlainVars e.2.2 := by
  intro e he i T hT
  rw [onlyNat e he i T hT]; exact plainNat

theorem ctxNat : CtxOk [some Demo.nat] := by
  intro i T h
  match i, h with
  | 0, h => cases h; exact ⟨rfl, fun i hi => by simp [Term.hasVar, Term.atoms, Term.sym] at hi⟩

theorem queryFits : Fits query := by
  intro a ha
  simp [query, Term.atoms, Term.sym, Term.fvar] at ha
  rcases ha with rfl | rfl <;> simp [AtomFits, SymbolFits]

theorem queryTyped : SHasType Demo.K [some Demo.nat] query Demo.nat :=
  Demo.s_suc (.fvar rfl rfl)

theorem var0 {i : Nat} (h : (Term.fvar 0).hasVar i = true) : i = 0 := by
  have := mem_fvars.2 h
  exact List.mem_singleton.1 this

theorem rulesTrue : ∀ e ∈ rules, ClauseTrue Demo.M ⟨[⟨true, e.2.1.left, e.2.1.right⟩], e.2.2⟩ := by
  intro e he ρ hρ β
  refine ⟨_, List.mem_singleton.2 rfl, ?_⟩
  simp only [rules, List.mem_cons, List.not_mem_nil, or_false] at he
  rcases he with rfl | rfl
  · have h0 : ρ 0 ∈ ZFSet.omega := hρ 0 Demo.nat rfl β
    have h1 : ρ 1 ∈ ZFSet.omega := hρ 1 Demo.nat rfl β
    show SetModel.app (SetModel.app (SetModel.lam ZFSet.omega fun n => SetModel.lam ZFSet.omega fun _ => n) (ρ 0)) (ρ 1) = ρ 0
    rw [SetModel.app_lam h0]
    exact SetModel.app_lam h1
  · show SetModel.app (SetModel.lam ZFSet.omega fun n => SetModel.ofProp (n = ∅)) (∅ : ZFSet) = SetModel.tt
    rw [SetModel.app_lam ZFSet.omega_zero, SetModel.ofProp_tt]

end Demo59

/-! ### Theorems -/

variable {K : KCtx} {fuel : Nat} {p : Rewrites.Tree} {h : List (Nat × Literal × LCtx)}

/-- Everything that a lookup returns is an application of an inserted rule: some terms for the variables turn
one side of the rule into the queried term and the other side into the result.  The constant `true` is never
rewritten. -/
theorem C59_sound (hp : RuleTree p h) (hfit : ∀ e ∈ h, Fits e.2.1.left ∧ Fits e.2.1.right) {t : Term} (ht : Fits t)
    {next : Nat} {Γ : LCtx} {out : List Rewrite} (e : getRewrites K fuel p t next Γ = some out) {r : Rewrite}
    (hr : r ∈ out) : ∃ (l : Literal) (P : LCtx) (σ : Nat → Term), (r.id, l, P) ∈ h ∧
      (r.forwards = false → l.right.isTrue = false) ∧ fill σ (ruleFrom l r.forwards) = t ∧
      fill σ (ruleTo l r.forwards) = r.term := by
  obtain ⟨l, P, x, g, rs, Γ', he, hg, hd, hw, _, happ⟩ := rewrite_spec hp hfit ht e hr
  obtain ⟨_, _, τ, h1, h2⟩ := applyValue_sound happ
  refine ⟨l, P, fun i => τ (g i), he, fun hf => hg.back (by rw [hd]; exact hf), ?_, ?_⟩
  · rw [← hd, ← fill_vmap, ← hg.source, walk_fill hw h1]
  · rw [← hd, ← fill_vmap, ← hg.output, h2]

/-- The terms put for the variables: those of the rewritten side get terms of their types; the others become
different fresh variables, and the returned context records their types.  Nothing else changes below the number
from which on the variables are fresh.  Missing: rules with type variables. -/
theorem C59_typed_partial (hp : RuleTree p h) (hfit : ∀ e ∈ h, Fits e.2.1.left ∧ Fits e.2.1.right)
    (hpl : ∀ e ∈ h, PlainVars e.2.2) {t T0 : Term} (ht : Fits t) {next : Nat} {Γ : LCtx} (hΓ : CtxOk Γ)
    (hty : SHasType K Γ t T0) {out : List Rewrite} (e : getRewrites K fuel p t next Γ = some out) {r : Rewrite}
    (hr : r ∈ out) : ∃ (l : Literal) (P : LCtx) (σ : Nat → Term), (r.id, l, P) ∈ h ∧
      fill σ (ruleFrom l r.forwards) = t ∧ fill σ (ruleTo l r.forwards) = r.term ∧
      (∀ i T, (ruleFrom l r.forwards).hasVar i = true → P.get i = some T → SHasType K Γ (σ i) T) ∧
      (∀ i, (ruleFrom l r.forwards).hasVar i = false → (ruleTo l r.forwards).hasVar i = true →
        ∃ j, σ i = .fvar j ∧ next ≤ j ∧ ∀ T, P.get i = some T → r.ctx.get j = some T) ∧
      (∀ i i', (ruleFrom l r.forwards).hasVar i = false → (ruleTo l r.forwards).hasVar i = true →
        (ruleFrom l r.forwards).hasVar i' = false → (ruleTo l r.forwards).hasVar i' = true → σ i = σ i' → i = i') ∧
      (∀ j, j < next → r.ctx.get j = Γ.get j) ∧ (PlainVars Γ → PlainVars r.ctx) ∧
      ∀ i, (ruleFrom l r.forwards).hasVar i = true → (σ i).escapes = false := by
  obtain ⟨l, P, x, g, rs, Γ', he, hg, hd, hw, hesc, happ⟩ := rewrite_spec hp hfit ht e hr
  have hP := hpl _ he
  have hpx : PlainVars x.2.1.ctx := by
    intro k T hk
    rw [hg.ctx] at hk
    obtain ⟨i, hi⟩ := hg.plain hP k T hk
    exact hP i T hi
  have hpart : ∀ s ∈ rs, Part K Γ s := hw.part (by
    intro s hs
    rw [List.mem_singleton.1 hs]
    exact ⟨BCtx.nil, _, 0, fun _ => rfl, hty, (HasType.fscoped hΓ hty.typed).1⟩) (by simp)
  obtain ⟨o, ho, hA, _⟩ := applyValue_plain (K := K) (Γ := Γ) (next := next) hpx hesc (by
    intro j s hs
    have hm := List.mem_of_getElem? hs
    obtain ⟨_, S, _, h2, _⟩ := (hpart s hm).getType hΓ (.refl _) (hesc s hm)
    exact ⟨S, h2⟩)
  rw [happ] at ho
  cases ho
  obtain ⟨τ, A⟩ := hA r rfl
  have hvars : ∀ i, (l.left.hasVar i = true ∨ l.right.hasVar i = true) ↔
      ((ruleFrom l x.2.1.forwards).hasVar i = true ∨ (ruleTo l x.2.1.forwards).hasVar i = true) := by
    intro i
    cases x.2.1.forwards
    · exact or_comm
    · rfl
  have hout : ∀ i, (ruleFrom l x.2.1.forwards).hasVar i = false → (ruleTo l x.2.1.forwards).hasVar i = true →
      rs.length ≤ g i ∧ x.2.1.output.hasVar (g i) = true := by
    intro i h1 h2
    refine ⟨?_, by rw [hg.output]; exact hasVar_vmap_of h2⟩
    refine Nat.le_of_not_lt fun hlt => ?_
    have := (walk_vars hw _).2 hlt
    rw [hg.source] at this
    obtain ⟨j, h3, h4⟩ := hasVar_vmap_iff.1 this
    have := hg.apart j i ((hvars j).2 (.inl h3)) ((hvars i).2 (.inr h2)) h4
    subst this
    rw [h1] at h3; cases h3
  rw [← hd]
  refine ⟨l, P, fun i => τ (g i), he, ?_, ?_, ?_, ?_, ?_, A.old, ?_, ?_⟩
  · rw [← fill_vmap, ← hg.source, walk_fill hw A.bound]
  · rw [← fill_vmap, ← hg.output, A.term]
  · intro i T hi hT
    have hv := (hvars i).2 (.inl hi)
    have hlt := (walk_vars hw (g i)).1 (by rw [hg.source]; exact hasVar_vmap_of hi)
    have hrs := List.getElem?_eq_getElem hlt
    have hc := hg.types i T hv hT (hP i T hT)
    have hS := A.typed (g i) _ T hrs (by rw [hg.ctx]; exact hc)
    have hm := List.mem_of_getElem? hrs
    obtain ⟨J, S, h1, h2, h3⟩ := (hpart _ hm).getType hΓ (.refl _) (hesc _ hm)
    rw [hS] at h2; cases h2
    have hJ := h3 (plain_atoms (hP i T hT)).2.2.2
    subst hJ
    show SHasType K Γ (τ (g i)) T
    rw [A.bound _ _ hrs]; exact h1
  · intro i h1 h2
    obtain ⟨q1, q2⟩ := hout i h1 h2
    obtain ⟨j, j1, j2, j3⟩ := A.fresh (g i) q1 q2
    refine ⟨j, j1, j2, fun T hT => j3 T ?_⟩
    rw [hg.ctx]
    exact hg.types i T ((hvars i).2 (.inr h2)) hT (hP i T hT)
  · intro i i' h1 h2 h3 h4 heq
    obtain ⟨q1, q2⟩ := hout i h1 h2
    obtain ⟨q3, q4⟩ := hout i' h3 h4
    exact hg.apart i i' ((hvars i).2 (.inr h2)) ((hvars i').2 (.inr h4)) (A.apart _ _ q1 q3 q2 q4 heq)
  · intro hpΓ j T hj
    rcases A.new j T hj with hj | ⟨i, hi⟩
    · exact hpΓ j T hj
    · exact hpx i T hi
  · intro i hi
    have hlt := (walk_vars hw (g i)).1 (by rw [hg.source]; exact hasVar_vmap_of hi)
    have hrs := List.getElem?_eq_getElem hlt
    show (τ (g i)).escapes = false
    rw [A.bound _ _ hrs]
    exact hesc _ (List.mem_of_getElem? hrs)

universe u

/-- Rewriting keeps the meaning: where the inserted rules are true, each result equals the queried term, for all
values of the variables.  Missing: rules with type variables. -/
theorem C59_meaning_partial {M : Interp.{u}} (L : Lawful K M) (hp : RuleTree p h)
    (hfit : ∀ e ∈ h, Fits e.2.1.left ∧ Fits e.2.1.right) (hpl : ∀ e ∈ h, PlainVars e.2.2)
    (htrue : ∀ e ∈ h, ClauseTrue M ⟨[⟨true, e.2.1.left, e.2.1.right⟩], e.2.2⟩)
    (hused : ∀ e ∈ h, ∀ i T, e.2.2.get i = some T → e.2.1.left.hasVar i = true ∨ e.2.1.right.hasVar i = true)
    {t T0 : Term} (ht : Fits t) {next : Nat} {Γ : LCtx} (hΓ : CtxOk Γ) (hnext : Γ.length ≤ next)
    (hty : SHasType K Γ t T0) {out : List Rewrite} (e : getRewrites K fuel p t next Γ = some out) {r : Rewrite}
    (hr : r ∈ out) : ClauseTrue M ⟨[⟨true, t, r.term⟩], r.ctx⟩ := by
  obtain ⟨l, P, σ, he, h1, h2, h3, h4, _, h5, _, h6⟩ := C59_typed_partial hp hfit hpl ht hΓ hty e hr
  have hP := hpl _ he
  intro ρ hρ β
  refine ⟨_, List.mem_singleton.2 rfl, ?_⟩
  show eval M ρ β t = eval M ρ β r.term
  generalize hd : r.forwards = d at h1 h2 h3 h4 h6
  -- outside the rule the terms do not matter
  obtain ⟨σ', s1, s2⟩ : ∃ σ' : Nat → Term, (∀ i, (ruleFrom l d).hasVar i = true ∨ (ruleTo l d).hasVar i = true →
      σ' i = σ i) ∧ ∀ i, (σ' i).escapes = false := by
    refine ⟨fun i => if (ruleFrom l d).hasVar i || (ruleTo l d).hasVar i then σ i else .fvar i,
      fun i hi => by simp [hi], fun i => ?_⟩
    dsimp only
    split
    · rename_i hi
      cases hs : (ruleFrom l d).hasVar i with
      | true => exact h6 i hs
      | false =>
        rw [hs, Bool.false_or] at hi
        obtain ⟨j, hj, _⟩ := h4 i hs hi
        rw [hj]; rfl
    · rfl
  have e1 : fill σ' (ruleFrom l d) = t := by rw [← h1]; exact fill_congr _ fun i hi => s1 i (.inl hi)
  have e2 : fill σ' (ruleTo l d) = r.term := by rw [← h2]; exact fill_congr _ fun i hi => s1 i (.inr hi)
  have ev : ∀ s, eval M ρ β (fill σ' s) = eval M (fun i => eval M ρ β (σ' i)) β s := by
    intro s
    rw [fill_sub s2, eval_sub]
    rfl
  have hm : Models M P (fun i => eval M ρ β (σ' i)) := by
    intro i T hT β'
    rw [eval_closed M _ β' β T (hP i T hT).1, ← ev T, fill_closed_plain (hP i T hT)]
    have hv : (ruleFrom l d).hasVar i = true ∨ (ruleTo l d).hasVar i = true := by
      have := hused _ he i T hT
      cases d
      · exact this.symm
      · exact this
    dsimp only
    rw [s1 i hv]
    cases hs : (ruleFrom l d).hasVar i with
    | true =>
      refine STyped.val_mem L hρ (STyped.weaken (h3 i T hs hT) fun j U hj => ?_) (Δ := BCtx.nil) ?_
      · rw [h5 j (Nat.lt_of_lt_of_le (get_lt hj) hnext)]; exact hj
      · intro j U hj; cases hj
    | false =>
      obtain ⟨j, hj, _, hT'⟩ := h4 i hs (hv.resolve_left (by simp [hs]))
      rw [hj]
      exact hρ j T (hT' T hT) β
  obtain ⟨x, hx, hh⟩ := htrue _ he _ hm β
  rw [List.mem_singleton.1 hx] at hh
  have hh : eval M (fun i => eval M ρ β (σ' i)) β l.left = eval M (fun i => eval M ρ β (σ' i)) β l.right := hh
  rw [← e1, ← e2, ev, ev]
  cases d
  · exact hh.symm
  · exact hh

/-- Every rule whose one side can be turned into the queried term, by terms of the right types, is returned.  The
left sides have their variables numbered in the order of occurrence, as the program demands; and patterns
that differ only in names have variables of the same types (see `C59_disagreement_hidden`).  Missing: rules
with type variables, and queries of 500 nodes or more, where the search may stop early. -/
theorem C59_complete_partial (hp : RuleTree p h) (hfit : ∀ e ∈ h, Fits e.2.1.left ∧ Fits e.2.1.right)
    (hpl : ∀ e ∈ h, PlainVars e.2.2) {id : Nat} {l : Literal} {P : LCtx} (he : (id, l, P) ∈ h) {d : Bool}
    (hd : d = false → l.right.isTrue = false) (hnum : d = true → ∃ n, NumberedBy n [l.left])
    (hsame : ∀ e ∈ h, ∀ d', SameTypes (ruleFrom l d) P (ruleFrom e.2.1 d') e.2.2)
    {Γ : LCtx} (hΓ : CtxOk Γ) (hfuel : 0 < fuel) {σ : Nat → Term}
    (hσ : ∀ i, (ruleFrom l d).hasVar i = true → ∃ T, P.get i = some T ∧ SHasType K Γ (σ i) T)
    (ht : Fits (fill σ (ruleFrom l d))) (hsz : (fill σ (ruleFrom l d)).size < 500) {next : Nat}
    {out : List Rewrite} (e : getRewrites K fuel p (fill σ (ruleFrom l d)) next Γ = some out) :
    ∃ r ∈ out, r.id = id ∧ r.forwards = d ∧ ∃ τ : Nat → Term,
      (∀ i, (ruleFrom l d).hasVar i = true → τ i = σ i) ∧ r.term = fill τ (ruleTo l d) := by
  obtain ⟨ht1, ht2⟩ := hp.terms
  have hfit' : ∀ y ∈ h.flatMap fun e => entriesOf e.1 e.2.1 e.2.2, Fits y.1 := by
    intro y hy
    obtain ⟨e, he, hy⟩ := List.mem_flatMap.1 hy
    exact entries_fit (hfit e he).1 (hfit e he).2 hy
  obtain ⟨x, hx, hxd, n, hn⟩ := entry_of (id := id) (P := P) (fun h => ht2 _ he (hd h)) hd hnum
  have hxL : x ∈ h.flatMap fun e => entriesOf e.1 e.2.1 e.2.2 := List.mem_flatMap.2 ⟨_, he, hx⟩
  obtain ⟨g, hg⟩ := entries_stored hx
  have hP := hpl _ he
  have hsrc := hg.source
  have hout := hg.output
  rw [hxd] at hsrc hout
  obtain ⟨_, n2, n3⟩ := numbered_all _ _ _ hn
  simp only [List.flatMap_cons, List.flatMap_nil, List.append_nil, mem_fvars] at n2 n3
  have hside : ∀ i, (ruleFrom l d).hasVar i = true → l.left.hasVar i = true ∨ l.right.hasVar i = true := by
    intro i hi
    cases d
    · exact .inr hi
    · exact .inl hi
  have hside' : ∀ i, (ruleTo l d).hasVar i = true → l.left.hasVar i = true ∨ l.right.hasVar i = true := by
    intro i hi
    cases d
    · exact .inl hi
    · exact .inr hi
  -- the variable of the rule that has a number in the pattern
  have hex : ∀ k, ∃ i, k < n → (ruleFrom l d).hasVar i = true ∧ g i = k := by
    intro k
    by_cases hk : k < n
    · have := n2 k (Nat.zero_le _) hk
      rw [hsrc] at this
      obtain ⟨i, hi⟩ := hasVar_vmap_iff.1 this
      exact ⟨i, fun _ => hi⟩
    · exact ⟨0, fun h => absurd h hk⟩
  obtain ⟨c, hc⟩ := Classical.axiomOfChoice hex
  have hgn : ∀ i, (ruleFrom l d).hasVar i = true → g i < n := fun i hi => n3 _ (by rw [hsrc]; exact hasVar_vmap_of hi)
  have hcg : ∀ i, (ruleFrom l d).hasVar i = true → c (g i) = i := by
    intro i hi
    obtain ⟨c1, c2⟩ := hc (g i) (hgn i hi)
    exact hg.apart _ _ (hside _ c1) (hside _ hi) c2
  have hrs : ∀ (k : Nat) (s : Term), ((List.range n).map fun k => σ (c k))[k]? = some s → k < n ∧ s = σ (c k) := by
    intro k s hs
    have hk : k < n := by have := (List.getElem?_eq_some_iff.1 hs).1; simpa using this
    rw [List.getElem?_map, List.getElem?_range hk] at hs
    exact ⟨hk, by simpa using hs.symm⟩
  have hinst : instantiate ((List.range n).map fun k => σ (c k)) x.1 = fill σ (ruleFrom l d) := by
    rw [fill_instantiate, hsrc, fill_vmap]
    refine fill_congr _ fun i hi => ?_
    simp [List.getD, List.getElem?_range (hgn i hi), hcg i hi]
  obtain ⟨Γ', hw⟩ := Walk.of_instance _ [x.1] [] ((List.range n).map fun k => σ (c k)) Γ (Nat.le_refl _)
    List.nil_prefix (by simpa [NumberedBy] using hn)
  simp only [List.map_cons, List.map_nil, hinst] at hw
  have hty : ∀ (k : Nat) (s : Term), ((List.range n).map fun k => σ (c k))[k]? = some s →
      ∃ T, P.get (c k) = some T ∧ SHasType K Γ s T := by
    intro k s hs
    obtain ⟨hk, rfl⟩ := hrs k s hs
    exact hσ _ (hc k hk).1
  have hver : ∀ x0 ∈ h.flatMap fun e => entriesOf e.1 e.2.1 e.2.2, x0.1 = x.1 →
      verify K fuel x0.2.2 Γ' ((List.range n).map fun k => σ (c k)) = some true := by
    intro x0 hx0 heq
    obtain ⟨⟨id0, l0, P0⟩, he0, hx0⟩ := List.mem_flatMap.1 hx0
    obtain ⟨g0, hg0⟩ := entries_stored hx0
    dsimp only at hg0
    have hside0 : ∀ i, (ruleFrom l0 x0.2.1.forwards).hasVar i = true → l0.left.hasVar i = true ∨ l0.right.hasVar i = true := by
      intro i hi
      cases hf : x0.2.1.forwards
      · rw [hf] at hi; exact .inr hi
      · rw [hf] at hi; exact .inl hi
    refine verify_suits hΓ hw.spec.2.2.2 hfuel fun k s hs => ?_
    obtain ⟨T, hT, hsT⟩ := hty k s hs
    refine ⟨shas_closed hsT, fun U hU => .inl ?_⟩
    obtain ⟨hk, _⟩ := hrs k s hs
    obtain ⟨c1, c2⟩ := hc k hk
    have hkx : x0.1.hasVar k = true := by rw [heq]; exact n2 k (Nat.zero_le _) hk
    rw [hg0.source] at hkx
    obtain ⟨j, j1, j2⟩ := hasVar_vmap_iff.1 hkx
    have hPj := hsame _ he0 x0.2.1.forwards g g0 (fun a b ha hb hab => hg.apart a b (hside a ha) (hside b hb) hab)
      (fun a b ha hb hab => hg0.apart a b (hside0 a ha) (hside0 b hb) hab)
      (by rw [← vmap_renameVars, ← vmap_renameVars, ← hsrc, ← hg0.source, heq]) (c k) j c1 j1 (by rw [c2, j2])
    rw [hT] at hPj
    have hpT := hP _ _ hT
    have := hg0.types j T (hside0 j j1) hPj.symm hpT
    rw [j2, hU] at this
    cases this
    exact ⟨hsT, (plain_atoms hpT).2.2.2⟩
  have hpx : PlainVars x.2.1.ctx := by
    intro k T hk
    rw [hg.ctx] at hk
    obtain ⟨i, hi⟩ := hg.plain hP k T hk
    exact hP i T hi
  have hgt : ∀ (k : Nat) (s : Term), ((List.range n).map fun k => σ (c k))[k]? = some s →
      ∃ T, P.get (c k) = some T ∧ s.getType K Γ = some T := by
    intro k s hs
    obtain ⟨T, hT, hsT⟩ := hty k s hs
    obtain ⟨S, h1, rfl⟩ := getType_of_value hΓ (.refl _) hsT (plain_atoms (hP _ _ hT)).2.2.2
    exact ⟨_, hT, h1⟩
  obtain ⟨o, ho, hA, hne⟩ := applyValue_plain (K := K) (Γ := Γ) (next := next) hpx (rs := (List.range n).map fun k => σ (c k)) (by
    intro s hs
    obtain ⟨k, hk⟩ := List.getElem?_of_mem hs
    obtain ⟨T, _, hsT⟩ := hty k s hk
    exact shas_closed hsT) (by
    intro k s hs
    obtain ⟨T, _, h2⟩ := hgt k s hs
    exact ⟨T, h2⟩)
  have hne := hne (by
    intro k s U hs hU
    obtain ⟨T, hT, h2⟩ := hgt k s hs
    obtain ⟨hk, _⟩ := hrs k s hs
    obtain ⟨c1, c2⟩ := hc k hk
    have := hg.types (c k) T (hside _ c1) hT (hP _ _ hT)
    rw [c2, ← hg.ctx, hU] at this
    cases this
    exact h2)
  cases o with
  | none => exact absurd rfl hne
  | some r =>
    obtain ⟨τ, A⟩ := hA r rfl
    refine ⟨r, getRewrites_complete ht1 hfit' ht hsz e hxL hw hver ho, A.id.trans hg.id, A.forwards.trans hxd,
      fun i => τ (g i), ?_, ?_⟩
    · intro i hi
      have := A.bound (g i) (σ i) (by
        rw [List.getElem?_map, List.getElem?_range (hgn i hi)]
        simp [hcg i hi])
      exact this
    · rw [A.term, hout, fill_vmap]

/-- Lookups do not panic.  Missing: rules with type variables. -/
theorem C59_total_partial (hp : RuleTree p h) (hfit : ∀ e ∈ h, Fits e.2.1.left ∧ Fits e.2.1.right)
    (hpl : ∀ e ∈ h, PlainVars e.2.2) (hsize : ∀ e ∈ h, ∀ i T, e.2.2.get i = some T → T.size ≤ fuel)
    {t T0 : Term} (ht : Fits t) {next : Nat} {Γ : LCtx} (hΓ : CtxOk Γ) (hty : SHasType K Γ t T0) :
    getRewrites K fuel p t next Γ ≠ none := by
  obtain ⟨ht1, _⟩ := hp.terms
  have hpart : ∀ s ∈ [t], Part K Γ s := by
    intro s hs
    rw [List.mem_singleton.1 hs]
    exact ⟨BCtx.nil, _, 0, fun _ => rfl, hty, (HasType.fscoped hΓ hty.typed).1⟩
  have hctx : ∀ x ∈ h.flatMap fun e => entriesOf e.1 e.2.1 e.2.2, x.2.1.ctx = x.2.2 ∧
      ∀ i T, x.2.2.get i = some T → PlainType T ∧ T.size ≤ fuel := by
    intro x hx
    obtain ⟨e, he, hx⟩ := List.mem_flatMap.1 hx
    obtain ⟨g, hg⟩ := entries_stored hx
    refine ⟨hg.ctx, fun i T hi => ?_⟩
    obtain ⟨j, hj⟩ := hg.plain (hpl e he) i T hi
    exact ⟨hpl e he j T hj, hsize e he j T hj⟩
  refine getRewrites_total ht1 (by
    intro y hy
    obtain ⟨e, he, hy⟩ := List.mem_flatMap.1 hy
    exact entries_fit (hfit e he).1 (hfit e he).2 hy) ht ?_ ?_
  · intro x hx Γ' rs hw
    exact verify_total hΓ hw.spec.2.2.2 (hw.part hpart (by simp)) (hctx x hx).2
  · intro x hx Γ' rs hw hesc
    obtain ⟨o, ho, _⟩ := applyValue_plain (K := K) (Γ := Γ) (next := next) (v := x.2.1) (rs := rs) (by
      intro k T hk
      rw [(hctx x hx).1] at hk
      exact ((hctx x hx).2 k T hk).1) hesc (by
      intro j s hs
      have hm := List.mem_of_getElem? hs
      obtain ⟨_, S, _, h2, _⟩ := (hw.part hpart (by simp) s hm).getType hΓ (.refl _) (hesc s hm)
      exact ⟨S, h2⟩)
    rw [ho]; simp

/-! ### Non-vacuity -/

/-- The hypotheses of the theorems hold of the demo index, and the lookup finds a rewrite with a fresh
variable. -/
example : ∃ (l : Literal) (P : LCtx) (σ : Nat → Term), (7, l, P) ∈ Demo59.rules ∧
    fill σ l.right = Demo59.query ∧ fill σ l.left = .app (.app Demo.add Demo59.query) (.fvar 3) := by
  obtain ⟨l, P, σ, h1, _, h2, h3⟩ := C59_sound Demo59.ruleTree Demo59.fits Demo59.queryFits Demo59.found
    List.mem_cons_self
  exact ⟨l, P, σ, h1, h2, h3⟩

example : ClauseTrue Demo.M ⟨[⟨true, Demo59.query, .app (.app Demo.add Demo59.query) (.fvar 3)⟩],
    [some Demo.nat, none, none, some Demo.nat]⟩ :=
  C59_meaning_partial Demo.lawful Demo59.ruleTree Demo59.fits Demo59.plain Demo59.rulesTrue (by
    intro e he i T hT
    simp only [Demo59.rules, List.mem_cons, List.not_mem_nil, or_false] at he
    rcases he with rfl | rfl
    · match i, hT with
      | 0, _ => exact .inl rfl
      | 1, _ => exact .inl rfl
    · simp [LCtx.get] at hT) Demo59.queryFits Demo59.ctxNat (by decide) Demo59.queryTyped Demo59.found
    List.mem_cons_self

/-- Completeness applies from right to left. -/
example : ∃ r ∈ [(⟨7, false, .app (.app Demo.add Demo59.query) (.fvar 3), [some Demo.nat, none, none, some Demo.nat]⟩ :
      Rewrite)], r.id = 7 ∧ r.forwards = false := by
  obtain ⟨r, h1, h2, h3, _⟩ := C59_complete_partial (K := Demo.K) (fuel := 9) Demo59.ruleTree Demo59.fits Demo59.plain
    (id := 7) (l := Demo59.rule0) (P := [some Demo.nat, some Demo.nat]) (by simp [Demo59.rules]) (d := false)
    (fun _ => rfl) (by simp) (by
      intro e he d' g k _ _ heq i j hi hj _
      have hi : i = 0 := Demo59.var0 hi
      subst hi
      simp only [Demo59.rules, List.mem_cons, List.not_mem_nil, or_false] at he
      rcases he with rfl | rfl
      · cases d'
        · have hj : j = 0 := Demo59.var0 hj
          subst hj; rfl
        · cases heq
      · cases d' <;> cases heq) Demo59.ctxNat (by decide) (σ := fun _ => Demo59.query) (by
      intro i hi
      have hi : i = 0 := Demo59.var0 hi
      subst hi
      exact ⟨_, rfl, Demo59.queryTyped⟩) Demo59.queryFits (by decide) Demo59.found
  exact ⟨r, h1, h2, h3⟩

example : getRewrites Demo.K 9 Demo59.tree Demo59.query 3 [some Demo.nat] ≠ none :=
  C59_total_partial Demo59.ruleTree Demo59.fits Demo59.plain (by
    intro e he i T hT
    rw [Demo59.onlyNat e he i T hT]; decide) Demo59.queryFits Demo59.ctxNat Demo59.queryTyped

/-- Two rules whose patterns differ only in the type of a variable: `x0 = zero` with `x0` a number, and
`x0 = true` with `x0` a truth value, inserted in this order. -/
def demoHidden : Rewrites.Tree :=
  (insertLiteral ((insertLiteral .empty 1 ⟨true, .fvar 0, Demo.zero⟩ [some Demo.nat]).get (by decide +kernel)) 2
    ⟨true, .fvar 0, .tt⟩ [some .boolTy]).get (by decide +kernel)

/-- The condition of `C59_complete_partial` on the types is needed: the second of two rules whose patterns differ only
in the types of variables is not found, although its pattern generalizes the query with the right type. -/
theorem C59_disagreement_hidden :
    RuleTree demoHidden [(1, ⟨true, .fvar 0, Demo.zero⟩, [some Demo.nat]), (2, ⟨true, .fvar 0, .tt⟩, [some .boolTy])] ∧
      SHasType Demo.K [] (.app Demo.even Demo.zero) .boolTy ∧
      fill (fun _ => .app Demo.even Demo.zero) (.fvar 0) = .app Demo.even Demo.zero ∧
      getRewrites Demo.K 9 demoHidden (.app Demo.even Demo.zero) 0 [] = some [] :=
  ⟨.insert (.insert .empty (Option.some_get _).symm) (Option.some_get _).symm, Demo.s_even Demo.s_zero, rfl,
    by with_unfolding_all rfl⟩

end Acorn
