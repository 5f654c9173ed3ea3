/-
Matching literals and clauses.
-/
import Verif.Model.TraceRules
import Verif.Lemmas.ClaimSound
import Verif.Props.Matching
namespace Acorn
open Spec Term

universe u

variable {K : KCtx} {Γ Δ : LCtx} {M : Interp.{u}}

theorem Spec.EqSwap.symm {s t : Term} (h : EqSwap s t) : EqSwap t s := by
  induction h with
  | atom a => exact .atom a
  | app _ _ ih1 ih2 => exact .app ih1 ih2
  | bind c _ _ ih1 ih2 => exact .bind c ih1 ih2
  | swap _ _ _ ih1 ih2 ih3 => exact .swap ih1 ih3 ih2

/-- One literal is an instance of another, with the sides in either order. -/
def InstOf (m : VMap) (g l : Literal) : Prop :=
  g.positive = l.positive ∧ Covered m g.left ∧ Covered m g.right ∧
    ((EqSwap (m.apply g.left) l.left ∧ EqSwap (m.apply g.right) l.right) ∨
      (EqSwap (m.apply g.left) l.right ∧ EqSwap (m.apply g.right) l.left))

theorem InstOf.mono {m m' : VMap} {g l : Literal} (h : InstOf m g l) (hx : Extends m m') : InstOf m' g l := by
  obtain ⟨h0, h1, h2, h3⟩ := h
  refine ⟨h0, h1.mono hx, h2.mono hx, ?_⟩
  rw [apply_extends hx _ h1, apply_extends hx _ h2]
  exact h3

theorem pair_matched {m m' : VMap} {g g' s s' : Term}
    (e : VMap.andThen (VMap.matchTerms K Γ Δ m g s) (fun m => VMap.matchTerms K Γ Δ m g' s') = some (some m')) :
    Extends m m' ∧ Covered m' g ∧ Covered m' g' ∧ EqSwap (m'.apply g) s ∧ EqSwap (m'.apply g') s' ∧
      (MapClosed m → MapClosed m') := by
  obtain ⟨m1, e1, e2⟩ := andThen_some e
  obtain ⟨x1, q1, c1, k1⟩ := C10_match e1
  obtain ⟨x2, q2, c2, k2⟩ := C10_match e2
  have c1' : Covered m1 g := c1
  refine ⟨x1.trans x2, c1'.mono x2, c2, ?_, q2, fun h => k2 (k1 h)⟩
  rw [apply_extends x2 _ c1']
  exact q1

theorem matchLits_inst {m m' : VMap} {g l : Literal} (e : Checker.matchLits K Γ Δ m g l = some (some m')) :
    Extends m m' ∧ InstOf m' g l ∧ (MapClosed m → MapClosed m') := by
  simp only [Checker.matchLits] at e
  split at e
  · cases e
  · rename_i hp
    have hp : g.positive = l.positive := Classical.byContradiction hp
    rcases orElse_some e with e | e
    · obtain ⟨x, c, c', q, q', k⟩ := pair_matched e
      exact ⟨x, ⟨hp, c, c', .inl ⟨q, q'⟩⟩, k⟩
    · obtain ⟨x, c, c', q, q', k⟩ := pair_matched e
      exact ⟨x, ⟨hp, c, c', .inr ⟨q, q'⟩⟩, k⟩

/-- Typing of the map. -/
theorem matchLits_sound (hΔ : CtxOk Δ) {m m' : VMap} {g l : Literal}
    (hg : ∀ i, g.left.hasVar i = true ∨ g.right.hasVar i = true → (Γ.get i).isSome = true)
    (hl : LitTyped K Δ l) (hm : Sound K Γ Δ m) (e : Checker.matchLits K Γ Δ m g l = some (some m')) :
    Sound K Γ Δ m' := by
  obtain ⟨T, h1, h2⟩ := hl
  have one : ∀ {m m' : VMap} {g s : Term}, (∀ i, g.hasVar i = true → (Γ.get i).isSome = true) → SHasType K Δ s T →
      Sound K Γ Δ m → VMap.matchTerms K Γ Δ m g s = some (some m') → Sound K Γ Δ m' := by
    intro m m' g s hg hs hm e
    obtain ⟨r, e', hr⟩ := matchTerms_sound hΔ g.size Γ Δ m g s BCtx.nil (.ty T) 0 (Nat.le_refl _)
      (.refl _) (.refl _) hg (HasType.fscoped hΔ hs.typed).1 (fun _ => rfl) hs hm
    rw [e] at e'
    cases e'
    exact hr _ rfl
  simp only [Checker.matchLits] at e
  split at e
  · cases e
  · rcases orElse_some e with e | e
    · obtain ⟨m1, e1, e2⟩ := andThen_some e
      exact one (fun i hi => hg i (.inr hi)) h2 (one (fun i hi => hg i (.inl hi)) h1 hm e1) e2
    · obtain ⟨m1, e1, e2⟩ := andThen_some e
      exact one (fun i hi => hg i (.inr hi)) h1 (one (fun i hi => hg i (.inl hi)) h2 hm e1) e2

theorem Out.any_true {α : Type} {f : α → Out Bool} : ∀ {l : List α}, Out.any f l = .done true →
    ∃ a ∈ l, f a = .done true := by
  intro l
  induction l with
  | nil => intro e; cases e
  | cons a l ih =>
    intro e
    simp only [Out.any, Out.bind_done] at e
    obtain ⟨b, e1, e⟩ := e
    split at e
    · rename_i hb; subst hb; exact ⟨a, by simp, e1⟩
    · obtain ⟨x, hx, h⟩ := ih e
      exact ⟨x, by simp [hx], h⟩

theorem mem_picks {α : Type} {l : List α} : ∀ {p : α × List α}, p ∈ Checker.picks l →
    p.1 ∈ l ∧ ∀ x ∈ p.2, x ∈ l := by
  induction l with
  | nil => intro p h; simp [Checker.picks] at h
  | cons a l ih =>
    intro p h
    simp only [Checker.picks, List.mem_cons, List.mem_map] at h
    rcases h with rfl | ⟨q, hq, rfl⟩
    · exact ⟨by simp, fun x hx => by simp [hx]⟩
    · obtain ⟨h1, h2⟩ := ih hq
      refine ⟨by simp [h1], fun x hx => ?_⟩
      rcases List.mem_cons.1 hx with rfl | hx
      · simp
      · simp [h2 x hx]

/-- A successful match: each literal of the general clause has an instance in the other. -/
theorem matchFrom_spec (hΔ : CtxOk Δ) : ∀ {gs ls : List Literal} {m : VMap},
    (∀ g ∈ gs, ∀ i, g.left.hasVar i = true ∨ g.right.hasVar i = true → (Γ.get i).isSome = true) →
    LitsTyped K Δ ls → Sound K Γ Δ m → Checker.matchFrom K Γ Δ gs ls m = .done true →
    ∃ m', Extends m m' ∧ (MapClosed m → MapClosed m') ∧ Sound K Γ Δ m' ∧ ∀ g ∈ gs, ∃ l ∈ ls, InstOf m' g l := by
  intro gs
  induction gs with
  | nil => intro ls m _ _ hm _; exact ⟨m, fun _ _ h => h, id, hm, by simp⟩
  | cons g gs ih =>
    intro ls m hg hl hm e
    simp only [Checker.matchFrom] at e
    obtain ⟨p, hp, e⟩ := Out.any_true e
    simp only [Out.bind_done, Out.ofOption_done] at e
    obtain ⟨r, e1, e⟩ := e
    obtain ⟨p1, p2⟩ := mem_picks hp
    cases r with
    | none => cases e
    | some m1 =>
      obtain ⟨x1, i1, k1⟩ := matchLits_inst e1
      have s1 := matchLits_sound hΔ (hg g (by simp)) (hl _ p1) hm e1
      obtain ⟨m', x2, k2, s2, h⟩ := ih (fun g h => hg g (by simp [h])) (fun l h => hl l (p2 l h)) s1 e
      refine ⟨m', x1.trans x2, fun h => k2 (k1 h), s2, fun g' hg' => ?_⟩
      rcases List.mem_cons.1 hg' with rfl | hg'
      · exact ⟨p.1, p1, i1.mono x2⟩
      · obtain ⟨l, hl', hi⟩ := h g' hg'
        exact ⟨l, p2 l hl', hi⟩

/-- If a clause matches another, the other follows from it. -/
theorem clauseMatches_true (L : Lawful K M) (hN : NoEmpty K M) {c d : Clause} (hc : PlainClause K c)
    (hd : PlainClause K d) (e : Checker.clauseMatches K c d = .done true) (ht : ClauseTrue M c) : ClauseTrue M d := by
  simp only [Checker.clauseMatches] at e
  split at e
  · cases e
  have hΔ : CtxOk d.ctx := Small.ctxOk hd.vars
  have hΓ : CtxOk c.ctx := Small.ctxOk hc.vars
  have ap : ∀ (m : VMap) i T, c.ctx.get i = some T → m.apply T = T := fun m i T hi =>
    NoVars.apply (Small.noVars (hc.vars i T hi)) m
  have h0 : Sound K c.ctx d.ctx [] := by
    refine ⟨fun i T t _ h => by simp [VMap.get] at h, ?_, ?_⟩
    · intro i T hi j hj
      rw [Small.noVars (hc.vars i T hi) j] at hj; cases hj
    · intro i T hi _
      rw [ap [] i T hi]
      have := Small.not_endsKind (hc.vars i T hi)
      cases hk : isKind T with
      | false => rfl
      | true => rw [endsKind_of_isKind hk] at this; cases this
  obtain ⟨m, _, mc, hm, hi⟩ := matchFrom_spec hΔ (fun g hg i hi => by
    obtain ⟨T, h1, h2⟩ := hc.typed g hg
    rcases hi with hi | hi
    · exact (HasType.fscoped hΓ h1.typed).1 i hi
    · exact (HasType.fscoped hΓ h2.typed).1 i hi) hd.typed h0 e
  intro σ hσ β
  -- The assignment of the general variables.
  have ex : ∀ i, ∃ v : M.D, (∀ t, m.get i = some t → v = eval M σ β t) ∧
      ∀ T, c.ctx.get i = some T → ∀ ρ γ, M.mem v (eval M ρ γ T) := by
    intro i
    have cl : ∀ T, c.ctx.get i = some T → ∀ (ρ γ ρ' γ' : Nat → M.D), eval M ρ γ T = eval M ρ' γ' T := by
      intro T hT ρ γ ρ' γ'
      have hs := hc.vars i T hT
      rw [eval_fvars M T ρ ρ' γ fun j hj => by rw [Small.noVars hs j] at hj; cases hj]
      exact eval_closed M ρ' γ γ' T (Small.closed hs)
    cases em : m.get i with
    | some t =>
      refine ⟨eval M σ β t, fun u hu => by cases hu; rfl, fun T hT ρ γ => ?_⟩
      have := hm.mapped i T t hT em
      rw [ap m i T hT] at this
      rw [cl T hT ρ γ σ β]
      exact HasType.mem L hσ this.typed β
    | none =>
      cases ec : c.ctx.get i with
      | none =>
        obtain ⟨v, _⟩ := hN .boolTy boolTy_small
        exact ⟨v, (fun u hu => by cases hu), (fun T hT => by cases hT)⟩
      | some T =>
        obtain ⟨v, hv⟩ := hN T (hc.vars i T ec)
        exact ⟨v, (fun u hu => by cases hu), (fun T' hT' ρ γ => by cases hT'; exact hv ρ γ)⟩
  obtain ⟨ρ, hρ⟩ := Classical.axiomOfChoice ex
  obtain ⟨g, hg, hh⟩ := ht ρ (fun i T hi γ => (hρ i).2 T hi ρ γ) β
  obtain ⟨l, hl, hp, c1, c2, hsw⟩ := hi g hg
  obtain ⟨T, l1, l2⟩ := hd.typed l hl
  have mc := mc fun i t h => by simp [VMap.get] at h
  have ev : ∀ {t s : Term}, Covered m t → SHasType K d.ctx s T → EqSwap (m.apply t) s → eval M σ β s = eval M ρ β t := by
    intro t s ct hs q
    have e1 := (EqSwap.keeps L hσ q.symm BCtx.nil _ hs).1.eval β bmodels_nil
    rw [← e1, eval_apply mc]
    refine eval_fvars M t _ ρ β fun i hi => ?_
    obtain ⟨u, hu⟩ := Option.isSome_iff_exists.1 (ct i hi)
    simp only [Through, hu]
    exact ((hρ i).1 u hu).symm
  refine ⟨l, hl, ?_⟩
  simp only [LitHolds] at hh ⊢
  rw [← hp]
  rcases hsw with ⟨q1, q2⟩ | ⟨q1, q2⟩
  · rw [ev c1 l1 q1, ev c2 l2 q2]
    exact hh
  · rw [ev c1 l2 q1, ev c2 l1 q2]
    split at hh
    · rename_i h; rw [if_pos h]; exact hh.symm
    · rename_i h; rw [if_neg h]; exact fun x => hh x.symm

/-- Two known clauses do not contradict each other. -/
theorem known_consistent {c : Clause} {l : Literal} (hN : NoEmpty K M) (hv : ValueVars K c.ctx) (hl : c.lits = [l])
    (ht : ClauseTrue M c) (hn : ClauseTrue M ⟨[l.negate], c.ctx⟩) : False := by
  obtain ⟨ρ, hρ⟩ := hv.model hN
  obtain ⟨d, _⟩ := hN .boolTy boolTy_small
  obtain ⟨a, ha, h1⟩ := ht ρ hρ fun _ => d
  obtain ⟨b, hb, h2⟩ := hn ρ hρ fun _ => d
  rw [hl, List.mem_singleton] at ha
  rw [List.mem_singleton] at hb
  subst ha hb
  simp only [LitHolds, Literal.negate] at h1 h2
  cases hp : a.positive <;> simp_all

end Acorn
