/-
C29: the fingerprint index does not lose terms.
-/
import Verif.Lemmas.FingerprintUnify
import Verif.Spec.DemoSimple
namespace Acorn

open Spec Term Fingerprint

/-- Well-typed terms with a common well-typed instance have compatible fingerprints; computing them does
not panic. -/
theorem C29_unify {K : KCtx} {Γ1 Γ2 : LCtx} {s t S T : Term} (hΓ1 : ContextOk Γ1) (hΓ2 : ContextOk Γ2)
    (hs : HasType K Γ1 s S) (ht : HasType K Γ2 t T) (as : HeadsAtomic s) (at' : HeadsAtomic t)
    (hu : Unifiable K Γ1 s Γ2 t) :
    ∃ f g, ofTerm K Γ1 s = some f ∧ ofTerm K Γ2 t = some g ∧ couldUnify f g = true := by
  obtain ⟨Γ, φ, ψ, w1, w2, e⟩ := hu
  have hp : Pair K Γ1 s S Γ2 t T φ ψ :=
    ⟨ctxOk_of hΓ1, ctxOk_of hΓ2, hs, ht, as, at', e, Γ, w1, w2⟩
  obtain ⟨f, g, h1, h2, h3, -⟩ := hp.ofTerm
  exact ⟨f, g, h1, h2, h3⟩

/-- The identity is a well-typed substitution. -/
theorem wellTypedSubst_id {K : KCtx} {Γ : LCtx} (h : ContextOk Γ) : WellTypedSubst K fid Γ Γ :=
  ⟨fun i T e => by rw [sub_id]; exact .fvar e (h i T e).1, fun _ => rfl⟩

/-- If a well-typed term has another one as an instance, its fingerprint is reported as one that can be
specialized to the other's. -/
theorem C29_specialize {K : KCtx} {Γ1 Γ2 : LCtx} {s S : Term} {φ : Nat → Term} (hΓ1 : ContextOk Γ1)
    (hΓ2 : ContextOk Γ2) (hs : HasType K Γ1 s S) (as : HeadsAtomic s)
    (hφ : WellTypedSubst K φ Γ1 Γ2) (at' : HeadsAtomic (sub φ bid s)) :
    ∃ f g, ofTerm K Γ1 s = some f ∧ ofTerm K Γ2 (sub φ bid s) = some g ∧ couldSpecialize f g = true := by
  have ht := hs.sub φ bid BCtx.nil (subOk_of hφ)
  have hp : Pair K Γ1 s S Γ2 (sub φ bid s) (sub φ bid S) φ fid :=
    ⟨ctxOk_of hΓ1, ctxOk_of hΓ2, hs, ht, as, at', by rw [sub_id], Γ2, hφ, wellTypedSubst_id hΓ2⟩
  obtain ⟨f, g, h1, h2, -, h3⟩ := hp.ofTerm
  exact ⟨f, g, h1, h2, h3 rfl⟩

/-- Looking up a value in an index: every entry whose term has a common instance with the query is
returned, whatever else was inserted before and after.  The terms are values, that is, their types are
no sorts. -/
theorem C29_lookup {K : KCtx} {V : Type} {es : List (LCtx × Term × V)} {ts : Trees (List Component) V}
    (hb : addTerms K es = some ts) {Γ1 Γ2 : LCtx} {s t S T : Term} {v : V} (hm : (Γ2, t, v) ∈ es)
    (hΓ1 : ContextOk Γ1) (hΓ2 : ContextOk Γ2) (hs : HasType K Γ1 s S) (ht : HasType K Γ2 t T)
    (ks : isKind S = false) (kt : isKind T = false) (as : HeadsAtomic s) (at' : HeadsAtomic t)
    (hu : Unifiable K Γ1 s Γ2 t) : ∃ found, findUnifying K ts Γ1 s = some found ∧ v ∈ found := by
  obtain ⟨Γ, φ, ψ, w1, w2, e⟩ := hu
  have hp : Pair K Γ1 s S Γ2 t T φ ψ :=
    ⟨ctxOk_of hΓ1, ctxOk_of hΓ2, hs, ht, as, at', e, Γ, w1, w2⟩
  obtain ⟨f, g, h1, h2, h3, -⟩ := hp.ofTerm
  obtain ⟨c, d, hc, hd, hsr⟩ := hp.searched ks kt
  refine ⟨_, by simp only [findUnifying, h1, hc, Option.bind_eq_bind, Option.bind_some]; rfl, ?_⟩
  rw [mem_found]
  exact ⟨d, g, (addTerms_stored es ts hb d g v).2 ⟨Γ2, t, hm, hd, h2⟩, hsr, h3⟩

/-- Only entries with a compatible fingerprint are returned. -/
theorem C29_only_stored {K : KCtx} {V : Type} {es : List (LCtx × Term × V)} {ts : Trees (List Component) V}
    (hb : addTerms K es = some ts) {Γ : LCtx} {s : Term} {found : List V} {v : V}
    (hf : findUnifying K ts Γ s = some found) (hv : v ∈ found) :
    ∃ Γ' t f g, (Γ', t, v) ∈ es ∧ ofTerm K Γ s = some f ∧ ofTerm K Γ' t = some g ∧
      couldUnify f g = true := by
  simp only [findUnifying, Option.bind_eq_bind, Option.bind_eq_some_iff, Option.pure_def,
    Option.some.injEq] at hf
  obtain ⟨f, h1, c, h2, rfl⟩ := hf
  obtain ⟨k, g, hst, -, hok⟩ := mem_found.1 hv
  obtain ⟨Γ', t, hm, -, hg⟩ := (addTerms_stored es ts hb k g v).1 hst
  exact ⟨Γ', t, f, g, hm, h1, hg, hok⟩

/-- Looking up a literal: every stored literal that is an instance of the query, side by side, is
returned. -/
theorem C29_lookup_literal {K : KCtx} {V : Type} {es : List (LCtx × Literal × V)}
    {ts : Trees (List Component × List Component) V} (hb : addLiterals K es = some ts) {Γ1 Γ2 : LCtx}
    {l r L R : Term} {lit : Literal} {v : V} {φ : Nat → Term} (hm : (Γ2, lit, v) ∈ es)
    (hΓ1 : ContextOk Γ1) (hΓ2 : ContextOk Γ2) (hl : HasType K Γ1 l L) (hr : HasType K Γ1 r R)
    (kl : isKind L = false) (hφ : WellTypedSubst K φ Γ1 Γ2)
    (el : lit.left = sub φ bid l) (er : lit.right = sub φ bid r)
    (al : HeadsAtomic l) (ar : HeadsAtomic r) (al' : HeadsAtomic lit.left) (ar' : HeadsAtomic lit.right) :
    ∃ found, findSpecializing K ts Γ1 l r = some found ∧ v ∈ found := by
  have mk : ∀ {s S : Term}, HasType K Γ1 s S → HeadsAtomic s → HeadsAtomic (sub φ bid s) →
      Pair K Γ1 s S Γ2 (sub φ bid s) (sub φ bid S) φ fid := fun hs as as' =>
    ⟨ctxOk_of hΓ1, ctxOk_of hΓ2, hs, hs.sub φ bid BCtx.nil (subOk_of hφ), as, as', by rw [sub_id], Γ2, hφ,
      wellTypedSubst_id hΓ2⟩
  have pl := mk hl al (el ▸ al')
  have pr := mk hr ar (er ▸ ar')
  obtain ⟨f, g, h1, h2, -, h3⟩ := pl.ofTerm
  obtain ⟨f', g', h1', h2', -, h3'⟩ := pr.ofTerm
  obtain ⟨c, d, hc, hd, hsr⟩ := pl.searched kl (isKind_sub (subOk_of hφ) kl)
  refine ⟨_, by simp only [findSpecializing, ofSides, h1, h1', hc, Option.bind_eq_bind, Option.bind_some,
    Option.pure_def]; rfl, ?_⟩
  rw [mem_found]
  refine ⟨d, (g, g'), (addLiterals_stored es ts hb d (g, g') v).2 ⟨Γ2, lit, hm, ?_, ?_⟩, hsr, ?_⟩
  · rw [el]; exact hd
  · simp only [ofSides, el, er, h2, h2', Option.bind_eq_bind, Option.bind_some, Option.pure_def]
  · simp [litCouldSpecialize, h3 rfl, h3' rfl]

/-- The index agrees with the unifier: if the unifier succeeds, the fingerprints are compatible.  Missing
from the full claim: terms with equality symbols, see `C29_swapped_equality_missed`, and terms over type
variables. -/
theorem C29_unifier_partial {K : KCtx} {inputs : Nat → Option LCtx} {st' : UState} {n s1 s2 : Nat}
    {t1 t2 T1 T2 : Term} {Γ1 Γ2 : LCtx} (h0 : s1 ≠ 0) (h0' : s2 ≠ 0)
    (hin : ∀ s Γ, inputs s = some Γ → ValueVars K Γ) (i1 : inputs s1 = some Γ1) (i2 : inputs s2 = some Γ2)
    (h1 : SHasType K Γ1 t1 T1) (h2 : SHasType K Γ2 t2 T2)
    (p1 : ∀ a ∈ t1.atoms, a ≠ .sym .eq_ ∧ a ≠ .sym .type0 ∧ ∀ m l, a ≠ .sym (.typeclass m l))
    (p2 : ∀ a ∈ t2.atoms, a ≠ .sym .eq_ ∧ a ≠ .sym .type0 ∧ ∀ m l, a ≠ .sym (.typeclass m l))
    (a1 : HeadsAtomic t1) (a2 : HeadsAtomic t2)
    (e : Unifier.unify K n (Unifier.init inputs) s1 t1 s2 t2 = some (true, st')) :
    ∃ f g, ofTerm K Γ1 t1 = some f ∧ ofTerm K Γ2 t2 = some g ∧ couldUnify f g = true := by
  have ok : ∀ {Γ : LCtx}, ValueVars K Γ → ContextOk Γ := fun h i T hT =>
    ⟨Small.closed (h i T hT), fun j hj => by rw [Small.noVars (h i T hT) j] at hj; cases hj⟩
  exact C29_unify (ok (hin _ _ i1)) (ok (hin _ _ i2)) h1.typed h2.typed a1 a2
    (unifiable_of_unify h0 h0' hin i1 i2 h1 h2 p1 p2 e)

/-! ### What the hypotheses exclude -/

/-- `(zero = suc(zero))` as a term. -/
def demoEq : Term := .eq Demo.nat Demo.zero (.app Demo.suc Demo.zero)
/-- `(suc(zero) = zero)` as a term. -/
def demoEq' : Term := .eq Demo.nat (.app Demo.suc Demo.zero) Demo.zero

/-- The unifier swaps the sides of equality terms, the fingerprints do not: terms that unify are missed. -/
theorem C29_swapped_equality_missed : ∃ (inputs : Nat → Option LCtx) (st' : UState) (f g : List Component),
    Unifier.unify Demo.K 20 (Unifier.init inputs) 1 demoEq 2 demoEq' = some (true, st') ∧
    ofTerm Demo.K [] demoEq = some f ∧ ofTerm Demo.K [] demoEq' = some g ∧ couldUnify f g = false := by
  have h : (Unifier.unify Demo.K 20 (Unifier.init fun _ => some []) 1 demoEq 2 demoEq').any (·.1) = true := by
    decide +kernel
  obtain ⟨⟨b, st'⟩, e, hb⟩ := (Option.any_eq_true ..).1 h
  obtain rfl : b = true := hb
  exact ⟨_, st', _, _, e, rfl, rfl, by decide +kernel⟩

/-- A lambda applied to an argument: its category is computed from the type of an unrelated variable.  A
Boolean variable has it as an instance, but the fingerprints are reported incompatible. -/
theorem C29_applied_lambda_missed : ∃ (Γ1 Γ2 : LCtx) (s t : Term) (f g : List Component),
    ContextOk Γ1 ∧ ContextOk Γ2 ∧ HasType Demo.K Γ1 s .boolTy ∧ HasType Demo.K Γ2 t .boolTy ∧
    Unifiable Demo.K Γ1 s Γ2 t ∧ ofTerm Demo.K Γ1 s = some f ∧ ofTerm Demo.K Γ2 t = some g ∧
    couldUnify f g = false := by
  have c1 : ContextOk [some (.pi Demo.nat Demo.nat)] := by
    intro i T h
    match i, h with
    | 0, h => cases h; exact ⟨rfl, fun j hj => by simp [hasVar, atoms] at hj⟩
  have c2 : ContextOk [some .boolTy] := by
    intro i T h
    match i, h with
    | 0, h => cases h; exact ⟨rfl, fun j hj => by simp [hasVar, atoms] at hj⟩
  have hs : HasType Demo.K [some (.pi Demo.nat Demo.nat)]
      (.app (.lam Demo.nat (.app Demo.even (.bvar 0))) Demo.zero) .boolTy := by
    refine Typed.app (B := .boolTy) (.lam (.tyOf Demo.s_nat.typed) ?_ rfl) Demo.s_zero.typed
    exact (Demo.s_even (.bvar rfl)).typed
  refine ⟨_, _, _, .fvar 0, _, _, c1, c2, hs, .fvar rfl rfl, ⟨_, fid,
    fun _ => .app (.lam Demo.nat (.app Demo.even (.bvar 0))) Demo.zero, wellTypedSubst_id c1, ⟨?_, fun _ => rfl⟩,
    sub_id _⟩, rfl, rfl, by decide +kernel⟩
  intro i T h
  match i, h with
  | 0, h => cases h; exact hs

/-- Types are not values: a type variable of a typeclass is not found when looking for one of its
instances, although the fingerprints are compatible. -/
theorem C29_type_lookup_missed : ∃ (Γ : LCtx) (ts : Trees (List Component) Nat),
    ContextOk Γ ∧ HasType Demo.K [] Demo.nat .type0 ∧ HasType Demo.K Γ (.fvar 0) Demo.mon ∧
    addTerms Demo.K [(Γ, .fvar 0, 7)] = some ts ∧ Unifiable Demo.K [] Demo.nat Γ (.fvar 0) ∧
    findUnifying Demo.K ts [] Demo.nat = some [] := by
  refine ⟨[some Demo.mon], _, ?_, Demo.s_nat.typed, .fvar rfl rfl, rfl, ⟨[], fid, fun _ => Demo.nat, ?_, ?_, rfl⟩,
    by decide +kernel⟩
  · intro i T h
    match i, h with
    | 0, h => cases h; exact ⟨rfl, fun j hj => by simp [hasVar, atoms] at hj⟩
  · exact ⟨fun i T h => by simp [LCtx.get] at h, fun _ => rfl⟩
  · refine ⟨fun i T h => ?_, fun _ => rfl⟩
    match i, h with
    | 0, h => cases h; exact Typed.inst (c := (0, 0)) rfl rfl

/-! ### Examples -/

/-- `add(x0, zero)` and `add(suc(y0), y0)` have the common instance `add(suc(zero), zero)`; the second
term is found when looking for the first one, and `even(x0)` is not. -/
example : ∃ ts, addTerms Demo.K
      [([some Demo.nat], .app (.app Demo.add (.app Demo.suc (.fvar 0))) (.fvar 0), 1),
       ([some Demo.nat], .app Demo.even (.fvar 0), 2)] = some ts ∧
    findUnifying Demo.K ts [some Demo.nat] (.app (.app Demo.add (.fvar 0)) Demo.zero) = some [1] :=
  ⟨_, rfl, by decide +kernel⟩

theorem demo_unifiable : Unifiable Demo.K [some Demo.nat] (.app (.app Demo.add (.fvar 0)) Demo.zero)
    [some Demo.nat] (.app (.app Demo.add (.app Demo.suc (.fvar 0))) (.fvar 0)) := by
  refine ⟨[], fun _ => .app Demo.suc Demo.zero, fun _ => Demo.zero, ⟨fun i T h => ?_, fun _ => rfl⟩,
    ⟨fun i T h => ?_, fun _ => rfl⟩, rfl⟩
  · match i, h with
    | 0, h => cases h; exact (Demo.s_suc Demo.s_zero).typed
  · match i, h with
    | 0, h => cases h; exact Demo.s_zero.typed

example : ∃ f g, ofTerm Demo.K [some Demo.nat] (.app (.app Demo.add (.fvar 0)) Demo.zero) = some f ∧
    ofTerm Demo.K [some Demo.nat] (.app (.app Demo.add (.app Demo.suc (.fvar 0))) (.fvar 0)) = some g ∧
    couldUnify f g = true := by
  have c1 : ContextOk [some Demo.nat] := by
    intro i T h
    match i, h with
    | 0, h => cases h; exact ⟨rfl, fun j hj => by simp [hasVar, atoms] at hj⟩
  exact C29_unify c1 c1 (Demo.s_add (.fvar rfl rfl) Demo.s_zero).typed
    (Demo.s_add (Demo.s_suc (.fvar rfl rfl)) (.fvar rfl rfl)).typed
    ⟨trivial, ⟨trivial, trivial, trivial⟩, trivial⟩
    ⟨trivial, ⟨trivial, trivial, trivial, trivial, trivial⟩, trivial⟩ demo_unifiable

/-- Fingerprints do exclude terms: `suc(x0)` and `add(x0, x0)` are incompatible. -/
example : ∃ f g, ofTerm Demo.K [some Demo.nat] (.app Demo.suc (.fvar 0)) = some f ∧
    ofTerm Demo.K [some Demo.nat] (.app (.app Demo.add (.fvar 0)) (.fvar 0)) = some g ∧
    couldUnify f g = false := ⟨_, _, rfl, rfl, by decide +kernel⟩

/-- The literal `add(zero, zero) = zero` is found when looking for instances of `add(x0, zero) = x0`. -/
example : ∃ ts, addLiterals Demo.K
      [([], ⟨true, .app (.app Demo.add Demo.zero) Demo.zero, Demo.zero⟩, 5),
       ([], ⟨true, .app Demo.suc Demo.zero, Demo.zero⟩, 6)] = some ts ∧
    findSpecializing Demo.K ts [some Demo.nat] (.app (.app Demo.add (.fvar 0)) Demo.zero) (.fvar 0) =
      some [5] := ⟨_, rfl, by decide +kernel⟩

end Acorn
