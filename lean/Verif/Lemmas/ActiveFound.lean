/-
Every resolution with an active step is found.
-/
import Verif.Lemmas.ActiveSteps
import Verif.Props.Fingerprint
namespace Acorn
namespace Active
open Spec Term
open Passive (Step)

variable {R : Type} {E : Env R} {K : KCtx} {ss : List (Step (Info R))}

/-- A side of a literal with the sign, of one of the steps. -/
def SideOf (ss : List (Step (Info R))) (positive : Bool) (e : LCtx × Term × Target) : Prop :=
  ∃ (s : Step (Info R)) (l : Literal), ss[e.2.2.step]? = some s ∧ s.clause.lits[e.2.2.literal]? = some l ∧
    l.positive = positive ∧ e.1 = s.clause.ctx ∧ e.2.1 = if e.2.2.left then l.left else l.right

/-- The tree has all sides. -/
def HasSides (K : KCtx) (P : LCtx × Term × Target → Prop)
    (tree : Fingerprint.Trees (List Fingerprint.Component) Target) : Prop :=
  ∃ es, addTerms K es = some tree ∧ ∀ e, P e → e ∈ es

theorem HasSides.add {P Q : LCtx × Term × Target → Prop} {tree t1 t2 : Fingerprint.Trees (List Fingerprint.Component) Target}
    (h : HasSides K P tree) {Γ : LCtx} {u v : Term} {x y : Target} (e1 : Fingerprint.insertTerm K tree Γ u x = some t1)
    (e2 : Fingerprint.insertTerm K t1 Γ v y = some t2) (hQ : ∀ e, Q e → P e ∨ e = (Γ, u, x) ∨ e = (Γ, v, y)) :
    HasSides K Q t2 := by
  obtain ⟨es, h1, h2⟩ := h
  refine ⟨(Γ, v, y) :: (Γ, u, x) :: es, by simp only [addTerms, h1, e1, e2, Option.bind_some], fun e he => ?_⟩
  rcases hQ e he with h | rfl | rfl
  · exact List.mem_cons_of_mem _ (List.mem_cons_of_mem _ (h2 e h))
  · exact List.mem_cons_of_mem _ List.mem_cons_self
  · exact List.mem_cons_self

/-- A side of one of the first literals, or one that was there before. -/
def Upto (P : LCtx × Term × Target → Prop) (c : Clause) (id n : Nat) (positive : Bool) (e : LCtx × Term × Target) : Prop :=
  P e ∨ (e.2.2.step = id ∧ e.2.2.literal < n ∧ ∃ l, c.lits[e.2.2.literal]? = some l ∧ l.positive = positive ∧ e.1 = c.ctx ∧
    e.2.1 = if e.2.2.left then l.left else l.right)

theorem addTargets_sides {c : Clause} {id : Nat} {P Q : LCtx × Term × Target → Prop} :
    ∀ (ls : List Literal) (pre : List Literal) (a a' : ActiveSet R), c.lits = pre ++ ls →
      HasSides K (Upto P c id pre.length true) a.positive → HasSides K (Upto Q c id pre.length false) a.negative →
      addTargets K c.ctx id pre.length ls a = some a' →
      HasSides K (Upto P c id c.lits.length true) a'.positive ∧ HasSides K (Upto Q c id c.lits.length false) a'.negative
  | [], pre, a, a', hc, h1, h2, e => by
    cases e
    rw [List.append_nil] at hc
    rw [hc]; exact ⟨h1, h2⟩
  | l :: ls, pre, a, a', hc, h1, h2, e => by
    simp only [addTargets, Option.bind_eq_bind, Option.bind_eq_some_iff] at e
    obtain ⟨t1, e1, t2, e2, e⟩ := e
    have hl : c.lits[pre.length]? = some l := by rw [hc]; simp
    have step : ∀ {P : LCtx × Term × Target → Prop} {b : Bool}, l.positive = b → ∀ e,
        Upto P c id (pre.length + 1) b e →
        Upto P c id pre.length b e ∨ e = (c.ctx, l.left, ⟨id, pre.length, true⟩) ∨
          e = (c.ctx, l.right, ⟨id, pre.length, false⟩) := by
      rintro P b hb ⟨Γ, t, ⟨k, j, left⟩⟩ (h | ⟨rfl, hj, l', hl', hp, rfl, ht⟩)
      · exact .inl (.inl h)
      · by_cases hj' : j < pre.length
        · exact .inl (.inr ⟨rfl, hj', l', hl', hp, rfl, ht⟩)
        · have hj2 : j = pre.length := by simp only at hj; omega
          subst hj2
          have : l' = l := by simp only at hl'; rw [hl] at hl'; exact (Option.some.inj hl').symm
          subst this
          simp only at ht
          cases left
          · exact .inr (.inr (by simp [ht]))
          · exact .inr (.inl (by simp [ht]))
    have skip : ∀ {P : LCtx × Term × Target → Prop} {b : Bool}, l.positive ≠ b → ∀ e,
        Upto P c id (pre.length + 1) b e → Upto P c id pre.length b e := by
      rintro P b hb ⟨Γ, t, ⟨k, j, left⟩⟩ (h | ⟨rfl, hj, l', hl', hp, rfl, ht⟩)
      · exact .inl h
      · refine .inr ⟨rfl, ?_, l', hl', hp, rfl, ht⟩
        simp only at hj hl' ⊢
        rcases Nat.lt_or_ge j pre.length with h | h
        · exact h
        · have : j = pre.length := by omega
          subst this
          rw [hl] at hl'
          cases hl'
          exact absurd hp hb
    have hlen : (pre ++ [l]).length = pre.length + 1 := by simp
    have e' := addTargets_sides (c := c) (id := id) (P := P) (Q := Q) ls (pre ++ [l])
      (if l.positive then { a with positive := t2 } else { a with negative := t2 }) a' (by rw [hc]; simp)
    rw [hlen] at e'
    cases hp : l.positive with
    | true =>
      simp only [hp, if_true] at e e' e1
      refine e' (h1.add e1 e2 (step hp)) ?_ e
      obtain ⟨es, g1, g2⟩ := h2
      exact ⟨es, g1, fun x hx => g2 x (skip (by rw [hp]; decide) x hx)⟩
    | false =>
      simp only [hp, Bool.false_eq_true, if_false] at e e' e1
      refine e' ?_ (h2.add e1 e2 (step hp)) e
      obtain ⟨es, g1, g2⟩ := h1
      exact ⟨es, g1, fun x hx => g2 x (skip (by rw [hp]; decide) x hx)⟩

theorem sideOf_append {s : Step (Info R)} {b : Bool} {e : LCtx × Term × Target} (h : SideOf (ss ++ [s]) b e) :
    Upto (SideOf ss b) s.clause ss.length s.clause.lits.length b e := by
  obtain ⟨t, l, h1, h2, h3, h4, h5⟩ := h
  rcases Nat.lt_trichotomy e.2.2.step ss.length with hlt | heq | hgt
  · rw [List.getElem?_append_left hlt] at h1
    exact .inl ⟨t, l, h1, h2, h3, h4, h5⟩
  · rw [heq] at h1
    have : t = s := by simpa using h1.symm
    subst this
    exact .inr ⟨heq, (List.getElem?_eq_some_iff.1 h2).1, l, h2, h3, h4, h5⟩
  · have hn : (ss ++ [s])[e.2.2.step]? = none := List.getElem?_eq_none (by simp; omega)
    rw [hn] at h1; cases h1

theorem grows_sides {a : ActiveSet R} (h : Grows E a ss) : a.steps = ss ∧ HasSides E.K (SideOf ss true) a.positive ∧
    HasSides E.K (SideOf ss false) a.negative := by
  induction h with
  | new =>
    refine ⟨rfl, ⟨[], rfl, ?_⟩, ⟨[], rfl, ?_⟩⟩ <;> (rintro e ⟨s, l, h, _⟩; simp at h)
  | @activate a a' ss new s _ e ih =>
    obtain ⟨rfl, h1, h2⟩ := ih
    obtain ⟨_, a1, -, -, g1, g2⟩ := activate_parts e
    obtain ⟨a2, a3, k1, k2, k3, k4, k5⟩ := insert_parts g2
    rw [← g1.positive, ← k1.positive] at h1
    rw [← g1.negative, ← k1.negative] at h2
    rw [g1.steps] at k2 k5
    have := addTargets_sides (K := E.K) (c := s.clause) (id := a.steps.length) (P := SideOf a.steps true)
      (Q := SideOf a.steps false) s.clause.lits [] a2 a3 rfl
      (by obtain ⟨es, p1, p2⟩ := h1; exact ⟨es, p1, fun x hx => hx.elim (p2 x) fun h => absurd h.2.1 (by simp)⟩)
      (by obtain ⟨es, p1, p2⟩ := h2; exact ⟨es, p1, fun x hx => hx.elim (p2 x) fun h => absurd h.2.1 (by simp)⟩) k2
    refine ⟨k5, ?_, ?_⟩
    · obtain ⟨es, p1, p2⟩ := this.1
      exact ⟨es, by rw [k3]; exact p1, fun x hx => p2 x (sideOf_append hx)⟩
    · obtain ⟨es, p1, p2⟩ := this.2
      exact ⟨es, by rw [k4]; exact p1, fun x hx => p2 x (sideOf_append hx)⟩

theorem mapM_mem {α β : Type} {f : α → Option β} : ∀ {xs : List α} {ys : List β}, xs.mapM f = some ys → ∀ {x : α}, x ∈ xs →
    ∃ y ∈ ys, f x = some y
  | [], ys, e, x, h => by cases h
  | a :: xs, ys, e, x, h => by
    simp only [List.mapM_cons, Option.bind_eq_bind, Option.bind_eq_some_iff, Option.pure_def, Option.some.injEq] at e
    obtain ⟨y, e1, ys', e2, rfl⟩ := e
    rcases List.mem_cons.1 h with rfl | h
    · exact ⟨y, by simp, e1⟩
    · obtain ⟨z, hz, e3⟩ := mapM_mem e2 h
      exact ⟨z, by simp [hz], e3⟩

theorem betaFree_heads {t : Term} (h : t.BetaFree) : HeadsAtomic t := by
  induction t with
  | atom a => trivial
  | bind b A B => trivial
  | app f a ihf iha =>
    obtain ⟨h1, h2, h3⟩ := h
    refine ⟨?_, ihf h2, iha h3⟩
    cases f with
    | bind => cases h1
    | atom | app => trivial

theorem contextOk_of {Γ : LCtx} (h : ValueVars K Γ) : ContextOk Γ := fun i T hT =>
  ⟨(HasType.closed (h i T hT).typed).1, fun j hj => absurd (STyped.declared (h i T hT) hj) (by simp [LCtx.get])⟩

theorem sharp_sides {c : Clause} (hp : PlainClause K c) (hs : Sharp K c) {l : Literal} (hl : l ∈ c.lits) (left : Bool) :
    ∃ T, HasType K c.ctx (if left then l.left else l.right) T ∧ isKind T = false ∧
      HeadsAtomic (if left then l.left else l.right) := by
  obtain ⟨b1, b2, T', hT', h1'⟩ := hs l hl
  obtain ⟨⟨T, _, h1, h2⟩, -, -⟩ := hp.neat hl
  have hk : isKind T' = false := by
    cases hk : isKind T' with
    | false => rfl
    | true => have := Small.not_endsKind hT'; rw [endsKind_of_isKind hk] at this; cases this
  have : T' = T := Typed.unique_of_not_kind h1'.typed h1.typed hk
  subst this
  cases left
  · exact ⟨T', h2.typed, hk, betaFree_heads b2⟩
  · exact ⟨T', h1.typed, hk, betaFree_heads b1⟩

theorem resolution_found {a a' : ActiveSet R} {new : List (Step (Info R))} {s old t : Step (Info R)} (h : Grows E a ss)
    (e : a.activate E s = some (new, a')) {k i j : Nat} {l m : Literal} (hk : ss[k]? = some old)
    (hi : s.clause.lits[i]? = some l) (hj : old.clause.lits[j]? = some m) (hop : m.positive = !l.positive)
    (nf : ¬ (s.info.truth = .factual ∧ old.info.truth = .factual)) (ps : PlainClause E.K s.clause)
    (po : PlainClause E.K old.clause) (ss' : Sharp E.K s.clause) (so : Sharp E.K old.clause) {left : Bool}
    (hu : Unifiable E.K s.clause.ctx l.left old.clause.ctx (if left then m.left else m.right))
    (ht : (if l.positive then tryResolution E ss.length s i k old j (!left)
      else tryResolution E k old j ss.length s i (!left)) = some (some t)) : t ∈ new := by
  obtain ⟨rfl, hpos, hneg⟩ := grows_sides h
  obtain ⟨o1, _, e1, hsub, -, -⟩ := activate_parts e
  refine hsub t ?_
  simp only [findAllResolutions, Option.bind_eq_bind, Option.bind_eq_some_iff, Option.pure_def, Option.some.injEq] at e1
  obtain ⟨ls, e1, rfl⟩ := e1
  have hmem : (i, l) ∈ (List.range s.clause.lits.length).zip s.clause.lits := by
    obtain ⟨hlt, hg⟩ := List.getElem?_eq_some_iff.1 hi
    refine List.mem_of_getElem? (i := i) ?_
    rw [List.getElem?_zip_eq_some]
    exact ⟨by simp [hlt], hi⟩
  obtain ⟨o, ho, e2⟩ := mapM_mem e1 hmem
  refine List.mem_flatten.2 ⟨o, ho, ?_⟩
  simp only [literalResolutions, Option.bind_eq_bind, Option.bind_eq_some_iff, Option.pure_def, Option.some.injEq] at e2
  obtain ⟨xs, e3, found, e4, rfl⟩ := e2
  have hside : ∃ es, addTerms E.K es = some (if l.positive then a.negative else a.positive) ∧
      (old.clause.ctx, (if left then m.left else m.right), (⟨k, j, left⟩ : Target)) ∈ es := by
    cases hp : l.positive with
    | true =>
      obtain ⟨es, g1, g2⟩ := hneg
      exact ⟨es, by simpa using g1, g2 _ ⟨old, m, hk, hj, by rw [hop, hp]; rfl, rfl, rfl⟩⟩
    | false =>
      obtain ⟨es, g1, g2⟩ := hpos
      exact ⟨es, by simpa using g1, g2 _ ⟨old, m, hk, hj, by rw [hop, hp]; rfl, rfl, rfl⟩⟩
  obtain ⟨es, g1, g2⟩ := hside
  obtain ⟨S, hS, kS, aS⟩ := sharp_sides ps ss' (List.mem_of_getElem? hi) true
  obtain ⟨T, hT, kT, aT⟩ := sharp_sides po so (List.mem_of_getElem? hj) left
  obtain ⟨fs, e5, hf⟩ := C29_lookup g1 g2 (contextOk_of ps.vars) (contextOk_of po.vars) hS hT kS kT aS aT hu
  rw [if_pos rfl] at e5
  rw [e3] at e5
  cases e5
  obtain ⟨y, hy, e6⟩ := mapM_mem e4 hf
  refine List.mem_filterMap.2 ⟨y, hy, ?_⟩
  unfold resolveTarget at e6
  simp only [hk, if_neg nf] at e6
  have : some y = some (some t) := by
    rw [← e6, ← ht]
  cases this; rfl

end Active
end Acorn
