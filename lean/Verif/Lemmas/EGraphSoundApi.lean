/-
Soundness of the operations of the equality graph that take terms.
-/
import Verif.Lemmas.EGraphSound
namespace Acorn

theorem Out.bind_done {α β : Type} {x : Out α} {f : α → Out β} {b : β} :
    (x >>= f) = .done b ↔ ∃ a, x = .done a ∧ f a = .done b := by
  show Out.bind x f = .done b ↔ _
  cases x <;> simp [Out.bind]

theorem Out.ofOption_done {α : Type} {o : Option α} {a : α} :
    Out.ofOption o = .done a ↔ o = some a := by
  cases o <;> simp [Out.ofOption]

theorem Out.pure_done {α : Type} {a b : α} : (pure a : Out α) = .done b ↔ a = b := by
  show Out.done a = .done b ↔ _
  simp

namespace EGraph

universe u

variable {D : Type u} {V : Term → D} {ap : D → D → D} {Good : Term → Prop} {T : List Term}
  {g g' : EGraph}

/-- What soundness needs to know about values and well-formed terms. -/
structure Laws (V : Term → D) (ap : D → D → D) (Good : Term → Prop) : Prop where
  app : ∀ f a, V (.app f a) = ap (V f) (V a)
  good : ∀ f a, Good (.app f a) → Good f ∧ Good a
  swap : ∀ t s, Good t → swappedEq t = some s → Good s ∧ V s = V t

theorem getElem?_prefix {T T' : List Term} (h : T <+: T') {k : Nat} {t : Term} (e : T[k]? = some t) :
    T'[k]? = some t := by
  obtain ⟨S, rfl⟩ := h
  have hlt := (List.getElem?_eq_some_iff.1 e).1
  rw [List.getElem?_append_left hlt]; exact e

theorem vals_of_term {k : Nat} {t : Term} (e : T[k]? = some t) : vals V T k = some (V t) := by
  rw [vals, e]; rfl

theorem Sound.newTerm (h : Sound V ap Good T g) {t : Term} (ht : Good t) (d : GDecomp) :
    Sound V ap Good (T ++ [t]) (g.newTerm t d).2 ∧
    (T ++ [t])[(g.newTerm t d).1]? = some t := by
  have hx : Ext (vals V T) (vals V (T ++ [t])) := vals_ext (List.prefix_append _ _)
  have hTl : g.terms.length = T.length := by rw [← h.tl, List.length_map]
  have hnewT : (T ++ [t])[g.terms.length]? = some t := by rw [hTl]; simp
  have hnew : vals V (T ++ [t]) g.terms.length = some (V t) := vals_of_term hnewT
  have hinfo : ∀ k i, (g.newTerm t d).2.info? k = some i → g.info? k = some i ∨
      (k = g.terms.length ∧ i = ⟨[g.terms.length], [], AMap.empty⟩) := by
    intro k i e
    rw [info?_eq] at e ⊢
    simp only [EGraph.newTerm, List.getElem?_append] at e
    split at e
    · exact Or.inl e
    · rename_i hk
      have : k - g.groups.length = 0 := by
        rcases Nat.eq_zero_or_pos (k - g.groups.length) with h | h
        · exact h
        · rw [List.getElem?_eq_none (by simp only [List.length_cons, List.length_nil]; omega)] at e
          cases e
      rw [this] at e
      have e : Group.info ⟨[g.terms.length], [], AMap.empty⟩ = .info i := Option.some.inj e
      refine Or.inr ⟨by rw [← h.len]; omega, ?_⟩
      injection e with e; exact e.symm
  refine ⟨{ tl := ?_, len := ?_, good := ?_, term := ?term, remapped := ?remapped, terms := ?terms,
            ineqs := ?ineqs, atomic := ?atomic, application := ?application, opaques := ?opaques,
            appMap := ?appMap, apps := ?apps, coherent := h.coherent, clauses := ?clauses,
            pending := ?pending, contra := h.contra }, hnewT⟩
  · simp [EGraph.newTerm, h.tl]
  · simp [EGraph.newTerm, h.len]
  · intro s hs
    rcases List.mem_append.1 hs with hs | hs
    · exact h.good s hs
    · rw [List.mem_singleton] at hs; subst hs; exact ht
  case term =>
    intro id ti e
    simp only [EGraph.newTerm, List.getElem?_append] at e
    split at e
    · exact hx _ _ (h.term _ _ e)
    · have : id - g.terms.length = 0 := by
        rcases Nat.eq_zero_or_pos (id - g.terms.length) with h | h
        · exact h
        · rw [List.getElem?_eq_none (by simp only [List.length_cons, List.length_nil]; omega)] at e
          cases e
      rw [this] at e
      cases e
      show vals V (T ++ [t]) g.groups.length = some (V t)
      rw [h.len]; exact hnew
  case remapped =>
    intro a b e
    simp only [EGraph.newTerm, List.getElem?_append] at e
    split at e
    · exact (h.remapped _ _ e).ext hx
    · have : a - g.groups.length = 0 := by
        rcases Nat.eq_zero_or_pos (a - g.groups.length) with h | h
        · exact h
        · rw [List.getElem?_eq_none (by simp only [List.length_cons, List.length_nil]; omega)] at e
          cases e
      rw [this] at e
      cases e
  case terms =>
    intro k i e s hs
    rcases hinfo k i e with e | ⟨rfl, rfl⟩
    · exact (h.terms _ _ e s hs).ext hx
    · rw [List.mem_singleton] at hs; subst hs; exact ⟨_, hnew, hnew⟩
  case ineqs =>
    intro k i e x y hxy
    rcases hinfo k i e with e | ⟨rfl, rfl⟩
    · exact (h.ineqs _ _ e x y hxy).ext hx
    · cases hxy
  case atomic => exact fun a id e => getElem?_prefix (List.prefix_append _ _) (h.atomic a id e)
  case application =>
    intro f a id e
    obtain ⟨x, y, h1, h2, h3⟩ := h.application f a id e
    exact ⟨x, y, getElem?_prefix (List.prefix_append _ _) h1,
      getElem?_prefix (List.prefix_append _ _) h2, getElem?_prefix (List.prefix_append _ _) h3⟩
  case opaques => exact fun s id e => getElem?_prefix (List.prefix_append _ _) (h.opaques s id e)
  case appMap => exact fun f a r e => (h.appMap f a r e).ext hx
  case apps => exact fun i k r e => (h.apps i k r e).ext hx
  case clauses => exact fun c hc => (h.clauses c hc).ext hx
  case pending => exact fun op ho => (h.pending op ho).ext hx

/-- The result of an operation that may create terms and returns the id of `t`. -/
def Grown (V : Term → D) (ap : D → D → D) (Good : Term → Prop) (T : List Term) (r : Nat × EGraph)
    (t : Term) : Prop :=
  ∃ T', T <+: T' ∧ Sound V ap Good T' r.2 ∧ T'[r.1]? = some t

theorem Sound.insertAtom (h : Sound V ap Good T g) {a : Atom} (ha : Good (.atom a)) :
    Grown V ap Good T (g.insertAtom a) (.atom a) := by
  simp only [EGraph.insertAtom]
  split
  · rename_i id e
    exact ⟨T, List.prefix_refl _, h, h.atomic a id e⟩
  · obtain ⟨h1, h2⟩ := h.newTerm ha (.atomic a)
    refine ⟨T ++ [.atom a], List.prefix_append _ _, ?_, h2⟩
    exact { h1 with
      atomic := by
        intro b id e
        rw [AMap.get?_insert] at e
        split at e
        · rename_i hb; cases hb; cases e; exact h2
        · exact h1.atomic b id e
      application := by
        intro f b id e
        rw [AMap.get?_insert] at e
        split at e
        · rename_i hb; cases hb
        · exact h1.application f b id e }

theorem Sound.insertOpaque (h : Sound V ap Good T g) {t : Term} (ht : Good t) :
    Grown V ap Good T (g.insertOpaque t) t := by
  simp only [EGraph.insertOpaque]
  split
  · rename_i id e
    exact ⟨T, List.prefix_refl _, h, h.opaques t id e⟩
  · obtain ⟨h1, h2⟩ := h.newTerm ht .opaque
    refine ⟨T ++ [t], List.prefix_append _ _, ?_, h2⟩
    exact { h1 with
      opaques := by
        intro b id e
        rw [AMap.get?_insert] at e
        split at e
        · rename_i hb; subst hb; cases e; exact h2
        · exact h1.opaques b id e }

/-- Ids keep their terms. -/
theorem Sound.term_eq (h : Sound V ap Good T g) (id : Nat) : g.term? id = T[id]? := by
  rw [EGraph.term?, ← h.tl, List.getElem?_map]

theorem Sound.insertApplication (L : Laws V ap Good) (h : Sound V ap Good T g)
    {ins : Term → EGraph → Out (Nat × EGraph)}
    (hins : ∀ {T g t r}, Sound V ap Good T g → Good t → ins t g = .done r → Grown V ap Good T r t)
    {f a : Nat} {ft at' : Term} (hf : T[f]? = some ft) (ha : T[a]? = some at')
    (hg : Good (.app ft at')) {r : Nat × EGraph}
    (e : insertApplication ins g f a = .done r) : Grown V ap Good T r (.app ft at') := by
  simp only [EGraph.insertApplication] at e
  split at e
  · rename_i id' hid
    cases e
    refine ⟨T, List.prefix_refl _, h, ?_⟩
    obtain ⟨x, y, h1, h2, h3⟩ := h.application _ _ _ hid
    rw [hf] at h1; rw [ha] at h2
    cases h1; cases h2
    exact h3
  · simp only [h.term_eq, hf, ha, Out.bind_done, Out.ofOption_done] at e
    obtain ⟨_, h1, _, h2, e⟩ := e
    cases h1; cases h2
    obtain ⟨h1, h2⟩ := h.newTerm hg (.application f a)
    obtain ⟨fg, hfg, ag, hag, g1, hg1, e⟩ := e
    have hp : T <+: T ++ [.app ft at'] := List.prefix_append _ _
    generalize hT1 : T ++ [Term.app ft at'] = T1 at *
    generalize hn : g.newTerm (.app ft at') (.application f a) = n at *
    obtain ⟨id, g0⟩ := n
    have hv : AppV ap (vals V T1) f a id :=
      ⟨_, _, vals_of_term (getElem?_prefix hp hf), vals_of_term (getElem?_prefix hp ha),
        by rw [vals_of_term h2, L.app]⟩
    have h3 : Sound V ap Good T1 { g0 with decomps := g0.decomps.insert (.application f a) id } :=
      { h1 with
        atomic := by
          intro b id e
          rw [AMap.get?_insert] at e
          split at e
          · rename_i hb; cases hb
          · exact h1.atomic b id e
        application := by
          intro f' b id e
          rw [AMap.get?_insert] at e
          split at e
          · rename_i hb
            cases hb; cases e
            exact ⟨_, _, getElem?_prefix hp hf, getElem?_prefix hp ha, h2⟩
          · exact h1.application f' b id e }
    have hv' : AppV ap (vals V T1) fg ag id := by
      obtain ⟨x, y, q1, q2, q3⟩ := hv
      exact ⟨x, y, by rw [← (h3.group hfg).eq]; exact q1, by rw [← (h3.group hag).eq]; exact q2, q3⟩
    have h4 := h3.insertGroupApp hv' hg1
    split at e
    · rw [Out.pure_done] at e
      cases e
      exact ⟨_, hp, h4, h2⟩
    · rename_i s hs
      obtain ⟨hgs, hVs⟩ := L.swap _ _ hg hs
      simp only [Out.bind_done, Prod.exists] at e
      obtain ⟨sid, g2, e2, e⟩ := e
      rw [Out.pure_done] at e
      cases e
      obtain ⟨T', hT', h5, h6⟩ := hins h4 hgs e2
      have h7 := getElem?_prefix hT' h2
      exact ⟨T', hp.trans hT', h5.push ⟨_, vals_of_term h7, by rw [vals_of_term h6, hVs]⟩, h7⟩

theorem insertTerm_app (ω : HashOrder) (fuel : Nat) (f a : Term) (g : EGraph) :
    insertTerm ω (fuel + 1) (.app f a) g = (do
      let r1 ← insertTerm ω fuel f g
      let r2 ← insertTerm ω fuel a r1.2
      let r3 ← insertApplication (insertTerm ω fuel) r2.2 r1.1 r2.1
      let g ← process ω fuel r3.2
      return (r3.1, g)) := by
  rw [insertTerm]

theorem insertTerm_atom (ω : HashOrder) (fuel : Nat) (a : Atom) (g : EGraph) :
    insertTerm ω (fuel + 1) (.atom a) g = (do
      let g' ← process ω fuel (g.insertAtom a).2
      return ((g.insertAtom a).1, g')) := rfl

theorem insertTerm_bind (ω : HashOrder) (fuel : Nat) (b : Binder) (x y : Term) (g : EGraph) :
    insertTerm ω (fuel + 1) (.bind b x y) g = (do
      let g' ← process ω fuel (g.insertOpaque (.bind b x y)).2
      return ((g.insertOpaque (.bind b x y)).1, g')) := rfl

theorem Sound.insertTerm (L : Laws V ap Good) (ω : HashOrder) : ∀ (fuel : Nat) {T : List Term}
    {g : EGraph} {t : Term} {r : Nat × EGraph}, Sound V ap Good T g → Good t →
    insertTerm ω fuel t g = .done r → Grown V ap Good T r t := by
  intro fuel
  induction fuel with
  | zero => intro T g t r h hg e; cases e
  | succ fuel ih =>
    intro T g t r h hg e
    cases t with
    | atom a =>
      rw [insertTerm_atom] at e
      simp only [Out.bind_done, Out.pure_done] at e
      obtain ⟨g1, e1, rfl⟩ := e
      obtain ⟨T', hp, h1, h2⟩ := h.insertAtom hg
      exact ⟨T', hp, Sound.process ω _ h1 e1, h2⟩
    | bind b x y =>
      rw [insertTerm_bind] at e
      simp only [Out.bind_done, Out.pure_done] at e
      obtain ⟨g1, e1, rfl⟩ := e
      obtain ⟨T', hp, h1, h2⟩ := h.insertOpaque hg
      exact ⟨T', hp, Sound.process ω _ h1 e1, h2⟩
    | app f a =>
      rw [insertTerm_app] at e
      simp only [Out.bind_done, Out.pure_done] at e
      obtain ⟨r1, e1, r2, e2, r3, e3, g1, e4, rfl⟩ := e
      obtain ⟨hgf, hga⟩ := L.good f a hg
      obtain ⟨T1, p1, h1, q1⟩ := ih h hgf e1
      obtain ⟨T2, p2, h2, q2⟩ := ih h1 hga e2
      obtain ⟨T3, p3, h3, q3⟩ := Sound.insertApplication L h2 (fun h hg e => ih h hg e)
        (getElem?_prefix p2 q1) q2 hg e3
      exact ⟨T3, (p1.trans p2).trans p3, Sound.process ω _ h3 e4, q3⟩

/-- A literal between well-formed terms. -/
def GoodLit (Good : Term → Prop) (l : Literal) : Prop := Good l.left ∧ Good l.right

/-- Truth of a literal. -/
def LitT (V : Term → D) (l : Literal) : Prop :=
  if l.positive then V l.left = V l.right else V l.left ≠ V l.right

theorem litV_of_terms {a b ag bg : Nat} {l : Literal} (ha : T[a]? = some l.left)
    (hb : T[b]? = some l.right) (hag : EqV (vals V T) a ag) (hbg : EqV (vals V T) b bg) :
    LitV (vals V T) (GLit.new ag bg l.positive) ↔ LitT V l := by
  rw [litV_new]
  have h1 : vals V T ag = some (V l.left) := by rw [← hag.eq]; exact vals_of_term ha
  have h2 : vals V T bg = some (V l.right) := by rw [← hbg.eq]; exact vals_of_term hb
  simp only [LitV, LitT, EqV, NeV, h1, h2]
  cases l.positive with
  | true => simp [eq_comm]
  | false => simp

theorem Sound.pair (L : Laws V ap Good) (ω : HashOrder) (fuel : Nat) (h : Sound V ap Good T g)
    {s t : Term} (hs : Good s) (ht : Good t) {r1 r2 : Nat × EGraph}
    (e1 : EGraph.insertTerm ω fuel s g = .done r1) (e2 : EGraph.insertTerm ω fuel t r1.2 = .done r2) :
    ∃ T', T <+: T' ∧ Sound V ap Good T' r2.2 ∧ T'[r1.1]? = some s ∧ T'[r2.1]? = some t := by
  obtain ⟨T1, p1, h1, q1⟩ := Sound.insertTerm L ω _ h hs e1
  obtain ⟨T2, p2, h2, q2⟩ := Sound.insertTerm L ω _ h1 ht e2
  exact ⟨T2, p1.trans p2, h2, getElem?_prefix p2 q1, q2⟩

theorem litV_ext_iff {T T' : List Term} (hp : T <+: T') {l : GLit}
    (hd : (∃ d, vals V T l.left = some d) ∧ ∃ d, vals V T l.right = some d) :
    LitV (vals V T) l ↔ LitV (vals V T') l := by
  obtain ⟨⟨d, h1⟩, e, h2⟩ := hd
  have h1' := vals_ext hp _ _ h1
  have h2' := vals_ext hp _ _ h2
  simp only [LitV, EqV, NeV, h1, h2, h1', h2']

theorem Sound.litIds (L : Laws V ap Good) (ω : HashOrder) (fuel : Nat) : ∀ (ls : List Literal)
    {T : List Term} {g : EGraph} {r : List GLit × EGraph}, Sound V ap Good T g →
    (∀ l ∈ ls, GoodLit Good l) → litIds ω fuel ls g = .done r →
    ∃ T', T <+: T' ∧ Sound V ap Good T' r.2 ∧
      (ClauseV (vals V T') r.1 ↔ ∃ l ∈ ls, LitT V l) ∧
      ∀ l ∈ r.1, (∃ d, vals V T' l.left = some d) ∧ ∃ d, vals V T' l.right = some d := by
  intro ls
  induction ls with
  | nil =>
    intro T g r h _ e
    cases e
    exact ⟨T, List.prefix_refl _, h, by simp [ClauseV], by simp⟩
  | cons l ls ih =>
    intro T g r h hg e
    simp only [EGraph.litIds, Out.bind_done, Out.pure_done, Out.ofOption_done] at e
    obtain ⟨r1, e1, r2, e2, ag, hag, bg, hbg, r3, e3, rfl⟩ := e
    obtain ⟨gl, gr⟩ := hg l List.mem_cons_self
    obtain ⟨T1, p1, h1, qa, qb⟩ := Sound.pair L ω fuel h gl gr e1 e2
    obtain ⟨T2, p2, h2, hc, hd⟩ := ih h1 (fun m hm => hg m (List.mem_cons_of_mem _ hm)) e3
    have hlit := litV_of_terms (V := V) qa qb (h1.group hag) (h1.group hbg)
    have hdl : (∃ d, vals V T1 (GLit.new ag bg l.positive).left = some d) ∧
        ∃ d, vals V T1 (GLit.new ag bg l.positive).right = some d := by
      obtain ⟨d, _, q1⟩ := h1.group hag
      obtain ⟨d', _, q2⟩ := h1.group hbg
      simp only [GLit.new]
      split
      · exact ⟨⟨d, q1⟩, d', q2⟩
      · exact ⟨⟨d', q2⟩, d, q1⟩
    refine ⟨T2, p1.trans p2, h2, ?_, ?_⟩
    · rw [litV_ext_iff p2 hdl] at hlit
      simp only [ClauseV, List.mem_cons, exists_eq_or_imp] at hc ⊢
      rw [hlit, hc]
    · intro m hm
      rcases List.mem_cons.1 hm with rfl | hm
      · obtain ⟨⟨d, q1⟩, d', q2⟩ := hdl
        exact ⟨⟨d, vals_ext p2 _ _ q1⟩, d', vals_ext p2 _ _ q2⟩
      · exact hd m hm

theorem Sound.setTermsEqual (ω : HashOrder) (fuel : Nat) (h : Sound V ap Good T g) {a b p : Nat}
    {i : Option Nat} (hE : EqV (vals V T) a b) (e : setTermsEqual ω fuel g a b p i = .done g') :
    Sound V ap Good T g' := Sound.process ω _ (h.push (op := .rewrite ⟨p, i, a, b⟩) hE) e

theorem Sound.setTermsNotEqual (ω : HashOrder) (fuel : Nat) (h : Sound V ap Good T g) {a b s : Nat}
    (hN : NeV (vals V T) a b) (e : setTermsNotEqual ω fuel g a b s = .done g') :
    Sound V ap Good T g' := Sound.process ω _ (h.push (op := .neq a b s) hN) e

theorem Sound.insertClause (L : Laws V ap Good) (ω : HashOrder) (fuel : Nat)
    (h : Sound V ap Good T g) {ls : List Literal} {step : Nat} (hg : ∀ l ∈ ls, GoodLit Good l)
    (ht : ∃ l ∈ ls, LitT V l) (e : insertClause ω fuel g ls step = .done g') :
    ∃ T', T <+: T' ∧ Sound V ap Good T' g' := by
  simp only [EGraph.insertClause] at e
  split at e
  · rename_i l
    obtain ⟨gl, gr⟩ := hg l List.mem_cons_self
    obtain ⟨l', hl', ht⟩ := ht
    rw [List.mem_singleton] at hl'; subst hl'
    simp only [Out.bind_done] at e
    obtain ⟨r1, e1, r2, e2, e⟩ := e
    obtain ⟨T1, p1, h1, qa, qb⟩ := Sound.pair L ω fuel h gl gr e1 e2
    have ha := vals_of_term (V := V) qa
    have hb := vals_of_term (V := V) qb
    refine ⟨T1, p1, ?_⟩
    split at e
    · rename_i hp
      simp only [LitT, hp, if_true] at ht
      exact Sound.setTermsEqual ω fuel h1 ⟨_, ha, by rw [hb, ht]⟩ e
    · rename_i hp
      simp only [LitT, hp] at ht
      exact Sound.setTermsNotEqual ω fuel h1 ⟨_, _, ha, hb, ht⟩ e
  · simp only [Out.bind_done] at e
    obtain ⟨r, e1, e⟩ := e
    obtain ⟨T1, p1, h1, hc, hd⟩ := Sound.litIds L ω fuel _ h hg e1
    have hn := (hc.2 ht).new
    refine ⟨T1, p1, ?_⟩
    split at e
    · exact Sound.process ω _ h1 e
    · rename_i e'; exact absurd e' hn.1
    · rename_i c e'
      exact Sound.process ω _ (h1.push (op := .clause c) (hn.2 c e')) e

theorem Sound.evaluateLiteral (L : Laws V ap Good) (ω : HashOrder) (fuel : Nat)
    (h : Sound V ap Good T g) {l : Literal} (hg : GoodLit Good l) {r : Option Bool × EGraph}
    (e : evaluateLiteral ω fuel g l = .done r) :
    (∃ T', T <+: T' ∧ Sound V ap Good T' r.2) ∧ ∀ b, r.1 = some b → (LitT V l ↔ b = true) := by
  simp only [EGraph.evaluateLiteral] at e
  split at e
  · cases e; exact ⟨⟨T, List.prefix_refl _, h⟩, by simp⟩
  · simp only [Out.bind_done, Out.ofOption_done] at e
    obtain ⟨r1, e1, r2, e2, ag, hag, bg, hbg, e⟩ := e
    obtain ⟨T1, p1, h1, qa, qb⟩ := Sound.pair L ω fuel h hg.1 hg.2 e1 e2
    have ha := vals_of_term (V := V) qa
    have hb := vals_of_term (V := V) qb
    split at e
    · rename_i hab; subst hab
      rw [Out.pure_done] at e
      cases e
      refine ⟨⟨T1, p1, h1⟩, ?_⟩
      intro b hb'
      cases hb'
      have : V l.left = V l.right := by
        have := ((h1.group hag).trans (h1.group hbg).symm).eq
        rw [ha, hb] at this; exact Option.some.inj this
      cases hp : l.positive <;> simp [LitT, hp, this]
    · simp only [Out.bind_done, Out.ofOption_done] at e
      obtain ⟨i, hi, e⟩ := e
      split at e
      · rename_i hc
        rw [Out.pure_done] at e
        cases e
        refine ⟨⟨T1, p1, h1⟩, ?_⟩
        intro b hb'
        cases hb'
        obtain ⟨v, hv⟩ := AMap.contains_iff.1 hc
        have : V l.left ≠ V l.right := by
          intro he
          refine (h1.ineqs _ _ hi _ _ hv).not_eq ?_
          rw [← (h1.group hag).eq, ← (h1.group hbg).eq, ha, hb, he]
        cases hp : l.positive <;> simp [LitT, hp, this]
      · rw [Out.pure_done] at e
        cases e
        exact ⟨⟨T1, p1, h1⟩, by simp⟩

theorem Sound.clauseExists (L : Laws V ap Good) (ω : HashOrder) (fuel : Nat)
    (h : Sound V ap Good T g) {ls : List Literal} (hg : ∀ l ∈ ls, GoodLit Good l)
    {r : Bool × EGraph} (e : clauseExists ω fuel g ls = .done r) :
    (∃ T', T <+: T' ∧ Sound V ap Good T' r.2) ∧ (r.1 = true → ∃ l ∈ ls, LitT V l) := by
  simp only [EGraph.clauseExists] at e
  split at e
  · cases e; exact ⟨⟨T, List.prefix_refl _, h⟩, by simp⟩
  split at e
  · cases e; exact ⟨⟨T, List.prefix_refl _, h⟩, by simp⟩
  · simp only [Out.bind_done] at e
    obtain ⟨r1, e1, e⟩ := e
    obtain ⟨T1, p1, h1, hc, hd⟩ := Sound.litIds L ω fuel _ h hg e1
    have hn := ClauseV.of_new hd
    split at e
    · rename_i e'
      rw [Out.pure_done] at e; cases e
      exact ⟨⟨T1, p1, h1⟩, fun _ => hc.1 (hn.1 e')⟩
    · rw [Out.pure_done] at e; cases e
      refine ⟨⟨T1, p1, h1⟩, fun hh => ?_⟩
      have hh : r1.2.contra = true := hh
      rw [h1.contra] at hh; cases hh
    · rename_i c e'
      rw [Out.pure_done] at e; cases e
      refine ⟨⟨T1, p1, h1⟩, fun hh => ?_⟩
      have hm : c ∈ r1.2.cset.clauses := by simpa [ClauseSet.contains] using hh
      exact hc.1 (hn.2 c e' (h1.clauses c hm))

theorem Sound.anyTrue (L : Laws V ap Good) (ω : HashOrder) (fuel : Nat) : ∀ (ls : List Literal)
    {T : List Term} {g : EGraph} {r : Bool × EGraph}, Sound V ap Good T g →
    (∀ l ∈ ls, GoodLit Good l) → anyTrue ω fuel ls g = .done r →
    (∃ T', T <+: T' ∧ Sound V ap Good T' r.2) ∧ (r.1 = true → ∃ l ∈ ls, LitT V l) := by
  intro ls
  induction ls with
  | nil => intro T g r h _ e; cases e; exact ⟨⟨T, List.prefix_refl _, h⟩, by simp⟩
  | cons l ls ih =>
    intro T g r h hg e
    simp only [EGraph.anyTrue, Out.bind_done] at e
    obtain ⟨r1, e1, e⟩ := e
    obtain ⟨⟨T1, p1, h1⟩, q⟩ := Sound.evaluateLiteral L ω fuel h (hg l List.mem_cons_self) e1
    split at e
    · rename_i hr
      rw [Out.pure_done] at e; cases e
      exact ⟨⟨T1, p1, h1⟩, fun _ => ⟨l, List.mem_cons_self, (q true hr).2 rfl⟩⟩
    · obtain ⟨⟨T2, p2, h2⟩, q2⟩ := ih h1 (fun m hm => hg m (List.mem_cons_of_mem _ hm)) e
      refine ⟨⟨T2, p1.trans p2, h2⟩, fun hh => ?_⟩
      obtain ⟨m, hm, hv⟩ := q2 hh
      exact ⟨m, List.mem_cons_of_mem _ hm, hv⟩

theorem Sound.checkClause (L : Laws V ap Good) (ω : HashOrder) (fuel : Nat)
    (h : Sound V ap Good T g) {ls : List Literal} (hg : ∀ l ∈ ls, GoodLit Good l)
    {r : Bool × EGraph} (e : checkClause ω fuel g ls = .done r) :
    (∃ T', T <+: T' ∧ Sound V ap Good T' r.2) ∧ (r.1 = true → ∃ l ∈ ls, LitT V l) := by
  simp only [EGraph.checkClause] at e
  split at e
  · rename_i hc; rw [h.contra] at hc; cases hc
  · simp only [Out.bind_done] at e
    obtain ⟨r1, e1, e⟩ := e
    obtain ⟨⟨T1, p1, h1⟩, q⟩ := Sound.anyTrue L ω fuel _ h hg e1
    split at e
    · rename_i hb
      rw [Out.pure_done] at e; cases e
      exact ⟨⟨T1, p1, h1⟩, fun _ => q hb⟩
    · obtain ⟨⟨T2, p2, h2⟩, q2⟩ := Sound.clauseExists L ω fuel h1 hg e
      exact ⟨⟨T2, p1.trans p2, h2⟩, q2⟩

end EGraph
end Acorn
