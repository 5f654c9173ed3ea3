/-
What the parser reads: no token but newlines is lost, added or reordered; and it always comes to an end.
-/
import Verif.Lemmas.ExpressionParse
namespace Acorn.Parse

open Scan Spec

/-! ### Reading a part of the tokens -/

/-- The tokens without the newlines. -/
def clean (ts : List Lex) : List Lex := ts.filter fun t => decide (t.ty ≠ .newLine)

/-- From `ts` the tokens `out` were read, and `rest` is left. -/
def Took (ts rest out : List Lex) : Prop :=
  ∃ used, ts = used ++ rest ∧ (clean used).map Lex.ty = out.map Lex.ty ∧ ((∀ t ∈ used, Genuine t) → clean used = out)

theorem Took.refl (ts : List Lex) : Took ts ts [] := ⟨[], rfl, rfl, fun _ => rfl⟩

theorem Took.trans {a b c x y : List Lex} (h1 : Took a b x) (h2 : Took b c y) : Took a c (x ++ y) := by
  obtain ⟨u, rfl, t1, g1⟩ := h1
  obtain ⟨v, rfl, t2, g2⟩ := h2
  refine ⟨u ++ v, by simp, ?_, fun h => ?_⟩
  · unfold clean at *
    rw [List.filter_append, List.map_append, List.map_append, t1, t2]
  · unfold clean at *
    rw [List.filter_append, g1 fun t ht => h t (List.mem_append_left _ ht), g2 fun t ht => h t (List.mem_append_right _ ht)]

theorem Took.cast {a b x y : List Lex} (h : Took a b x) (e : x = y) : Took a b y := e ▸ h

theorem Took.length {a b x : List Lex} (h : Took a b x) : b.length ≤ a.length := by
  obtain ⟨u, rfl, -⟩ := h
  simp

theorem Took.tok {t : Lex} (ts : List Lex) (h : t.ty ≠ .newLine) : Took (t :: ts) ts [t] :=
  ⟨[t], rfl, by simp [clean, h], fun _ => by simp [clean, h]⟩

theorem Took.gen {t : Lex} (ts : List Lex) {k : Tk} (hk : t.ty = k) (h : k ≠ .newLine ∧ k ≠ .identifier ∧ k ≠ .numeral) :
    Took (t :: ts) ts [gen k] := by
  refine ⟨[t], rfl, by simp [clean, hk, h.1], fun hg => ?_⟩
  rcases hg t (by simp) with h' | h' | h'
  · exact absurd (hk.symm.trans h') h.2.1
  · exact absurd (hk.symm.trans h') h.2.2
  · rw [hk] at h'
    simp only [clean, List.filter_cons, List.filter_nil, hk, ne_eq, h.1, not_false_eq_true, decide_true, if_true]
    rw [h']

theorem Took.newline {t : Lex} (ts : List Lex) (h : t.ty = .newLine) : Took (t :: ts) ts [] :=
  ⟨[t], rfl, by simp [clean, h], fun _ => by simp [clean, h]⟩

theorem Took.skip : ∀ ts : List Lex, Took ts (skipNewlines ts) []
  | [] => .refl _
  | t :: ts => by
    rw [skipNewlines]
    split
    · next h => exact (Took.newline ts h).trans (Took.skip ts)
    · exact .refl _

theorem bind_ok {α β : Type} {x : Res α} {f : α → Res β} {b : β} (h : (x >>= f) = .ok b) : ∃ a, x = .ok a ∧ f a = .ok b := by
  cases x with
  | error e => cases h
  | ok a => exact ⟨a, rfl, h⟩

theorem ite_ok {α : Type} {c : Prop} [Decidable c] {a b : Res α} {x : α} (h : (if c then a else b) = .ok x) :
    (c ∧ a = .ok x) ∨ (¬ c ∧ b = .ok x) := by
  by_cases hc : c
  · rw [if_pos hc] at h; exact .inl ⟨hc, h⟩
  · rw [if_neg hc] at h; exact .inr ⟨hc, h⟩

/-- What a parser may do. -/
def Reads (p : Parser) : Prop :=
  ∀ m term ts e t rest, p m term ts = .ok (e, t, rest) → Took ts (t :: rest) (toks e) ∧ term t.ty = true

/-- A parser with a fixed last token. -/
theorem Reads.until {p : Parser} (hp : Reads p) {m : Mode} {k : Tk} {ts rest : List Lex} {e : Expr} {t : Lex}
    (hk : k ≠ .newLine ∧ k ≠ .identifier ∧ k ≠ .numeral) (h : p m (· = k) ts = .ok (e, t, rest)) :
    Took ts rest (toks e ++ [Parse.gen k]) := by
  obtain ⟨h1, h2⟩ := hp _ _ _ _ _ _ h
  exact h1.trans (.gen rest (of_decide_eq_true h2) hk)

theorem expect_took {k : Tk} {ts rest : List Lex} {t : Lex} (hk : k ≠ .newLine ∧ k ≠ .identifier ∧ k ≠ .numeral)
    (h : expect k ts = .ok (t, rest)) : Took ts rest [gen k] := by
  cases ts with
  | nil => cases h
  | cons u us =>
    rw [expect] at h
    split at h
    · next hu => cases h; exact .gen _ hu hk
    · cases h

theorem expect_name {ts rest : List Lex} {t : Lex} (h : expect .identifier ts = .ok (t, rest)) : Took ts rest [t] := by
  cases ts with
  | nil => cases h
  | cons u us =>
    rw [expect] at h
    split at h
    · next hu => cases h; exact .tok _ (by rw [hu]; decide)
    · cases h

theorem variableName_took {ts rest : List Lex} {t : Lex} (h : variableName ts = .ok (t, rest)) : Took ts rest [t] := by
  cases ts with
  | nil => cases h
  | cons u us =>
    rw [variableName] at h
    split at h
    · next hu => cases h; exact .tok _ (by rw [hu]; decide)
    · split at h
      · next hu =>
        have ht : Took (u :: us) us [u] := .tok _ (by rw [hu]; decide)
        split at h
        · cases h
        · split at h
          · cases h; exact ht
          · cases h
      · cases h

theorem peek_took {k : Tk} {ts : List Lex} (hk : k ≠ .newLine ∧ k ≠ .identifier ∧ k ≠ .numeral) (h : peekIs k ts = true) :
    Took ts (ts.drop 1) [gen k] := by
  cases ts with
  | nil => cases h
  | cons u us => exact .gen _ (of_decide_eq_true h) hk

theorem valueBlock_took {p : Parser} (hp : Reads p) {ts rest : List Lex} {e : Expr} (h : valueBlock p ts = .ok (e, rest)) :
    Took ts rest (toks e ++ [gen .rightBrace]) := by
  unfold valueBlock at h
  dsimp only at h
  split at h
  · cases h
  · obtain ⟨⟨e', t, ts'⟩, h1, h2⟩ := bind_ok h
    cases h2
    exact (Took.skip ts).trans (hp.until (by decide) h1)

theorem declLoop_took {p : Parser} (hp : Reads p) : ∀ (n : Nat) {ts rest : List Lex} {ds : Decls},
    declLoop p n ts = .ok (ds, rest) → ds ≠ .nil ∧ Took ts rest (declToks ds ++ [gen .rightParen])
  | 0, _, _, _, h => by cases h
  | n + 1, ts, rest, ds, h => by
    rw [declLoop] at h
    obtain ⟨⟨name, ts1⟩, h1, h⟩ := bind_ok h
    have k1 := variableName_took h1
    dsimp only at h
    split at h
    · cases ts1 with
      | nil => cases h
      | cons t ts2 =>
        dsimp only at h
        split at h
        · cases h
        split at h
        · cases h
        next hcp =>
        split at h
        · next hr =>
          cases h
          refine ⟨by simp, (k1.trans (.gen _ hr (by decide))).cast ?_⟩
          rw [declToks_self, moreDeclToks_nil, List.cons_append, List.nil_append]
        · next hr =>
          obtain ⟨⟨ds', ts3⟩, h2, h⟩ := bind_ok h
          cases h
          have hc : t.ty = .comma := by
            simp only [commaOrParen, Bool.not_eq_true', Bool.not_eq_false', Bool.or_eq_true, decide_eq_true_eq, Bool.not_eq_false] at hcp
            rcases hcp with h | h
            · exact h
            · exact absurd h hr
          obtain ⟨hne, k2⟩ := declLoop_took hp n h2
          refine ⟨by simp, (k1.trans ((Took.gen _ hc (by decide)).trans ((Took.skip _).trans k2))).cast ?_⟩
          rw [declToks_self, moreDeclToks_ne hne]
          simp
    · obtain ⟨⟨_, ts2⟩, h2, h⟩ := bind_ok h
      have k2 := expect_took (by decide) h2
      obtain ⟨⟨type, t, ts3⟩, h3, h⟩ := bind_ok h
      obtain ⟨k3, hcp⟩ := hp _ _ _ _ _ _ h3
      dsimp only at h
      split at h
      · next hr =>
        cases h
        refine ⟨by simp, (k1.trans (k2.trans (k3.trans (.gen _ hr (by decide))))).cast ?_⟩
        rw [declToks_typed, moreDeclToks_nil]
        simp
      · next hr =>
        obtain ⟨⟨ds', ts4⟩, h4, h⟩ := bind_ok h
        cases h
        have hc : t.ty = .comma := by
          simp [commaOrParen] at hcp
          rcases hcp with h | h
          · exact h
          · exact absurd h hr
        obtain ⟨hne, k4⟩ := declLoop_took hp n h4
        refine ⟨by simp, (k1.trans (k2.trans (k3.trans ((Took.gen _ hc (by decide)).trans ((Took.skip _).trans k4))))).cast ?_⟩
        rw [declToks_typed, moreDeclToks_ne hne]
        simp

theorem parseDecls_took {p : Parser} (hp : Reads p) {ts rest : List Lex} {ds : Decls} (h : parseDecls p ts = .ok (ds, rest)) :
    Took ts rest (declToks ds ++ [gen .rightParen]) := by
  unfold parseDecls at h
  have k := Took.skip ts
  split at h
  · cases h
  · next t ts' e =>
    rw [e] at k
    split at h
    · next hr =>
      cases h
      exact (k.trans (.gen _ hr (by decide))).cast (by rw [declToks_nil])
    · exact k.trans (declLoop_took hp _ h).2

theorem paramInner_took {p : Parser} (hp : Reads p) {ts rest : List Lex} {o : OptExpr} (h : paramInner p ts = .ok (o, rest)) :
    Took ts rest (innerToks o) := by
  unfold paramInner at h
  split at h
  · next hk =>
    split at h
    · cases h
    · next h1 =>
      cases h
      exact ((peek_took (by decide) hk).trans (hp.until (by decide) h1)).cast (by rw [innerToks]; simp)
  · cases h; exact .refl _

theorem paramClass_took {p : Parser} (hp : Reads p) {close : Tk} {ts rest : List Lex} {o : OptExpr} {t : Lex}
    (h : paramClass p close ts = .ok (o, t, rest)) : Took ts (t :: rest) (classToks o) := by
  cases ts with
  | nil => cases h
  | cons u us =>
    rw [paramClass] at h
    split at h
    · next hk =>
      split at h
      · cases h
      · next h1 =>
        cases h
        exact ((Took.gen _ hk (by decide)).trans (hp _ _ _ _ _ _ h1).1).cast (by rw [classToks]; rfl)
    · cases h; exact .refl _

theorem paramLoop_took {p : Parser} (hp : Reads p) {close : Tk} (hclose : close = .rightBracket ∨ close = .greaterThan) :
    ∀ (n : Nat) {ts rest : List Lex} {ps : TParams},
    paramLoop p close n ts = .ok (ps, rest) → ps ≠ .nil ∧ Took ts rest (paramToks ps ++ [gen close])
  | 0, _, _, _, h => by cases h
  | n + 1, ts, rest, ps, h => by
    rw [paramLoop] at h
    obtain ⟨⟨name, ts1⟩, h1, h⟩ := bind_ok h
    have k1 := expect_name h1
    obtain ⟨⟨inner, ts2⟩, h2, h⟩ := bind_ok h
    have k2 := paramInner_took hp h2
    obtain ⟨⟨cls, t, ts3⟩, h3, h⟩ := bind_ok h
    have k3 := paramClass_took hp h3
    dsimp only at h
    split at h
    · next hr =>
      cases h
      refine ⟨by simp, (k1.trans (k2.trans (k3.trans (.gen _ hr (by rcases hclose with rfl | rfl <;> decide))))).cast ?_⟩
      rw [paramToks_cons, moreParamToks_nil]
      simp
    · split at h
      · next hc =>
        obtain ⟨⟨ps', ts4⟩, h4, h⟩ := bind_ok h
        cases h
        obtain ⟨hne, k4⟩ := paramLoop_took hp hclose n h4
        refine ⟨by simp, (k1.trans (k2.trans (k3.trans ((Took.gen _ hc (by decide)).trans k4)))).cast ?_⟩
        rw [paramToks_cons, moreParamToks_ne hne]
        simp
      · cases h

/-- The tokens of a list of type parameters with its delimiters. -/
def listToks : Option (Bool × TParams) → List Lex
  | none => []
  | some (angle, ps) => gen (paramDelim angle).left :: (paramToks ps ++ [gen (paramDelim angle).right])

theorem parseParams_took {p : Parser} (hp : Reads p) {ts rest : List Lex} {o : Option (Bool × TParams)}
    (h : parseParams p ts = .ok (o, rest)) : Took ts rest (listToks o) := by
  unfold parseParams at h
  split at h
  · next hk =>
    obtain ⟨⟨ps, ts1⟩, h1, h⟩ := bind_ok h
    cases h
    exact ((peek_took (by decide) hk).trans (paramLoop_took hp (.inl rfl) _ h1).2).cast rfl
  · split at h
    · next hk =>
      obtain ⟨⟨ps, ts1⟩, h1, h⟩ := bind_ok h
      cases h
      exact ((peek_took (by decide) hk).trans (paramLoop_took hp (.inr rfl) _ h1).2).cast rfl
    · cases h; exact .refl _

theorem binderParams_took {p : Parser} (hp : Reads p) {kw : Tk} {ts rest : List Lex} {o : Option (Bool × TParams)}
    (h : binderParams p kw ts = .ok (o, rest)) : Took ts rest (listToks o) := by
  unfold binderParams at h
  split at h
  · exact parseParams_took hp h
  · cases h; exact .refl _

theorem parseBinder_took {p : Parser} (hp : Reads p) {kw : Tk} {ts rest : List Lex} {e : Expr} (h : parseBinder p kw ts = .ok (e, rest)) :
    ∃ out, toks e = gen kw :: out ∧ Took ts rest out := by
  unfold parseBinder at h
  obtain ⟨⟨o, ts1⟩, h1, h⟩ := bind_ok h
  have k1 := binderParams_took hp h1
  cases o with
  | none =>
    dsimp only at h
    obtain ⟨⟨_, ts2⟩, h2, h⟩ := bind_ok h
    have k2 := expect_took (by decide) h2
    obtain ⟨⟨args, ts3⟩, h3, h⟩ := bind_ok h
    have k3 := parseDecls_took hp h3
    obtain ⟨⟨_, ts4⟩, h4, h⟩ := bind_ok h
    have k4 := expect_took (by decide) h4
    obtain ⟨⟨body, ts5⟩, h5, h⟩ := bind_ok h
    have k5 := valueBlock_took hp h5
    cases h
    exact ⟨_, toks_binder_plain _ _ _ _, (k1.trans (k2.trans (k3.trans (k4.trans k5)))).cast (by simp [listToks, argToks, blockToks])⟩
  | some o =>
    obtain ⟨angle, ps⟩ := o
    dsimp only at h
    split at h
    · obtain ⟨⟨_, ts4⟩, h4, h⟩ := bind_ok h
      have k4 := expect_took (by decide) h4
      obtain ⟨⟨body, ts5⟩, h5, h⟩ := bind_ok h
      have k5 := valueBlock_took hp h5
      cases h
      exact ⟨_, toks_binder_generic _ _ _ _ _ _, (k1.trans (k4.trans k5)).cast (by simp [listToks, blockToks])⟩
    · obtain ⟨⟨_, ts2⟩, h2, h⟩ := bind_ok h
      have k2 := expect_took (by decide) h2
      obtain ⟨⟨args, ts3⟩, h3, h⟩ := bind_ok h
      have k3 := parseDecls_took hp h3
      obtain ⟨⟨_, ts4⟩, h4, h⟩ := bind_ok h
      have k4 := expect_took (by decide) h4
      obtain ⟨⟨body, ts5⟩, h5, h⟩ := bind_ok h
      have k5 := valueBlock_took hp h5
      cases h
      exact ⟨_, toks_binder_generic _ _ _ _ _ _,
        (k1.trans (k2.trans (k3.trans (k4.trans k5)))).cast (by simp [listToks, argToks, blockToks])⟩

theorem parseIf_took {p : Parser} (hp : Reads p) {ts rest : List Lex} {e : Expr} (h : parseIf p ts = .ok (e, rest)) :
    ∃ out, toks e = gen (.keyword "if") :: out ∧ Took ts rest out := by
  unfold parseIf at h
  obtain ⟨⟨cond, _, ts1⟩, h1, h⟩ := bind_ok h
  have k1 := hp.until (by decide) h1
  obtain ⟨⟨yes, ts2⟩, h2, h⟩ := bind_ok h
  have k2 := valueBlock_took hp h2
  dsimp only at h
  split at h
  · next hk =>
    have k3 := peek_took (by decide) hk
    obtain ⟨⟨_, ts4⟩, h4, h⟩ := bind_ok h
    have k4 := expect_took (by decide) h4
    obtain ⟨⟨no, ts5⟩, h5, h⟩ := bind_ok h
    have k5 := valueBlock_took hp h5
    cases h
    exact ⟨_, toks_ite _ _ _, (k1.trans (k2.trans (k3.trans (k4.trans k5)))).cast (by simp [blockToks, elseToks])⟩
  · cases h
    exact ⟨_, toks_ite _ _ _, (k1.trans k2).cast (by simp [blockToks, elseToks])⟩

theorem caseLoop_took {p : Parser} (hp : Reads p) : ∀ (n : Nat) {ts rest : List Lex} {cs : Cases},
    caseLoop p n ts = .ok (cs, rest) → Took ts rest (caseToks cs ++ [gen .rightBrace])
  | 0, _, _, _, h => by cases h
  | n + 1, ts, rest, cs, h => by
    rw [caseLoop] at h
    have k := Took.skip ts
    split at h
    · cases h
    · next t ts' e =>
      rw [e] at k
      split at h
      · next hr =>
        cases h
        exact (k.trans (.gen _ hr (by decide))).cast (by rfl)
      · obtain ⟨⟨pat, _, ts1⟩, h1, h⟩ := bind_ok h
        have k1 := hp.until (by decide) h1
        obtain ⟨⟨body, ts2⟩, h2, h⟩ := bind_ok h
        have k2 := valueBlock_took hp h2
        obtain ⟨⟨more, ts3⟩, h3, h⟩ := bind_ok h
        have k3 := caseLoop_took hp n h3
        cases h
        exact (k.trans (k1.trans (k2.trans k3))).cast (by rw [caseToks_cons]; simp [blockToks])

theorem parseMatch_took {p : Parser} (hp : Reads p) {ts rest : List Lex} {e : Expr} (h : parseMatch p ts = .ok (e, rest)) :
    ∃ out, toks e = gen (.keyword "match") :: out ∧ Took ts rest out := by
  unfold parseMatch at h
  obtain ⟨⟨s, _, ts1⟩, h1, h⟩ := bind_ok h
  have k1 := hp.until (by decide) h1
  obtain ⟨⟨cs, ts2⟩, h2, h⟩ := bind_ok h
  have k2 := caseLoop_took hp _ h2
  dsimp only at h
  split at h
  · cases h
  · cases h
    exact ⟨_, toks_cases _ _, (k1.trans k2).cast (by simp)⟩

/-! ### The rounds -/

/-- The tokens of partial expressions. -/
def partToks : List Partial → List Lex
  | [] => []
  | .expr e :: ps => toks e ++ partToks ps
  | .unary op :: ps => gen op :: partToks ps
  | .postfix op :: ps => gen op :: partToks ps
  | .binary op :: ps => gen op :: partToks ps
  | .implicit :: ps => partToks ps

theorem partToks_append (a b : List Partial) : partToks (a ++ b) = partToks a ++ partToks b := by
  induction a with
  | nil => rfl
  | cons x a ih => cases x <;> simp [partToks, ih]

theorem operatorRef_took {ts rest : List Lex} {t : Lex} (h : operatorRef ts = some (t, rest)) : Took ts rest [t, gen .rightParen] := by
  match ts, h with
  | [], h => cases h
  | [_], h => cases h
  | u :: v :: us, h =>
    rw [operatorRef] at h
    split at h
    · next hc =>
      cases h
      rw [Bool.and_eq_true, decide_eq_true_eq] at hc
      refine ((Took.tok _ ?_).trans (.gen _ hc.2 (by decide))).cast rfl
      intro h
      rw [h] at hc
      exact absurd hc.1 (by decide)
    · cases h

theorem isOperator_plain {t : Tk} (h : isBinary t = true ∨ isUnary t = true ∨ isPostfix t = true) :
    t ≠ .newLine ∧ t ≠ .identifier ∧ t ≠ .numeral := by
  refine ⟨?_, ?_, ?_⟩ <;> (rintro rfl; revert h; decide)

/-- The operators among the partial expressions are what they are said to be. -/
def Formed (ps : List Partial) : Prop :=
  ∀ x ∈ ps, (∀ op, x = .unary op → isPostfix op = false) ∧ (∀ op, x = .postfix op → isPostfix op = true)

theorem Formed.append {a b : List Partial} (ha : Formed a) (hb : Formed b) : Formed (a ++ b) := fun x hx =>
  (List.mem_append.1 hx).elim (ha x) (hb x)

theorem Formed.sub {a b : List Partial} (hb : Formed b) (h : ∀ x ∈ a, x ∈ b) : Formed a := fun x hx => hb x (h x hx)

theorem formed_nil : Formed [] := fun _ hx => by cases hx

theorem formed_one {x : Partial} (h : (∀ op, x = .unary op → isPostfix op = false) ∧ (∀ op, x = .postfix op → isPostfix op = true)) :
    Formed [x] := fun y hy => by rw [List.mem_singleton] at hy; rw [hy]; exact h

theorem formed_expr (e : Expr) : Formed [.expr e] := formed_one ⟨fun _ h => (by cases h), fun _ h => (by cases h)⟩

theorem formed_implicit : Formed [.implicit] := formed_one ⟨fun _ h => (by cases h), fun _ h => (by cases h)⟩

theorem parseParen_took {p : Parser} (hp : Reads p) {m : Mode} {prev : Option Partial} {ts rest : List Lex} {new : List Partial}
    (h : parseParen p m prev ts = .ok (new, rest)) : ∃ out, partToks new = gen .leftParen :: out ∧ Took ts rest out ∧ Formed new := by
  unfold parseParen at h
  dsimp only at h
  have hform : ∀ e, Formed ((if afterExpr prev then [Partial.implicit] else []) ++ [.expr e]) := by
    intro e
    refine Formed.append ?_ (formed_expr e)
    split
    · exact formed_implicit
    · exact formed_nil
  have hpre : ∀ e, partToks ((if afterExpr prev then [Partial.implicit] else []) ++ [.expr e]) = toks e := by
    intro e
    split <;> simp [partToks]
  split at h
  · next t ts' e =>
    injection h with h
    injection h with h1 h2
    subst h1
    subst h2
    have : operatorRef ts = some (t, ts') := by
      split at e
      · exact e
      · cases e
    exact ⟨_, by rw [hpre, toks_group]; rfl, operatorRef_took this, hform _⟩
  · obtain ⟨⟨e', _, ts1⟩, h1, h⟩ := bind_ok h
    cases h
    exact ⟨_, by rw [hpre, toks_group]; rfl, hp.until (by decide) h1, hform _⟩

theorem item_took {p : Parser} (hp : Reads p) {m : Mode} {prev : Option Partial} {t : Lex} {ts rest : List Lex} {new : List Partial}
    (h : item p m prev t ts = .ok (new, rest)) :
    ∃ a b, Took (t :: ts) ts a ∧ Took ts rest b ∧ partToks new = a ++ b ∧ Formed new := by
  unfold item at h
  rcases ite_ok h with ⟨hk, h⟩ | ⟨-, h⟩
  · skip
    obtain ⟨⟨e, _, ts1⟩, h1, h⟩ := bind_ok h
    cases h
    exact ⟨_, _, .gen _ hk (by decide), hp.until (by decide) h1, by simp [partToks, toks_group, Delim.left, Delim.right],
      formed_implicit.append (formed_expr _)⟩
  rcases ite_ok h with ⟨hk, h⟩ | ⟨-, h⟩
  · skip
    obtain ⟨⟨e, _, ts1⟩, h1, h⟩ := bind_ok h
    cases h
    exact ⟨_, _, .gen _ hk.1 (by decide), hp.until (by decide) h1, by simp [partToks, toks_group, Delim.left, Delim.right],
      formed_implicit.append (formed_expr _)⟩
  have hun : isUnary t.ty = true → isPostfix t.ty = false := by
    intro hu
    cases hq : isPostfix t.ty with
    | false => rfl
    | true => rw [isPostfix_iff.1 hq] at hu; exact absurd hu (by decide)
  rcases ite_ok h with ⟨hb, h⟩ | ⟨-, h⟩
  · skip
    rcases ite_ok h with ⟨-, h⟩ | ⟨-, h⟩
    · cases h
    rcases ite_ok h with ⟨hu, h⟩ | ⟨-, h⟩
    · cases h
      rw [Bool.and_eq_true] at hu
      exact ⟨_, _, .gen _ rfl (isOperator_plain (.inl hb)), .refl _, rfl,
        formed_one ⟨fun _ h => (by injection h with h; rw [← h]; exact hun hu.1), fun _ h => (by cases h)⟩⟩
    · cases h
      refine ⟨_, [], .gen _ rfl (isOperator_plain (.inl hb)), ?_, rfl, formed_one ⟨fun _ h => (by cases h), fun _ h => (by cases h)⟩⟩
      split
      · exact .skip _
      · exact .refl _
  rcases ite_ok h with ⟨hb, h⟩ | ⟨-, h⟩
  · skip
    cases h
    exact ⟨_, _, .gen _ rfl (isOperator_plain (.inr (.inl hb))), .refl _, rfl,
      formed_one ⟨fun _ h => (by injection h with h; rw [← h]; exact hun hb), fun _ h => (by cases h)⟩⟩
  rcases ite_ok h with ⟨hb, h⟩ | ⟨-, h⟩
  · skip
    cases h
    exact ⟨_, _, .gen _ rfl (isOperator_plain (.inr (.inr hb))), .refl _, rfl,
      formed_one ⟨fun _ h => (by cases h), fun _ h => (by injection h with h; rw [← h]; exact hb)⟩⟩
  rcases ite_ok h with ⟨hk, h⟩ | ⟨-, h⟩
  · skip
    obtain ⟨out, e, k, hf⟩ := parseParen_took hp h
    exact ⟨_, _, .gen _ hk (by decide), k, e, hf⟩
  rcases ite_ok h with ⟨hk, h⟩ | ⟨-, h⟩
  · skip
    cases h
    exact ⟨_, _, .tok _ (by intro e; rw [e] at hk; exact absurd hk (by decide)), .refl _, rfl, formed_expr _⟩
  rcases ite_ok h with ⟨hk, h⟩ | ⟨-, h⟩
  · skip
    rcases ite_ok h with ⟨-, h⟩ | ⟨-, h⟩
    · cases h
    · cases h
      exact ⟨_, _, .tok _ (by intro e; rw [e] at hk; exact absurd hk (by decide)), .refl _, rfl, formed_expr _⟩
  rcases ite_ok h with ⟨hk, h⟩ | ⟨-, h⟩
  · skip
    rcases ite_ok h with ⟨-, h⟩ | ⟨-, h⟩
    · cases h
    · obtain ⟨⟨e, ts1⟩, h1, h⟩ := bind_ok h
      cases h
      obtain ⟨out, e', k⟩ := parseBinder_took hp h1
      refine ⟨_, _, .gen _ rfl ?_, k, by rw [partToks, partToks, e', List.append_nil]; rfl, formed_expr _⟩
      refine ⟨?_, ?_, ?_⟩ <;> (intro e; rw [e] at hk; exact absurd hk (by decide))
  rcases ite_ok h with ⟨hk, h⟩ | ⟨-, h⟩
  · skip
    rcases ite_ok h with ⟨-, h⟩ | ⟨-, h⟩
    · cases h
    · obtain ⟨⟨e, ts1⟩, h1, h⟩ := bind_ok h
      cases h
      obtain ⟨out, e', k⟩ := parseIf_took hp h1
      exact ⟨_, _, .gen _ hk (by decide), k, by rw [partToks, partToks, e', List.append_nil]; rfl, formed_expr _⟩
  rcases ite_ok h with ⟨hk, h⟩ | ⟨-, h⟩
  · skip
    rcases ite_ok h with ⟨-, h⟩ | ⟨-, h⟩
    · cases h
      exact ⟨_, _, .tok _ (by rw [hk]; decide), .refl _, rfl, formed_expr _⟩
    rcases ite_ok h with ⟨-, h⟩ | ⟨-, h⟩
    · cases h
    · obtain ⟨⟨e, ts1⟩, h1, h⟩ := bind_ok h
      cases h
      obtain ⟨out, e', k⟩ := parseMatch_took hp h1
      exact ⟨_, _, .gen _ hk (by decide), k, by rw [partToks, partToks, e', List.append_nil]; rfl, formed_expr _⟩
  rcases ite_ok h with ⟨hk, h⟩ | ⟨-, h⟩
  · cases h; exact ⟨_, _, .newline _ hk, .refl _, rfl, formed_nil⟩
  · cases h

theorem partials_took {p : Parser} (hp : Reads p) {m : Mode} {term : Term} : ∀ (n : Nat) {ts rest : List Lex} {acc ps : List Partial} {t : Lex},
    partials p m term n ts acc = .ok (ps, t, rest) →
      ∃ new, ps = acc ++ new ∧ Took ts (t :: rest) (partToks new) ∧ term t.ty = true ∧ Formed new
  | 0, _, _, _, _, _, h => by cases h
  | n + 1, [], _, _, _, _, h => by cases h
  | n + 1, u :: ts, rest, acc, ps, t, h => by
    rw [partials] at h
    split at h
    · next ht => cases h; exact ⟨[], by simp, .refl _, ht, formed_nil⟩
    · obtain ⟨⟨new, ts1⟩, h1, h⟩ := bind_ok h
      obtain ⟨new', e, k, ht, hf⟩ := partials_took hp n h
      obtain ⟨x, y, k1, k2, e', hf'⟩ := item_took hp h1
      exact ⟨new ++ new', by rw [e, List.append_assoc], by rw [partToks_append, e']; exact (k1.trans k2).trans k, ht, hf'.append hf⟩

/-! ### Putting the parts together -/

theorem applyAll_toks : ∀ (ps : List Partial) {e e' : Expr}, applyAll e ps = .ok e' → toks e' = toks e ++ partToks ps
  | [], e, e', h => by cases h; simp [partToks]
  | x :: ps, e, e', h => by
    unfold applyAll at h
    split at h
    · next h' => cases h'
    · next h' =>
      cases h'
      rw [applyAll_toks ps h, toks_concat, partToks, List.append_assoc]
    · cases h

theorem splitAt_toks {ps : List Partial} {i : Nat} {s : Split} (h : splitAt ps i = .ok s) :
    match (generalizing := false) s with
    | .unary op rest => ps = .unary op :: rest
    | .postfix op rest => ps = rest ++ [.postfix op]
    | .binary l op r => ps = l ++ .binary op :: r
    | .implicit l r => ps = l ++ .implicit :: r
    | .none => False := by
  unfold splitAt at h
  split at h
  · split at h
    · cases h; rfl
    · cases h
  split at h
  · split at h
    · next op e =>
      cases h
      obtain ⟨ys, rfl⟩ := List.getLast?_eq_some_iff.1 e
      simp
    · cases h
  have hl := List.take_append_drop i ps
  split at h
  · next op right e => cases h; rw [e] at hl; exact hl.symm
  · next right e => cases h; rw [e] at hl; exact hl.symm
  · cases h

theorem combine_toks : ∀ (n : Nat) {m : Mode} {ps : List Partial} {e : Expr}, Formed ps → combine n m ps = .ok e → toks e = partToks ps
  | 0, _, _, _, _, h => by cases h
  | n + 1, m, ps, e, hf, h => by
    rw [combine] at h
    split at h
    · cases h
    split at h
    · next hl =>
      match ps, hl with
      | [x], _ =>
        unfold single at h
        split at h
        · next h' => cases h'; cases h; simp [partToks]
        · cases h
    · obtain ⟨s, h1, h⟩ := bind_ok h
      unfold splitLast at h1
      split at h1
      · cases h1
      · cases h1
        dsimp only at h
        unfold application at h
        split at h
        · rw [applyAll_toks _ h, partToks]
        · cases h
      · have k := splitAt_toks h1
        match s, k, h with
        | .unary op rest, k, h =>
          obtain ⟨e', h2, h⟩ := bind_ok h
          cases h
          have hx := (hf (.unary op) (by rw [k]; simp)).1 op rfl
          rw [toks_unary, if_neg (by simp [hx]), combine_toks n (hf.sub fun x hx => by rw [k]; simp [hx]) h2, k, partToks]
        | .postfix op rest, k, h =>
          obtain ⟨e', h2, h⟩ := bind_ok h
          cases h
          have hx := (hf (.postfix op) (by rw [k]; simp)).2 op rfl
          rw [toks_unary, if_pos hx, combine_toks n (hf.sub fun x hx => by rw [k]; simp [hx]) h2, k, partToks_append]
          rfl
        | .binary l op r, k, h =>
          dsimp only at h
          split at h
          · cases h
          obtain ⟨el, h2, h⟩ := bind_ok h
          obtain ⟨er, h3, h⟩ := bind_ok h
          cases h
          rw [toks_binary, combine_toks n (hf.sub fun x hx => by rw [k]; simp [hx]) h2,
            combine_toks n (hf.sub fun x hx => by rw [k]; simp [hx]) h3, k, partToks_append]
          rfl
        | .implicit l r, k, h =>
          obtain ⟨el, h2, h⟩ := bind_ok h
          obtain ⟨er, h3, h⟩ := bind_ok h
          cases h
          rw [toks_concat, combine_toks n (hf.sub fun x hx => by rw [k]; simp [hx]) h2,
            combine_toks n (hf.sub fun x hx => by rw [k]; simp [hx]) h3, k, partToks_append]
          rfl

theorem looksLikeParams_split : ∀ (ps : List Partial) {mid right : List Partial}, looksLikeParams ps = some (mid, right) →
    ps = mid ++ .binary .greaterThan :: right
  | [], _, _, h => by cases h
  | x :: xs, mid, right, h => by
    have go : ∀ {mid right}, ((looksLikeParams xs).map fun r => (x :: r.1, r.2)) = some (mid, right) →
        x :: xs = mid ++ .binary .greaterThan :: right := by
      intro mid right h
      cases hl : looksLikeParams xs with
      | none => rw [hl] at h; cases h
      | some r =>
        obtain ⟨a, b⟩ := r
        rw [hl] at h
        cases h
        rw [looksLikeParams_split xs hl]
        rfl
    rw [looksLikeParams.eq_def] at h
    dsimp only at h
    split at h
    · split at h
      · exact go h
      · split at h
        · next hg => cases h; rw [hg]; rfl
        · cases h
    · split at h
      · exact go h
      · cases h
    · cases h

theorem findParams_split : ∀ (ps : List Partial) {left mid right : List Partial}, findParams ps = some (left, mid, right) →
    ps = left ++ .binary .lessThan :: (mid ++ .binary .greaterThan :: right)
  | [], _, _, _, h => by cases h
  | x :: xs, left, mid, right, h => by
    have go : ∀ {left mid right}, ((findParams xs).map fun r => (x :: r.1, r.2)) = some (left, mid, right) →
        x :: xs = left ++ .binary .lessThan :: (mid ++ .binary .greaterThan :: right) := by
      intro left mid right h
      cases hl : findParams xs with
      | none => rw [hl] at h; cases h
      | some r =>
        obtain ⟨a, b, c⟩ := r
        rw [hl] at h
        cases h
        rw [findParams_split xs hl]
        rfl
    rw [findParams.eq_def] at h
    dsimp only at h
    split at h
    · split at h
      · next hop =>
        split at h
        · next hlook => cases h; rw [hop, looksLikeParams_split _ hlook]; rfl
        · exact go h
      · exact go h
    · exact go h

theorem groupParams_toks : ∀ (n : Nat) {ps ps' : List Partial}, Formed ps → groupParams n ps = .ok ps' →
    Formed ps' ∧ partToks ps' = partToks ps
  | 0, _, _, _, h => by cases h
  | n + 1, ps, ps', hf, h => by
    rw [groupParams] at h
    split at h
    · cases h; exact ⟨hf, rfl⟩
    · next left mid right e =>
      have k := findParams_split _ e
      obtain ⟨params, h1, h⟩ := bind_ok h
      have hpar := combine_toks _ (hf.sub fun x hx => by rw [k]; simp [hx]) h1
      have hfl : Formed left := hf.sub fun x hx => by rw [k]; simp [hx]
      have hfr : Formed right := hf.sub fun x hx => by rw [k]; simp [hx]
      obtain ⟨hf', ht⟩ := groupParams_toks n (hfl.append ((formed_implicit.append (formed_expr (.group .angle params))).append
        (Formed.append (a := if startsWithGroup right then [.implicit] else []) (by split; exact formed_implicit; exact formed_nil) hfr))) h
      refine ⟨hf', ht.trans ?_⟩
      rw [k]
      simp only [partToks_append, partToks, List.cons_append, List.nil_append, toks_group, hpar, Delim.left, Delim.right]
      split <;> simp [partToks]

theorem finish_toks {m : Mode} {ps : List Partial} {e : Expr} (hf : Formed ps) (h : finish m ps = .ok e) : toks e = partToks ps := by
  unfold finish at h
  obtain ⟨ps', h1, h⟩ := bind_ok h
  obtain ⟨hf', ht⟩ := groupParams_toks _ hf h1
  split at h
  · cases h
  split at h
  · cases h
  rw [combine_toks _ hf' h, ht]

theorem parseGo_reads : ∀ k : Nat, Reads (parseGo k)
  | 0 => fun _ _ _ _ _ _ h => by cases h
  | k + 1 => by
    intro m term ts e t rest h
    rw [parseGo] at h
    obtain ⟨⟨ps, t', ts'⟩, h1, h⟩ := bind_ok h
    obtain ⟨e', h2, h⟩ := bind_ok h
    cases h
    obtain ⟨new, e', h3, ht, hf⟩ := partials_took (parseGo_reads k) _ h1
    rw [List.nil_append] at e'
    subst e'
    rw [finish_toks hf h2]
    exact ⟨h3, ht⟩

end Acorn.Parse
