/-
Reading the tokens of a printed tree.
-/
import Verif.Lemmas.ExpressionChecks
namespace Acorn.Parse

open Scan Spec

/-! ### Open tokens -/

theorem _root_.Acorn.Spec.Clear.binder {m : Mode} {dot : Bool} {kw : Tk} {form : Form} {params : TParams} {args : Decls} {body : Expr}
    (hc : Clear m dot (.binder kw form params args body)) :
    m ≠ .type ∧ BinderWord kw ∧ ClearDecls args ∧ Written .value body ∧
      match form with
      | .plain => params = .nil
      | .generic _ bare => kw = .keyword "function" ∧ params ≠ .nil ∧ ClearParams params ∧ (bare = true → args = .nil) := by
  cases form <;> (rw [Clear] at hc; exact ⟨hc.1, hc.2.1, hc.2.2.1, ⟨hc.2.2.2.1, hc.2.2.2.2.1⟩, hc.2.2.2.2.2⟩)

theorem _root_.Acorn.Spec.Clear.group_inner {m : Mode} {dot : Bool} {d : Delim} {e : Expr} (hc : Clear m dot (.group d e)) :
    d = .paren ∧ ((m = .value ∧ ∃ t : Lex, NamedOperator t.ty ∧ e = .single t) ∨ Clear m false e ∧ OpsOk m (openOps e)) := by
  cases d <;> (rw [Clear] at hc; exact hc)

theorem _root_.Acorn.Spec.Clear.group {m : Mode} {dot : Bool} {d : Delim} {e : Expr} (hc : Clear m dot (.group d e)) :
    d = .paren := hc.group_inner.1

theorem _root_.Acorn.Spec.Clear.open : ∀ {m : Mode} {dot : Bool} (e : Expr), Clear m dot e → ∀ t ∈ openToks e,
    .infix t ∈ openOps e ∨ Prefix m t ∨ t = .questionMark ∨ Word m t ∨ t = .keyword "match" ∨ BinderWord t ∨
      t = .keyword "if" ∨ t = .leftParen ∨ t = .leftBracket ∨ t = .lessThan ∧ m ≠ .value
  | m, dot, .single t, hc, u, h => by
    rw [openToks, List.mem_singleton] at h
    rw [Clear] at hc
    subst h
    rcases hc with hc | ⟨-, hc⟩
    · simp [hc]
    · simp [hc]
  | m, dot, .group d e, hc, u, h => by
    rw [openToks, List.mem_singleton] at h
    obtain rfl := hc.group
    simp [h, Delim.left]
  | m, dot, .binder kw _ _ _ _, hc, u, h => by
    rw [openToks, List.mem_singleton] at h
    subst h
    simp [hc.binder.2.1]
  | m, dot, .ite _ _ _, hc, u, h => by
    rw [openToks, List.mem_singleton] at h
    simp [h]
  | m, dot, .cases _ _, hc, u, h => by
    rw [openToks, List.mem_singleton] at h
    simp [h]
  | m, dot, .unary op e, hc, u, h => by
    rw [openToks] at h
    rw [Clear] at hc
    rw [openOps]
    split at hc
    · next hq =>
      rcases List.mem_cons.1 h with h | h
      · subst h; simp [hq]
      · exact Spec.Clear.open e hc.1 u h
    · rcases List.mem_cons.1 h with h | h
      · subst h; simp [hc.1]
      · exact Spec.Clear.open e hc.2.1 u h
  | m, dot, .binary l op r, hc, u, h => by
    rw [openToks] at h
    rw [Clear] at hc
    rw [openOps]
    rcases List.mem_append.1 h with h | h
    · rcases Spec.Clear.open l hc.2.1 u h with h | h
      · exact .inl (List.mem_append_left _ h)
      · exact .inr h
    · rcases List.mem_cons.1 h with h | h
      · subst h; simp
      · rcases Spec.Clear.open r hc.2.2.1 u h with h | h
        · exact .inl (by simp [h])
        · exact .inr h
  | m, dot, .concat l r, hc, u, h => by
    rw [openToks] at h
    rw [openOps]
    obtain ⟨hl, -, -, d, e, rfl, hd⟩ := hc.concat
    rcases List.mem_append.1 h with h | h
    · rcases Spec.Clear.open l hl u h with h | h
      · exact .inl (List.mem_append_left _ h)
      · exact .inr h
    · rw [openToks, List.mem_singleton] at h
      subst h
      cases d with
      | paren => simp [Delim.left]
      | bracket => simp [Delim.left]
      | angle => simp [Delim.left, hd.1]

/-- Tokens that never stand open in an expression. -/
def closers : List Tk :=
  [.newLine, .rightParen, .rightBracket, .rightBrace, .leftBrace, .keyword "else", .keyword "let"]

theorem infix_not_closer {m : Mode} {t : Tk} (h : Infix m t) : t ∉ closers := by
  unfold Infix at h
  cases m with
  | value =>
    simp only [valueInfix, List.mem_cons, List.not_mem_nil, or_false] at h
    rcases h with h | h | h | h | h | h | h | h | h | h | h | h | h | h | h | h | h | h | h | h | h | h | h | h | h | h | h | h <;> subst h <;> decide
  | type => rcases h with h | h | h <;> subst h <;> decide
  | typeArg =>
    rcases h with h | ⟨h, -⟩
    · subst h; decide
    simp only [valueInfix, List.mem_cons, List.not_mem_nil, or_false] at h
    rcases h with h | h | h | h | h | h | h | h | h | h | h | h | h | h | h | h | h | h | h | h | h | h | h | h | h | h | h | h <;> subst h <;> decide

theorem _root_.Acorn.Spec.Clear.not_closer {m : Mode} {dot : Bool} {e : Expr} (hc : Clear m dot e) {t : Tk} (h : t ∈ openToks e) :
    t ∉ closers := by
  rcases hc.open e t h with h | h | h | h | h | h | h | h | h | ⟨h, -⟩
  · rcases hc.ops e _ h with h' | ⟨t', e', hi⟩
    · cases h'
    · injection e' with e'; subst e'; exact infix_not_closer hi
  · rcases h with rfl | rfl | ⟨rfl, -⟩ <;> decide
  · subst h; decide
  · rcases h with rfl | rfl | rfl | rfl | ⟨-, rfl | rfl | rfl | rfl⟩ <;> decide
  · subst h; decide
  · rcases h with rfl | rfl | rfl | rfl <;> decide
  all_goals subst h; decide

theorem _root_.Acorn.Spec.Clear.stops {m : Mode} {dot : Bool} {e : Expr} (hc : Clear m dot e) {k : Tk} (hk : k ∈ closers) :
    Stops (· = k) e := by
  intro t ht
  have := hc.not_closer ht
  simp only [decide_eq_false_iff_not]
  rintro rfl
  exact this hk

/-- An operator that is not among the open ones is not among the open tokens. -/
theorem _root_.Acorn.Spec.Clear.not_open {m : Mode} {dot : Bool} {e : Expr} (hc : Clear m dot e) {k : Tk}
    (hk : k = .comma ∨ k = .greaterThan) (h : .infix k ∉ openOps e) : k ∉ openToks e := by
  intro hm
  rcases hc.open e k hm with h' | h' | h' | h' | h' | h' | h' | h' | h' | ⟨h', -⟩
  · exact h h'
  · rcases hk with rfl | rfl <;> rcases h' with h' | h' | ⟨h', -⟩ <;> cases h'
  · rcases hk with rfl | rfl <;> cases h'
  · rcases hk with rfl | rfl <;> rcases h' with h' | h' | h' | h' | ⟨-, h' | h' | h' | h'⟩ <;> cases h'
  · rcases hk with rfl | rfl <;> cases h'
  · rcases hk with rfl | rfl <;> rcases h' with h' | h' | h' | h' <;> cases h'
  all_goals rcases hk with rfl | rfl <;> cases h'

/-- The first token. -/
theorem toks_head : ∀ {m : Mode} {dot : Bool} (e : Expr), Clear m dot e → ∃ t ts, toks e = t :: ts ∧ t.ty ∈ openToks e ∧
    (isOperatorRef t.ty = true → ∃ u us, ts = u :: us ∧ u.ty ∉ closers)
  | m, dot, .single t, hc => by
    refine ⟨t, [], rfl, by simp [openToks], fun h => ?_⟩
    rw [Clear] at hc
    rcases hc with hc | ⟨-, hc⟩
    · rcases hc with hc | hc | hc | hc | ⟨-, hc | hc | hc | hc⟩ <;> rw [hc] at h <;> exact absurd h (by decide)
    · rw [hc] at h; exact absurd h (by decide)
  | m, dot, .group d e, hc => by
    obtain rfl := hc.group
    exact ⟨_, _, toks_group _ _, by simp [openToks], fun h => absurd h (by decide)⟩
  | m, dot, .binder kw form params args body, hc => by
    have hk : ¬ isOperatorRef kw = true := by rcases hc.binder.2.1 with rfl | rfl | rfl | rfl <;> decide
    cases form with
    | plain => exact ⟨_, _, toks_binder_plain _ _ _ _, by simp [openToks], fun h => absurd h hk⟩
    | generic a b => exact ⟨_, _, toks_binder_generic _ _ _ _ _ _, by simp [openToks], fun h => absurd h hk⟩
  | m, dot, .ite _ _ _, hc => ⟨_, _, toks_ite _ _ _, by simp [openToks], fun h => absurd h (by decide)⟩
  | m, dot, .cases _ _, hc => ⟨_, _, toks_cases _ _, by simp [openToks], fun h => absurd h (by decide)⟩
  | m, dot, .unary op e, hc => by
    rw [Clear] at hc
    split at hc
    · next hq =>
      obtain ⟨t, ts, e1, e2, e3⟩ := toks_head e hc.1
      refine ⟨t, ts ++ [gen op], by rw [toks_unary, if_pos (isPostfix_iff.2 hq), e1]; rfl, by simp [openToks, e2], fun h => ?_⟩
      obtain ⟨u, us, rfl, hu⟩ := e3 h
      exact ⟨u, us ++ [gen op], rfl, hu⟩
    · next hq =>
      obtain ⟨t, ts, e1, e2, e3⟩ := toks_head e hc.2.1
      refine ⟨gen op, toks e, by rw [toks_unary, if_neg (fun z => hq (isPostfix_iff.1 z))], by simp [openToks], fun _ => ?_⟩
      exact ⟨t, ts, e1, hc.2.1.not_closer e2⟩
  | m, dot, .binary l op r, hc => by
    rw [Clear] at hc
    obtain ⟨t, ts, e1, e2, e3⟩ := toks_head l hc.2.1
    refine ⟨t, ts ++ gen op :: toks r, by rw [toks_binary, e1]; rfl, by simp [openToks, e2], fun h => ?_⟩
    obtain ⟨u, us, rfl, hu⟩ := e3 h
    exact ⟨u, _, rfl, hu⟩
  | m, dot, .concat l r, hc => by
    obtain ⟨t, ts, e1, e2, e3⟩ := toks_head l hc.concat.1
    refine ⟨t, ts ++ toks r, by rw [toks_concat, e1]; rfl, by simp [openToks, e2], fun h => ?_⟩
    obtain ⟨u, us, rfl, hu⟩ := e3 h
    exact ⟨u, _, rfl, hu⟩

theorem skipNewlines_cons {t : Lex} {ts : List Lex} (h : t.ty ≠ .newLine) : skipNewlines (t :: ts) = t :: ts := by
  rw [skipNewlines, if_neg h]

theorem skipNewlines_toks {m : Mode} {dot : Bool} {e : Expr} (hc : Clear m dot e) (rest : List Lex) :
    skipNewlines (toks e ++ rest) = toks e ++ rest := by
  obtain ⟨t, ts, e1, e2, -⟩ := toks_head e hc
  have := hc.not_closer e2
  rw [e1, List.cons_append]
  exact skipNewlines_cons fun h => this (by rw [h]; decide)

theorem peekIs_toks {m : Mode} {dot : Bool} {e : Expr} (hc : Clear m dot e) {k : Tk} (hk : k ∈ closers) (rest : List Lex) :
    peekIs k (toks e ++ rest) = false := by
  obtain ⟨t, ts, e1, e2, -⟩ := toks_head e hc
  have := hc.not_closer e2
  rw [e1, List.cons_append, peekIs, decide_eq_false_iff_not]
  rintro rfl
  exact this hk

theorem operatorRef_toks {m : Mode} {dot : Bool} {e : Expr} (hc : Clear m dot e) (u : Lex) (rest : List Lex) :
    operatorRef (toks e ++ u :: rest) = none := by
  obtain ⟨t, ts, e1, e2, e3⟩ := toks_head e hc
  rw [e1, List.cons_append]
  cases ts with
  | nil =>
    have : isOperatorRef t.ty = false := by
      cases h : isOperatorRef t.ty with
      | false => rfl
      | true => obtain ⟨u, us, h', -⟩ := e3 h; cases h'
    simp [operatorRef, this]
  | cons v vs =>
    rw [List.cons_append, operatorRef]
    cases h : isOperatorRef t.ty with
    | false => simp
    | true =>
      obtain ⟨v', vs', h', hv⟩ := e3 h
      injection h' with h1 h2
      subst h1
      have : v.ty ≠ .rightParen := fun z => hv (by rw [z]; decide)
      simp [this]

/-! ### Nested expressions -/

/-- The parser reads back all expressions with fewer than `N` tokens. -/
def Good (p : Parser) (N : Nat) : Prop :=
  ∀ (e : Expr) (m : Mode) (term : Term) (t : Lex) (rest : List Lex), Written m e → (toks e).length < N → Stops term e →
    term t.ty = true → t.ty ≠ .keyword "else" → p m term (toks e ++ t :: rest) = .ok (e, t, rest)

theorem Good.closer {p : Parser} {N : Nat} (hp : Good p N) {e : Expr} {m : Mode} (hw : Written m e) (hl : (toks e).length < N)
    {k : Tk} (hk : k ∈ closers) (hne : k ≠ .keyword "else") (rest : List Lex) :
    p m (· = k) (toks e ++ gen k :: rest) = .ok (e, gen k, rest) :=
  hp e m _ (gen k) rest hw hl (hw.1.stops hk) (by simp) hne

theorem valueBlock_toks {p : Parser} {N : Nat} (hp : Good p N) {e : Expr} (hw : Written .value e) (hl : (toks e).length < N)
    (rest : List Lex) : valueBlock p (toks e ++ gen .rightBrace :: rest) = .ok (e, rest) := by
  unfold valueBlock
  rw [skipNewlines_toks hw.1]
  dsimp only
  rw [peekIs_toks hw.1 (by decide), if_neg (by decide), hp.closer hw hl (by decide) (by decide)]
  rfl

theorem expect_gen (k : Tk) (rest : List Lex) : expect k (gen k :: rest) = .ok (gen k, rest) := by
  rw [expect]; exact if_pos rfl

/-- A block, from the brace on. -/
theorem block_toks {p : Parser} {N : Nat} (hp : Good p N) {e : Expr} (hw : Written .value e) (hl : (blockToks e).length ≤ N)
    (rest : List Lex) : (expect .leftBrace (blockToks e ++ rest) >>= fun r => valueBlock p r.2) = .ok (e, rest) := by
  have : (toks e).length < N := by simp [blockToks] at hl; omega
  rw [blockToks, List.cons_append, expect_gen, List.append_assoc]
  exact valueBlock_toks hp hw this rest

theorem variableName_ok {t : Lex} (h : VariableName t) (ts : List Lex) : variableName (t :: ts) = .ok (t, ts) := by
  obtain ⟨h1, -, c, s, h2, h3⟩ := h
  rw [variableName, h1, if_neg (by decide), if_pos rfl, h2]
  dsimp only
  rw [if_pos h3]

/-- What follows a declaration, or a type parameter. -/
theorem declLoop_toks {p : Parser} {N : Nat} (hp : Good p N) (rest : List Lex) : ∀ (ds : Decls) (n : Nat), ds ≠ .nil → ClearDecls ds →
    (declToks ds).length < N → (declToks ds).length ≤ n → declLoop p n (declToks ds ++ gen .rightParen :: rest) = .ok (ds, rest)
  | .nil, _, h, _, _, _ => absurd rfl h
  | .typed name type more, n, _, hc, hl, hn => by
    rw [ClearDecls] at hc
    obtain ⟨hv, hw, hcomma, hmore⟩ := hc
    rw [declToks_typed] at hl hn ⊢
    simp only [List.length_cons, List.length_append] at hl hn
    obtain ⟨n, rfl⟩ : ∃ k, n = k + 1 := ⟨n - 1, by omega⟩
    rw [declLoop]
    simp only [List.cons_append]
    rw [variableName_ok hv]
    simp only [bind, Except.bind]
    rw [if_neg hv.2.1, expect_gen]
    dsimp only
    have stops : Stops commaOrParen type := by
      intro t ht
      have h1 : t ≠ .comma := by rintro rfl; exact hw.1.not_open (.inl rfl) hcomma ht
      have h2 : t ≠ .rightParen := by rintro rfl; exact hw.1.not_closer ht (by decide)
      simp [commaOrParen, h1, h2]
    by_cases hm : more = .nil
    · subst hm
      rw [moreDeclToks_nil, List.append_nil, hp type .type commaOrParen (gen .rightParen) rest hw (by omega) stops rfl (by decide)]
      dsimp only
      rw [if_pos (show (gen .rightParen).ty = .rightParen from rfl)]
    · rw [moreDeclToks_ne hm] at hl hn ⊢
      rw [List.append_assoc, List.cons_append,
        hp type .type commaOrParen (gen .comma) _ hw (by omega) stops rfl (by decide)]
      dsimp only
      rw [if_neg (by decide)]
      simp only [List.length_cons] at hl hn
      have hskip : skipNewlines (declToks more ++ gen .rightParen :: rest) = declToks more ++ gen .rightParen :: rest := by
        cases more with
        | nil => exact absurd rfl hm
        | typed name' _ _ =>
          rw [ClearDecls] at hmore
          rw [declToks_typed, List.cons_append]
          exact skipNewlines_cons (by rw [hmore.1.1]; decide)
        | self name' _ =>
          rw [ClearDecls] at hmore
          rw [declToks_self, List.cons_append]
          exact skipNewlines_cons (by rw [hmore.1]; decide)
      rw [hskip, declLoop_toks hp rest more n hm hmore (by omega) (by omega)]
  | .self name more, n, _, hc, hl, hn => by
    rw [ClearDecls] at hc
    obtain ⟨rfl, hmore⟩ := hc
    rw [declToks_self] at hl hn ⊢
    simp only [List.length_cons] at hl hn
    obtain ⟨n, rfl⟩ : ∃ k, n = k + 1 := ⟨n - 1, by omega⟩
    rw [declLoop]
    simp only [List.cons_append]
    rw [variableName, if_pos (show (gen (.keyword "self")).ty = .keyword "self" from rfl)]
    simp only [bind, Except.bind]
    rw [if_pos (show (gen (.keyword "self")).text = "self" by decide)]
    by_cases hm : more = .nil
    · subst hm
      rw [moreDeclToks_nil, List.nil_append]
      rfl
    · rw [moreDeclToks_ne hm] at hl hn ⊢
      simp only [List.length_cons] at hl hn
      rw [List.cons_append]
      dsimp only
      rw [if_neg (by decide), if_neg (by decide), if_neg (by decide)]
      have hskip : skipNewlines (declToks more ++ gen .rightParen :: rest) = declToks more ++ gen .rightParen :: rest := by
        cases more with
        | nil => exact absurd rfl hm
        | typed name' _ _ =>
          rw [ClearDecls] at hmore
          rw [declToks_typed, List.cons_append]
          exact skipNewlines_cons (by rw [hmore.1.1]; decide)
        | self name' _ =>
          rw [ClearDecls] at hmore
          rw [declToks_self, List.cons_append]
          exact skipNewlines_cons (by rw [hmore.1]; decide)
      rw [hskip, declLoop_toks hp rest more n hm hmore (by omega) (by omega)]

theorem parseDecls_toks {p : Parser} {N : Nat} (hp : Good p N) {ds : Decls} (hc : ClearDecls ds) (hl : (declToks ds).length < N)
    (rest : List Lex) : parseDecls p (declToks ds ++ gen .rightParen :: rest) = .ok (ds, rest) := by
  unfold parseDecls
  cases ds with
  | nil => rw [declToks_nil]; rfl
  | typed name type more =>
    have hloop := declLoop_toks hp rest (.typed name type more) ((declToks (.typed name type more) ++ gen .rightParen :: rest).length + 1)
      (by simp) hc hl (by rw [List.length_append]; omega)
    rw [ClearDecls] at hc
    rw [declToks_typed] at hloop ⊢
    rw [List.cons_append] at hloop ⊢
    rw [skipNewlines_cons (by rw [hc.1.1]; decide)]
    dsimp only
    rw [if_neg (by rw [hc.1.1]; decide)]
    exact hloop
  | self name more =>
    have hloop := declLoop_toks hp rest (.self name more) ((declToks (.self name more) ++ gen .rightParen :: rest).length + 1)
      (by simp) hc hl (by rw [List.length_append]; omega)
    rw [ClearDecls] at hc
    rw [declToks_self] at hloop ⊢
    rw [List.cons_append] at hloop ⊢
    rw [skipNewlines_cons (by rw [hc.1]; decide)]
    dsimp only
    rw [if_neg (by rw [hc.1]; decide)]
    exact hloop

theorem paramLoop_toks {p : Parser} {N : Nat} (hp : Good p N) {close : Tk} (hclose : close = .rightBracket ∨ close = .greaterThan)
    (rest : List Lex) : ∀ (ps : TParams) (n : Nat), ps ≠ .nil → ClearParams ps → (paramToks ps).length < N → (paramToks ps).length ≤ n →
      paramLoop p close n (paramToks ps ++ gen close :: rest) = .ok (ps, rest)
  | .nil, _, h, _, _, _ => absurd rfl h
  | .cons name inner cls more, n, _, hc, hl, hn => by
    rw [ClearParams] at hc
    obtain ⟨hname, hinner, hcls, hcomma, hmore⟩ := hc
    rw [paramToks_cons] at hl hn ⊢
    simp only [List.length_cons, List.length_append] at hl hn
    obtain ⟨n, rfl⟩ : ∃ k, n = k + 1 := ⟨n - 1, by omega⟩
    rw [paramLoop, List.cons_append]
    have he : expect .identifier (name :: (innerToks inner ++ (classToks cls ++ moreParamToks more) ++ gen close :: rest)) =
        .ok (name, innerToks inner ++ (classToks cls ++ moreParamToks more) ++ gen close :: rest) := by
      rw [expect, if_pos hname]
    rw [he]
    simp only [bind, Except.bind]
    -- what follows the bracketed part
    have hcb : close ≠ .leftBracket ∧ close ≠ .colon ∧ close ≠ .comma ∧ close ≠ .keyword "else" := by
      rcases hclose with rfl | rfl <;> decide
    obtain ⟨u, us, hu, hub⟩ : ∃ u us, classToks cls ++ (moreParamToks more ++ gen close :: rest) = u :: us ∧ u.ty ≠ .leftBracket := by
      cases cls with
      | some e => exact ⟨_, _, rfl, by decide⟩
      | none =>
        by_cases hm : more = .nil
        · subst hm; rw [moreParamToks_nil]; exact ⟨_, _, rfl, hcb.1⟩
        · rw [moreParamToks_ne hm]; exact ⟨_, _, rfl, by decide⟩
    have hinner' : paramInner p (innerToks inner ++ (classToks cls ++ moreParamToks more) ++ gen close :: rest) =
        .ok (inner, classToks cls ++ (moreParamToks more ++ gen close :: rest)) := by
      unfold paramInner
      cases inner with
      | none =>
        rw [if_neg]
        · rw [innerToks]; simp
        · rw [innerToks, List.nil_append, List.append_assoc, hu, peekIs]
          simpa using hub
      | some e =>
        rw [ClearOpt] at hinner
        rw [innerToks, if_pos (by rfl)]
        simp only [List.cons_append, List.drop_one, List.tail_cons, List.append_assoc, List.nil_append]
        rw [hp.closer hinner (by simp [innerToks] at hl; omega) (by decide) (by decide)]
    rw [hinner']
    dsimp only
    -- what follows the typeclass
    obtain ⟨v, vs, hv, hv1, hv2, hv3⟩ : ∃ v vs, moreParamToks more ++ gen close :: rest = v :: vs ∧ v.ty ≠ .colon ∧
        (v.ty = .comma ∨ v.ty = close) ∧ v.ty ≠ .keyword "else" := by
      by_cases hm : more = .nil
      · subst hm; rw [moreParamToks_nil]; exact ⟨_, _, rfl, hcb.2.1, .inr rfl, hcb.2.2.2⟩
      · rw [moreParamToks_ne hm]; exact ⟨_, _, rfl, by decide, .inl rfl, by decide⟩
    have hcls' : paramClass p close (classToks cls ++ (moreParamToks more ++ gen close :: rest)) = .ok (cls, v, vs) := by
      cases cls with
      | none =>
        rw [classToks, List.nil_append, hv, paramClass, if_neg hv1]
      | some e =>
        rw [ClearOpt] at hcls
        rw [classToks, List.cons_append, hv, paramClass, if_pos (show (gen .colon).ty = .colon from rfl)]
        have stops : Stops (fun k => decide (k = .comma) || decide (k = close)) e := by
          intro t ht
          have h1 : t ≠ .comma := by rintro rfl; exact hcls.1.not_open (.inl rfl) (hcomma e rfl) ht
          have h2 : t ≠ close := by
            rintro rfl
            rcases hclose with rfl | rfl
            · exact hcls.1.not_closer ht (by decide)
            · refine hcls.1.not_open (.inr rfl) (fun z => ?_) ht
              rcases hcls.1.ops e _ z with h' | ⟨t', e', hi⟩
              · cases h'
              · injection e' with e'
                subst e'
                rcases hi with h' | h' | h' <;> cases h'
          simp [h1, h2]
        rw [hp e .type _ v vs hcls (by simp [classToks] at hl; omega) stops (by rcases hv2 with h | h <;> simp [h]) hv3]
    rw [hcls']
    dsimp only
    by_cases hm : more = .nil
    · subst hm
      rw [moreParamToks_nil] at hv
      injection hv with h1 h2
      subst h1
      subst h2
      rw [if_pos (show (gen close).ty = close from rfl)]
    · rw [moreParamToks_ne hm] at hv hl hn
      injection hv with h1 h2
      subst h1
      subst h2
      simp only [List.length_cons] at hl hn
      rw [if_neg (fun z => hcb.2.2.1 z.symm), if_pos (show (gen .comma).ty = .comma from rfl)]
      have := paramLoop_toks hp hclose rest more n hm hmore (by omega) (by omega)
      have e : (paramToks more).append (gen close :: rest) = paramToks more ++ gen close :: rest := rfl
      rw [e, this]

theorem parseParams_toks {p : Parser} {N : Nat} (hp : Good p N) (angle : Bool) {ps : TParams} (hne : ps ≠ .nil) (hc : ClearParams ps)
    (hl : (paramToks ps).length < N) (rest : List Lex) :
    parseParams p (gen (paramDelim angle).left :: (paramToks ps ++ gen (paramDelim angle).right :: rest)) =
      .ok (some (angle, ps), rest) := by
  unfold parseParams
  cases angle with
  | false =>
    rw [if_pos (by rfl)]
    have := paramLoop_toks hp (close := .rightBracket) (.inl rfl) rest ps
      ((gen .leftBracket :: (paramToks ps ++ gen .rightBracket :: rest)).length + 1) hne hc hl (by simp; omega)
    have e : List.drop 1 (gen .leftBracket :: (paramToks ps ++ gen .rightBracket :: rest)) = paramToks ps ++ gen .rightBracket :: rest := rfl
    simp only [paramDelim, Delim.left, Delim.right, Bool.false_eq_true, if_true, if_false]
    rw [e, this]
    rfl
  | true =>
    rw [if_neg (by simp [peekIs, paramDelim, Delim.left]), if_pos (by rfl)]
    have := paramLoop_toks hp (close := .greaterThan) (.inr rfl) rest ps
      ((gen .lessThan :: (paramToks ps ++ gen .greaterThan :: rest)).length + 1) hne hc hl (by simp; omega)
    have e : List.drop 1 (gen .lessThan :: (paramToks ps ++ gen .greaterThan :: rest)) = paramToks ps ++ gen .greaterThan :: rest := rfl
    simp only [paramDelim, Delim.left, Delim.right, Bool.false_eq_true, if_true, if_false]
    rw [e, this]
    rfl

theorem caseLoop_toks {p : Parser} {N : Nat} (hp : Good p N) (rest : List Lex) : ∀ (cs : Cases) (n : Nat), ClearCases cs →
    (caseToks cs).length < N → (caseToks cs).length < n →
    caseLoop p n (caseToks cs ++ gen .rightBrace :: rest) = .ok (cs, rest)
  | .nil, n, _, _, hn => by
    obtain ⟨n, rfl⟩ : ∃ k, n = k + 1 := ⟨n - 1, by omega⟩
    rfl
  | .cons pattern body more, n, hc, hl, hn => by
    rw [ClearCases] at hc
    obtain ⟨hpat, hbody, hmore⟩ := hc
    obtain ⟨n, rfl⟩ : ∃ k, n = k + 1 := ⟨n - 1, by omega⟩
    rw [caseToks_cons] at hl hn ⊢
    simp only [List.length_append, blockToks, List.length_cons, List.length_nil] at hl hn
    rw [caseLoop, List.append_assoc, skipNewlines_toks hpat.1]
    obtain ⟨t, ts, e1, e2, -⟩ := toks_head pattern hpat.1
    have hnb : t.ty ≠ .rightBrace := fun h => hpat.1.not_closer e2 (by rw [h]; decide)
    have hpp := hp.closer hpat (k := .leftBrace) (by omega) (by decide) (by decide)
      (toks body ++ gen .rightBrace :: (caseToks more ++ gen .rightBrace :: rest))
    rw [blockToks]
    simp only [List.append_assoc, List.cons_append, List.nil_append]
    rw [e1, List.cons_append] at hpp ⊢
    dsimp only
    rw [if_neg hnb, hpp]
    simp only [bind, Except.bind]
    rw [valueBlock_toks hp hbody (by omega)]
    dsimp only
    rw [caseLoop_toks hp rest more n hmore (by omega) (by omega)]

end Acorn.Parse
