/-
The parser reads the tokens of a tree that is written properly back as that tree.
-/
import Verif.Lemmas.ExpressionRead
namespace Acorn.Parse

open Scan Spec

theorem args_toks {p : Parser} {N : Nat} (hp : Good p N) {args : Decls} (hc : ClearDecls args) (hl : (argToks args).length ≤ N)
    (rest : List Lex) : (expect .leftParen (argToks args ++ rest) >>= fun r => parseDecls p r.2) = .ok (args, rest) := by
  have : (declToks args).length < N := by simp [argToks] at hl; omega
  rw [argToks, List.cons_append, expect_gen, List.append_assoc]
  exact parseDecls_toks hp hc this rest

/-- The argument list and the body of a binder. -/
theorem argsBody_toks {p : Parser} {N : Nat} (hp : Good p N) {args : Decls} {body : Expr} (hc : ClearDecls args) (hb : Written .value body)
    (hl : (argToks args).length + (blockToks body).length ≤ N) (rest : List Lex) (f : Decls → Expr → Expr) :
    (do
      let (_, ts) ← expect .leftParen (argToks args ++ blockToks body ++ rest)
      let (args, ts) ← parseDecls p ts
      let (_, ts) ← expect .leftBrace ts
      let (body, ts) ← valueBlock p ts
      .ok (f args body, ts) : Res (Expr × List Lex)) = .ok (f args body, rest) := by
  have h1 : (declToks args).length < N := by simp [argToks] at hl; omega
  have h2 : (toks body).length < N := by simp [blockToks] at hl; omega
  rw [argToks, blockToks]
  simp only [List.cons_append, List.append_assoc, List.nil_append]
  rw [expect_gen]
  simp only [bind, Except.bind]
  rw [parseDecls_toks hp hc h1]
  dsimp only
  rw [expect_gen]
  dsimp only
  rw [valueBlock_toks hp hb h2]

theorem parseBinder_toks {p : Parser} {N : Nat} (hp : Good p N) {m : Mode} {dot : Bool} {kw : Tk} {form : Form} {params : TParams}
    {args : Decls} {body : Expr} (hc : Clear m dot (.binder kw form params args body)) {ts : List Lex}
    (ht : toks (.binder kw form params args body) = gen kw :: ts) (hl : ts.length ≤ N) (rest : List Lex) :
    parseBinder p kw (ts ++ rest) = .ok (.binder kw form params args body, rest) := by
  obtain ⟨-, hk, ha, hb, hf⟩ := hc.binder
  cases form with
  | plain =>
    rw [toks_binder_plain] at ht
    injection ht with _ ht
    subst ht
    dsimp only at hf
    subst hf
    have hparams : binderParams p kw (argToks args ++ blockToks body ++ rest) =
        .ok (none, argToks args ++ blockToks body ++ rest) := by
      unfold binderParams
      split
      · rfl
      · rfl
    unfold parseBinder
    rw [hparams]
    simp only [bind, Except.bind]
    exact argsBody_toks hp ha hb (by rw [List.length_append] at hl; exact hl) rest fun a b => .binder kw .plain .nil a b
  | generic angle bare =>
    dsimp only at hf
    obtain ⟨rfl, hne, hcp, hbare⟩ := hf
    rw [toks_binder_generic] at ht
    injection ht with _ ht
    subst ht
    simp only [List.length_cons, List.length_append] at hl
    unfold parseBinder
    rw [binderParams, if_pos rfl]
    simp only [List.cons_append, List.append_assoc]
    rw [parseParams_toks hp angle hne hcp (by omega)]
    simp only [bind, Except.bind]
    cases bare with
    | true =>
      obtain rfl := hbare rfl
      simp only [if_true, List.nil_append]
      rw [if_pos (by rfl), blockToks]
      simp only [List.cons_append, List.append_assoc, List.nil_append]
      rw [expect_gen]
      dsimp only
      have h2 : (toks body).length < N := by simp [blockToks] at hl; omega
      rw [valueBlock_toks hp hb h2]
    | false =>
      simp only [Bool.false_eq_true, if_false]
      rw [if_neg (by simp [argToks, peekIs])]
      have := argsBody_toks hp ha hb (by simp only [Bool.false_eq_true, if_false] at hl; omega) rest
        fun a b => .binder (.keyword "function") (.generic angle false) params a b
      rw [List.append_assoc] at this
      exact this

theorem parseIf_toks {p : Parser} {N : Nat} (hp : Good p N) {cond yes : Expr} {no : OptExpr} (hc : Written .value cond)
    (hy : Written .value yes) (hn : ClearOpt .value no)
    (hl : (toks cond ++ (blockToks yes ++ elseToks no)).length ≤ N) (rest : List Lex) (hr : peekIs (.keyword "else") rest = false) :
    parseIf p (toks cond ++ (blockToks yes ++ elseToks no) ++ rest) = .ok (.ite cond yes no, rest) := by
  simp only [List.length_append, blockToks, List.length_cons] at hl
  unfold parseIf
  rw [blockToks]
  simp only [List.cons_append, List.append_assoc, List.nil_append]
  rw [hp.closer hc (by omega) (by decide) (by decide)]
  simp only [bind, Except.bind]
  rw [valueBlock_toks hp hy (by omega)]
  dsimp only
  cases no with
  | none => rw [elseToks, List.nil_append, hr, if_neg (by decide)]
  | some e =>
    rw [ClearOpt] at hn
    rw [elseToks, List.cons_append, if_pos (by rfl), List.drop_one, List.tail_cons, blockToks]
    simp only [List.cons_append, List.append_assoc, List.nil_append]
    rw [expect_gen]
    dsimp only
    simp only [elseToks, blockToks, List.length_cons, List.length_append] at hl
    rw [valueBlock_toks hp hn (by omega)]

theorem parseMatch_toks {p : Parser} {N : Nat} (hp : Good p N) {s : Expr} {cs : Cases} (hs : Written .value s) (hne : cs ≠ .nil)
    (hcs : ClearCases cs) (hl : (toks s ++ gen .leftBrace :: (caseToks cs ++ [gen .rightBrace])).length ≤ N) (rest : List Lex) :
    parseMatch p (toks s ++ gen .leftBrace :: (caseToks cs ++ [gen .rightBrace]) ++ rest) = .ok (.cases s cs, rest) := by
  simp only [List.length_append, List.length_cons] at hl
  unfold parseMatch
  simp only [List.cons_append, List.append_assoc, List.nil_append]
  rw [hp.closer hs (by omega) (by decide) (by decide)]
  simp only [bind, Except.bind]
  rw [caseLoop_toks hp rest cs _ hcs (by omega) (by rw [List.length_append]; omega)]
  cases cs with
  | nil => exact absurd rfl hne
  | cons _ _ _ => rfl

/-! ### One round -/

theorem paren_item {p : Parser} {m : Mode} {prev : Option Partial} {ts : List Lex} :
    item p m prev (gen .leftParen) ts = parseParen p m prev ts := by
  unfold item
  rw [if_neg (by simp), if_neg (by simp), if_neg (by simp; decide), if_neg (by simp; decide), if_neg (by simp; decide),
    if_pos (show (gen .leftParen).ty = .leftParen from rfl)]

theorem item_paren {p : Parser} {N : Nat} (hp : Good p N) {m : Mode} {e : Expr}
    (hc : (m = .value ∧ ∃ t : Lex, NamedOperator t.ty ∧ e = .single t) ∨ Clear m false e ∧ OpsOk m (openOps e))
    (hl : (toks e).length < N) (prev : Option Partial) (rest : List Lex) :
    item p m prev (gen .leftParen) (toks e ++ gen .rightParen :: rest) =
      .ok ((if afterExpr prev then [Partial.implicit] else []) ++ [.expr (.group .paren e)], rest) := by
  rw [paren_item]
  unfold parseParen
  rcases hc with ⟨rfl, t, ht, rfl⟩ | hw
  · rw [toks_single]
    have hop : isOperatorRef t.ty = true := by rcases ht with h | h | h | h <;> rw [h] <;> decide
    have : operatorRef ([t] ++ gen .rightParen :: rest) = some (t, rest) := by
      rw [List.cons_append, List.nil_append, operatorRef, hop]
      rfl
    rw [if_pos rfl, this]
  · have : (if m = .value then operatorRef (toks e ++ gen .rightParen :: rest) else none) = none := by
      split
      · exact operatorRef_toks hw.1 _ _
      · rfl
    rw [this]
    dsimp only
    rw [hp.closer hw hl (by decide) (by decide)]
    rfl

/-- The tokens that are not operators. -/
theorem item_plain {p : Parser} {m : Mode} {prev : Option Partial} {t : Lex} {ts : List Lex}
    (h : t.ty = .leftParen ∨ isWord t.ty = true ∨ isValueWord t.ty = true ∨ isBinderWord t.ty = true ∨ t.ty = .keyword "if" ∨
      t.ty = .keyword "match") :
    item p m prev t ts =
      if t.ty = .leftParen then parseParen p m prev ts
      else if isWord t.ty then .ok ([.expr (.single t)], ts)
      else if isValueWord t.ty then if m = .type then .error .syntax else .ok ([.expr (.single t)], ts)
      else if isBinderWord t.ty then
        if m = .type then .error .syntax else do
          let (e, ts) ← parseBinder p t.ty ts
          .ok ([.expr e], ts)
      else if t.ty = .keyword "if" then
        if m = .type then .error .syntax else do
          let (e, ts) ← parseIf p ts
          .ok ([.expr e], ts)
      else if t.ty = .keyword "match" then
        if afterDot prev then .ok ([.expr (.single t)], ts)
        else if m = .type then .error .syntax else do
          let (e, ts) ← parseMatch p ts
          .ok ([.expr e], ts)
      else if t.ty = .newLine then .ok ([], ts)
      else .error .syntax := by
  obtain ⟨ty, text⟩ := t
  dsimp only at h
  have : ty ≠ .leftBracket ∧ ty ≠ .lessThan ∧ isBinary ty = false ∧ isUnary ty = false ∧ isPostfix ty = false := by
    simp only [isWord, isValueWord, isBinderWord, Bool.or_eq_true, decide_eq_true_eq] at h
    rcases h with h | h | h | h | h | h
    · subst h; decide
    · rcases h with ((h | h) | h) | h <;> subst h <;> decide
    · rcases h with ((h | h) | h) | h <;> subst h <;> decide
    · rcases h with ((h | h) | h) | h <;> subst h <;> decide
    · subst h; decide
    · subst h; decide
  obtain ⟨h1, h2, h3, h4, h5⟩ := this
  unfold item
  dsimp only
  rw [if_neg h1, if_neg (fun z => h2 z.1), if_neg (by simp [h3]), if_neg (by simp [h4]), if_neg (by simp [h5])]

theorem word_item {p : Parser} {m : Mode} {prev : Option Partial} {t : Lex} {ts : List Lex}
    (h : Word m t.ty ∨ afterDot prev = true ∧ t.ty = .keyword "match") : item p m prev t ts = .ok ([.expr (.single t)], ts) := by
  obtain ⟨ty, text⟩ := t
  dsimp only at h
  rcases h with (h | h | h | h | ⟨hm, h⟩) | ⟨hd, h⟩
  iterate 4
    · have hv : ty ≠ .leftParen ∧ isWord ty = true := by subst h; decide
      rw [item_plain (.inr (.inl hv.2)), if_neg hv.1, if_pos hv.2]
  · have hv : ty ≠ .leftParen ∧ isWord ty = false ∧ isValueWord ty = true := by rcases h with h | h | h | h <;> subst h <;> decide
    rw [item_plain (.inr (.inr (.inl hv.2.2))), if_neg hv.1, if_neg (by simp [hv.2.1]), if_pos hv.2.2, if_neg hm]
  · subst h
    rw [item_plain (by dsimp only; decide), if_neg (by simp), if_neg (by dsimp only; decide), if_neg (by dsimp only; decide),
      if_neg (by dsimp only; decide), if_neg (by dsimp only; decide), if_pos rfl, if_pos hd]

theorem binder_item {p : Parser} {m : Mode} {prev : Option Partial} {kw : Tk} {ts ts' : List Lex} {e : Expr} (hk : BinderWord kw)
    (hm : m ≠ .type) (h : parseBinder p kw ts = .ok (e, ts')) : item p m prev (gen kw) ts = .ok ([.expr e], ts') := by
  have hv : kw ≠ .leftParen ∧ isWord kw = false ∧ isValueWord kw = false ∧ isBinderWord kw = true := by
    rcases hk with h | h | h | h <;> subst h <;> decide
  rw [item_plain (.inr (.inr (.inr (.inl hv.2.2.2)))), gen_ty, if_neg hv.1, if_neg (by simp [hv.2.1]), if_neg (by simp [hv.2.2.1]),
    if_pos hv.2.2.2, if_neg hm, h]
  rfl

theorem if_item {p : Parser} {m : Mode} {prev : Option Partial} {ts ts' : List Lex} {e : Expr}
    (hm : m ≠ .type) (h : parseIf p ts = .ok (e, ts')) : item p m prev (gen (.keyword "if")) ts = .ok ([.expr e], ts') := by
  rw [item_plain (by decide), gen_ty, if_neg (by simp), if_neg (by decide), if_neg (by decide), if_neg (by decide), if_pos rfl,
    if_neg hm, h]
  rfl

theorem match_item {p : Parser} {m : Mode} {prev : Option Partial} {ts ts' : List Lex} {e : Expr}
    (hm : m ≠ .type) (hd : afterDot prev = false) (h : parseMatch p ts = .ok (e, ts')) :
    item p m prev (gen (.keyword "match")) ts = .ok ([.expr e], ts') := by
  rw [item_plain (by decide), gen_ty, if_neg (by simp), if_neg (by decide), if_neg (by decide), if_neg (by decide),
    if_neg (by decide), if_pos rfl, hd, if_neg (by decide), if_neg hm, h]
  rfl

theorem infix_item {p : Parser} {m : Mode} {prev : Option Partial} {op : Tk} {ts : List Lex} (h : Infix m op)
    (hminus : op = .minus → afterExpr prev = true) (hskip : skipNewlines ts = ts) :
    item p m prev (gen op) ts = .ok ([.binary op], ts) := by
  obtain ⟨h1, h2, -, h4, h5, h6, -⟩ := infix_isBinary h
  unfold item
  rw [gen_ty, if_neg h4, if_neg (fun z => z.2 (h5 z.1)), if_pos h1, if_neg (by simp [h2]), if_neg]
  · rw [hskip]; simp
  · intro z
    rw [Bool.and_eq_true, Bool.not_eq_true'] at z
    rw [hminus (h6 z.1)] at z
    exact absurd z.2 (by decide)

theorem prefix_item {p : Parser} {m : Mode} {prev : Option Partial} {op : Tk} {ts : List Lex} (h : Prefix m op)
    (hprev : afterExpr prev = false) : item p m prev (gen op) ts = .ok ([.unary op], ts) := by
  unfold item
  rcases h with rfl | rfl | ⟨rfl, hm⟩
  · rw [if_neg (by simp), if_neg (by simp), if_neg (by simp; decide), if_pos (by rfl)]; rfl
  · rw [if_neg (by simp), if_neg (by simp), if_neg (by simp; decide), if_pos (by rfl)]; rfl
  · rw [if_neg (by simp), if_neg (by simp), if_pos (by rfl), if_neg, if_pos (by rw [hprev]; rfl)]
    · rfl
    · cases m with
      | type => exact absurd rfl hm
      | _ => decide

theorem postfix_item {p : Parser} {m : Mode} {prev : Option Partial} {ts : List Lex} :
    item p m prev (gen .questionMark) ts = .ok ([.postfix .questionMark], ts) := by
  unfold item
  rw [if_neg (by simp), if_neg (by simp), if_neg (by simp; decide), if_neg (by simp; decide), if_pos (by rfl)]
  rfl

/-! ### All rounds -/

/-- The number of rounds for the open part of an expression. -/
def cost : Expr → Nat
  | .unary _ e => cost e + 1
  | .binary l _ r => cost l + (cost r + 1)
  | .concat l _ => cost l + 1
  | _ => 1

theorem partials_step {p : Parser} {m : Mode} {term : Term} {n : Nat} {t : Lex} {ts ts' : List Lex} {acc new : List Partial}
    (ht : term t.ty = false) (h : item p m acc.getLast? t ts = .ok (new, ts')) :
    partials p m term (n + 1) (t :: ts) acc = partials p m term n ts' (acc ++ new) := by
  rw [partials, if_neg (by simp [ht]), h]
  rfl

theorem afterExpr_spine {e : Expr} (h : endsPostfix e = false) (acc : List Partial) :
    afterExpr (acc ++ spine e).getLast? = true := by
  obtain ⟨x, hx⟩ := spine_last e h
  rw [List.getLast?_append, hx]
  rfl

theorem getLast_snoc (acc : List Partial) (x : Partial) : (acc ++ [x]).getLast? = some x := by simp

theorem partials_toks {p : Parser} {N : Nat} (hp : Good p N) {term : Term} : ∀ (e : Expr) {m : Mode} {dot : Bool} (n : Nat) (rest : List Lex)
    (acc : List Partial), Clear m dot e → (toks e).length ≤ N → Stops term e → peekIs (.keyword "else") rest = false →
    afterExpr acc.getLast? = false → afterDot acc.getLast? = dot →
    partials p m term (n + cost e) (toks e ++ rest) acc = partials p m term n rest (acc ++ spine e)
  | .single t, m, dot, n, rest, acc, hc, hl, hs, hr, hx, hd => by
    rw [Clear] at hc
    rw [toks_single]
    refine partials_step (hs _ (by simp [openToks])) (word_item ?_)
    rw [hd]
    exact hc
  | .group d e, m, dot, n, rest, acc, hc, hl, hs, hr, hx, hd => by
    obtain ⟨rfl, hin⟩ := hc.group_inner
    rw [toks_group] at hl ⊢
    simp only [List.cons_append, List.append_assoc, List.nil_append]
    refine partials_step (hs _ (by simp [openToks])) ?_
    have := item_paren hp hin (by simp only [List.length_cons, List.length_append] at hl; omega) acc.getLast? rest
    rw [hx] at this
    exact this
  | .binder kw form params args body, m, dot, n, rest, acc, hc, hl, hs, hr, hx, hd => by
    have ht : ∃ ts, toks (.binder kw form params args body) = gen kw :: ts := by
      cases form with
      | plain => exact ⟨_, toks_binder_plain _ _ _ _⟩
      | generic a b => exact ⟨_, toks_binder_generic _ _ _ _ _ _⟩
    obtain ⟨ts, ht⟩ := ht
    have := parseBinder_toks hp hc ht (by rw [ht] at hl; simp at hl; omega) rest
    rw [ht]
    exact partials_step (hs _ (by simp [openToks])) (binder_item hc.binder.2.1 hc.binder.1 this)
  | .ite cond yes no, m, dot, n, rest, acc, hc, hl, hs, hr, hx, hd => by
    rw [Clear] at hc
    rw [toks_ite] at hl ⊢
    have := parseIf_toks hp hc.2.1 hc.2.2.1 hc.2.2.2 (by simp only [List.length_cons] at hl; omega) rest hr
    exact partials_step (hs _ (by simp [openToks])) (if_item hc.1 this)
  | .cases s cs, m, dot, n, rest, acc, hc, hl, hs, hr, hx, hd => by
    rw [Clear] at hc
    rw [toks_cases] at hl ⊢
    have := parseMatch_toks hp hc.2.2.1 hc.2.2.2.1 hc.2.2.2.2 (by simp only [List.length_cons] at hl ⊢; omega) rest
    exact partials_step (hs _ (by simp [openToks])) (match_item hc.1 (hd.trans hc.2.1) this)
  | .unary op e, m, dot, n, rest, acc, hc, hl, hs, hr, hx, hd => by
    rw [Clear] at hc
    have hse : Stops term e := fun t ht => hs t (by simp [openToks, ht])
    have hso : term op = false := hs op (by simp [openToks])
    rw [toks_unary] at hl ⊢
    rw [spine, cost]
    split at hc
    · next hq =>
      subst hq
      rw [if_pos (by rfl)] at hl ⊢
      rw [if_pos (by rfl), List.append_assoc, show n + (cost e + 1) = n + 1 + cost e by omega,
        partials_toks hp e (n + 1) ([gen .questionMark] ++ rest) acc hc.1 (by simp at hl; omega) hse (by rfl) hx hd,
        ← List.append_assoc]
      exact partials_step hso postfix_item
    · next hq =>
      have hq' : ¬ isPostfix op = true := fun z => hq (isPostfix_iff.1 z)
      rw [if_neg hq'] at hl ⊢
      rw [if_neg hq', List.cons_append, ← Nat.add_assoc, partials_step (t := gen op) (new := [.unary op]) hso (prefix_item hc.1 hx),
        partials_toks hp e n rest (acc ++ [Partial.unary op]) hc.2.1 (by simp at hl; omega) hse hr (by rw [getLast_snoc]; rfl)
          (by rw [getLast_snoc]; rfl), List.append_assoc]
      rfl
  | .binary l op r, m, dot, n, rest, acc, hc, hl, hs, hr, hx, hd => by
    rw [Clear] at hc
    obtain ⟨hi, hcl, hcr, -, -, -, -, hmin⟩ := hc
    have hsl : Stops term l := fun t ht => hs t (by simp [openToks, ht])
    have hsr : Stops term r := fun t ht => hs t (by simp [openToks, ht])
    have hso : term op = false := hs op (by simp [openToks])
    rw [toks_binary] at hl ⊢
    simp only [List.length_append, List.length_cons] at hl
    rw [spine, cost, List.append_assoc, show n + (cost l + (cost r + 1)) = n + cost r + 1 + cost l by omega,
      partials_toks hp l (n + cost r + 1) _ acc hcl (by omega) hsl ?_ hx hd, List.cons_append,
      partials_step (t := gen op) (new := [.binary op]) hso (infix_item hi (fun h => afterExpr_spine (hmin h) acc) (skipNewlines_toks hcr rest)),
      partials_toks hp r n rest (acc ++ spine l ++ [Partial.binary op]) hcr (by omega) hsr hr (by rw [getLast_snoc]; rfl)
        (by rw [getLast_snoc]; rfl)]
    · simp
    · rw [List.cons_append, peekIs, gen_ty, decide_eq_false_iff_not]
      rintro rfl
      exact infix_not_closer hi (by decide)
  | .concat l r, m, dot, n, rest, acc, hc, hl, hs, hr, hx, hd => by
    obtain ⟨hcl, -, -, d, e, rfl, hg⟩ := hc.concat
    have hsl : Stops term l := fun t ht => hs t (by simp [openToks, ht])
    have hsd : term d.left = false := hs d.left (by simp [openToks])
    rw [toks_concat, toks_group] at hl ⊢
    simp only [List.length_append, List.length_cons, List.length_nil] at hl
    rw [spine, cost, show n + (cost l + 1) = n + 1 + cost l by omega]
    simp only [List.cons_append, List.append_assoc, List.nil_append]
    rw [partials_toks hp l (n + 1) _ acc hcl (by omega) hsl (by cases d <;> rfl) hx hd,
      partials_step (t := gen d.left) (new := [.implicit, .expr (.group d e)]) hsd ?_, List.append_assoc]
    cases d with
    | paren =>
      dsimp only at hg
      have := item_paren hp hg.2 (by omega) (acc ++ spine l).getLast? rest
      rw [afterExpr_spine hg.1] at this
      exact this
    | bracket =>
      unfold item
      rw [if_pos (by rfl)]
      have := hp.closer (p := p) hg (by omega) (k := .rightBracket) (by decide) (by decide) rest
      simp only [Delim.right]
      rw [this]
      rfl
    | angle =>
      dsimp only at hg
      unfold item
      rw [if_neg (by simp [Delim.left]), if_pos ⟨rfl, hg.1⟩]
      have stops : Stops (· = .greaterThan) e := by
        intro t ht
        simp only [decide_eq_false_iff_not]
        rintro rfl
        exact hg.2.2.1.not_open (.inr rfl) hg.2.1 ht
      have := hp e .typeArg (· = .greaterThan) (gen .greaterThan) rest hg.2.2 (by omega) stops (by rfl) (by decide)
      simp only [Delim.right]
      rw [this]
      rfl

theorem toks_pos (e : Expr) {m : Mode} {dot : Bool} (hc : Clear m dot e) : 0 < (toks e).length := by
  obtain ⟨t, ts, h, -⟩ := toks_head e hc
  rw [h]; simp

theorem cost_le : ∀ (e : Expr) {m : Mode} {dot : Bool}, Clear m dot e → cost e ≤ (toks e).length
  | .single _, _, _, hc | .group _ _, _, _, hc | .binder _ _ _ _ _, _, _, hc | .ite _ _ _, _, _, hc | .cases _ _, _, _, hc => toks_pos _ hc
  | .unary op e, m, dot, hc => by
    rw [Clear] at hc
    rw [cost, toks_unary]
    split at hc
    · have := cost_le e hc.1
      split <;> simp <;> omega
    · have := cost_le e hc.2.1
      split <;> simp <;> omega
  | .binary l op r, m, dot, hc => by
    rw [Clear] at hc
    have h1 := cost_le l hc.2.1
    have h2 := cost_le r hc.2.2.1
    rw [cost, toks_binary]
    simp; omega
  | .concat l r, m, dot, hc => by
    obtain ⟨hcl, -, -, d, e, rfl, -⟩ := hc.concat
    have h1 := cost_le l hcl
    rw [cost, toks_concat, toks_group]
    simp; omega

/-- The parser, with enough fuel. -/
theorem parseGo_toks : ∀ k : Nat, Good (parseGo k) k
  | 0 => fun _ _ _ _ _ _ h => absurd h (by omega)
  | k + 1 => by
    intro e m term t rest hw hl hs ht hne
    have ih := parseGo_toks k
    have hcost := cost_le e hw.1
    rw [parseGo]
    dsimp only
    obtain ⟨n, hn⟩ : ∃ n, (toks e ++ t :: rest).length + 1 = n + 1 + cost e :=
      ⟨(toks e ++ t :: rest).length - cost e, by simp only [List.length_append, List.length_cons] at *; omega⟩
    rw [hn, partials_toks ih e (n + 1) (t :: rest) [] hw.1 (by omega) hs (by simpa [peekIs] using hne) rfl rfl]
    rw [partials, if_pos ht, List.nil_append]
    simp only [bind, Except.bind]
    rw [finish_spine hw]

end Acorn.Parse
