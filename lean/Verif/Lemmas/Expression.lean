/-
Printing and parsing expressions: helper lemmas.
-/
import Verif.Spec.Expression
namespace Acorn.Parse

open Scan Spec

/-! ### Tokens of printed expressions -/

@[simp] theorem lexes_nil : lexes [] = [] := rfl
@[simp] theorem lexes_tok (t : Lex) (ps : List Piece) : lexes (.tok t :: ps) = t :: lexes ps := rfl
@[simp] theorem lexes_word (t : Tk) (ps : List Piece) : lexes (word t :: ps) = gen t :: lexes ps := rfl
@[simp] theorem lexes_space (ps : List Piece) : lexes (.space :: ps) = lexes ps := rfl

@[simp] theorem lexes_append (a b : List Piece) : lexes (a ++ b) = lexes a ++ lexes b := by
  induction a with
  | nil => rfl
  | cons x a ih => cases x <;> simp [lexes, ih]

@[simp] theorem lexes_opt (b : Bool) : lexes (if b then [Piece.space] else []) = [] := by cases b <;> rfl

@[simp] theorem gen_ty (t : Tk) : (gen t).ty = t := rfl

theorem toks_single (t : Lex) : toks (.single t) = [t] := rfl

theorem toks_unary (op : Tk) (e : Expr) :
    toks (.unary op e) = if isPostfix op then toks e ++ [gen op] else gen op :: toks e := by
  unfold toks
  rw [print]
  split
  · simp
  · split <;> simp

theorem toks_binary (l : Expr) (op : Tk) (r : Expr) : toks (.binary l op r) = toks l ++ gen op :: toks r := by
  unfold toks
  rw [print]
  simp

theorem toks_concat (l r : Expr) : toks (.concat l r) = toks l ++ toks r := by
  unfold toks
  rw [print]
  simp

theorem toks_group (d : Delim) (e : Expr) : toks (.group d e) = gen d.left :: (toks e ++ [gen d.right]) := by
  unfold toks
  rw [print]
  simp

/-- The tokens of declarations. -/
def declToks (ds : Decls) : List Lex := lexes (printDecls ds)

/-- The tokens of type parameters. -/
def paramToks (ps : TParams) : List Lex := lexes (printParams ps)

/-- The tokens of cases. -/
def caseToks (cs : Cases) : List Lex := lexes (printCases cs)

/-- The tokens of the argument list of a binder. -/
def argToks (args : Decls) : List Lex := gen .leftParen :: (declToks args ++ [gen .rightParen])

/-- The tokens of a block. -/
def blockToks (e : Expr) : List Lex := gen .leftBrace :: (toks e ++ [gen .rightBrace])

theorem toks_binder_plain (kw : Tk) (params : TParams) (args : Decls) (body : Expr) :
    toks (.binder kw .plain params args body) = gen kw :: (argToks args ++ blockToks body) := by
  unfold toks
  rw [print]
  simp [argToks, blockToks, declToks, toks]

/-- The delimiters of type parameters. -/
def paramDelim (angle : Bool) : Delim := if angle then .angle else .bracket

theorem toks_binder_generic (kw : Tk) (angle bare : Bool) (params : TParams) (args : Decls) (body : Expr) :
    toks (.binder kw (.generic angle bare) params args body) =
      gen kw :: gen (paramDelim angle).left :: (paramToks params ++ gen (paramDelim angle).right ::
        ((if bare then [] else argToks args) ++ blockToks body)) := by
  unfold toks
  rw [print]
  cases angle <;> cases bare <;> simp [argToks, blockToks, declToks, paramToks, toks, paramDelim, Delim.left, Delim.right]

/-- The tokens from `else` on. -/
def elseToks : OptExpr → List Lex
  | .none => []
  | .some e => gen (.keyword "else") :: blockToks e

theorem toks_ite (cond yes : Expr) (no : OptExpr) :
    toks (.ite cond yes no) = gen (.keyword "if") :: (toks cond ++ (blockToks yes ++ elseToks no)) := by
  unfold toks
  rw [print]
  cases no <;> simp [blockToks, elseToks, printElse, toks]

theorem toks_cases (s : Expr) (cs : Cases) :
    toks (.cases s cs) = gen (.keyword "match") :: (toks s ++ gen .leftBrace :: (caseToks cs ++ [gen .rightBrace])) := by
  unfold toks
  rw [print]
  simp [caseToks, toks]

theorem caseToks_cons (pattern body : Expr) (rest : Cases) :
    caseToks (.cons pattern body rest) = toks pattern ++ (blockToks body ++ caseToks rest) := by
  unfold caseToks
  rw [printCases]
  simp [blockToks, toks]

/-- The tokens of declarations after the first. -/
def moreDeclToks (ds : Decls) : List Lex := lexes (printMoreDecls ds)

theorem moreDeclToks_nil : moreDeclToks .nil = [] := by
  unfold moreDeclToks
  rw [printMoreDecls]
  rfl

theorem moreDeclToks_ne {ds : Decls} (h : ds ≠ .nil) : moreDeclToks ds = gen .comma :: declToks ds := by
  unfold moreDeclToks declToks
  cases ds with
  | nil => exact absurd rfl h
  | typed name type rest => rw [printMoreDecls, printDecls]; simp
  | self name rest => rw [printMoreDecls, printDecls]; simp

theorem declToks_nil : declToks .nil = [] := by
  unfold declToks
  rw [printDecls]
  rfl

theorem declToks_typed (name : Lex) (type : Expr) (rest : Decls) :
    declToks (.typed name type rest) = name :: gen .colon :: (toks type ++ moreDeclToks rest) := by
  unfold declToks
  rw [printDecls]
  simp [moreDeclToks, toks]

theorem declToks_self (name : Lex) (rest : Decls) : declToks (.self name rest) = name :: moreDeclToks rest := by
  unfold declToks
  rw [printDecls]
  simp [moreDeclToks]

/-- The tokens of type parameters after the first. -/
def moreParamToks (ps : TParams) : List Lex := lexes (printMoreParams ps)

theorem moreParamToks_nil : moreParamToks .nil = [] := by
  unfold moreParamToks
  rw [printMoreParams]
  rfl

theorem moreParamToks_ne {ps : TParams} (h : ps ≠ .nil) : moreParamToks ps = gen .comma :: paramToks ps := by
  unfold moreParamToks paramToks
  cases ps with
  | nil => exact absurd rfl h
  | cons name inner typeclass rest => rw [printMoreParams, printParams]; simp

/-- The tokens of the bracketed part of a type parameter. -/
def innerToks : OptExpr → List Lex
  | .none => []
  | .some e => gen .leftBracket :: (toks e ++ [gen .rightBracket])

/-- The tokens of the typeclass of a type parameter. -/
def classToks : OptExpr → List Lex
  | .none => []
  | .some e => gen .colon :: toks e

theorem paramToks_cons (name : Lex) (inner typeclass : OptExpr) (rest : TParams) :
    paramToks (.cons name inner typeclass rest) = name :: (innerToks inner ++ (classToks typeclass ++ moreParamToks rest)) := by
  unfold paramToks
  rw [printParams]
  cases inner <;> cases typeclass <;> simp [innerToks, classToks, moreParamToks, printInner, printClass, toks]

/-! ### The strength of operators -/

theorem strength_infix {m : Mode} {op : Tk} (h : Infix m op) : strength (.infix op) = binaryPrec op := by
  unfold Infix at h
  cases m with
  | value =>
    simp only [valueInfix, List.mem_cons, List.not_mem_nil, or_false] at h
    rcases h with h | h | h | h | h | h | h | h | h | h | h | h | h | h | h | h | h | h | h | h | h | h | h | h | h | h | h | h <;> subst h <;> decide
  | type => rcases h with h | h | h <;> subst h <;> decide
  | typeArg =>
    rcases h with h | ⟨h, -⟩
    · subst h; decide
    simp only [valueInfix, List.mem_cons, List.not_mem_nil, or_false] at h
    rcases h with h | h | h | h | h | h | h | h | h | h | h | h | h | h | h | h | h | h | h | h | h | h | h | h | h | h | h | h <;> subst h <;> decide

theorem infix_isBinary {m : Mode} {op : Tk} (h : Infix m op) : isBinary op = true ∧ binaryOk m op = true ∧ 0 < binaryPrec op ∧
    op ≠ .leftBracket ∧ (op = .lessThan → m = .value) ∧ (isUnary op = true → op = .minus) ∧ (m = .value → op ≠ .rightArrow) := by
  unfold Infix at h
  cases m with
  | value =>
    simp only [valueInfix, List.mem_cons, List.not_mem_nil, or_false] at h
    rcases h with h | h | h | h | h | h | h | h | h | h | h | h | h | h | h | h | h | h | h | h | h | h | h | h | h | h | h | h <;> subst h <;> decide
  | type => rcases h with h | h | h <;> subst h <;> decide
  | typeArg =>
    rcases h with h | ⟨h, hne⟩
    · subst h; decide
    simp only [valueInfix, List.mem_cons, List.not_mem_nil, or_false] at h
    rcases h with h | h | h | h | h | h | h | h | h | h | h | h | h | h | h | h | h | h | h | h | h | h | h | h | h | h | h | h <;>
      first | (subst h; decide) | (subst h; simp_all)

theorem strength_prefix {m : Mode} {op : Tk} (h : Prefix m op) : strength (.prefix op) = unaryPrec op ∧ 0 < unaryPrec op := by
  rcases h with h | h | ⟨h, -⟩ <;> subst h <;> decide

theorem strength_postfix : strength (.postfix .questionMark) = 13 := by decide
theorem strength_apply : strength .apply = 14 := by decide

/-! ### The open part of an expression -/

/-- The partial expressions that the open part of an expression consists of. -/
def spine : Expr → List Partial
  | .unary op e => if isPostfix op then spine e ++ [.postfix op] else .unary op :: spine e
  | .binary l op r => spine l ++ .binary op :: spine r
  | .concat l r => spine l ++ [.implicit, .expr r]
  | e => [.expr e]

theorem spine_ne (e : Expr) : spine e ≠ [] := by
  cases e <;> rw [spine] <;> (try split) <;> simp

theorem isPostfix_iff {op : Tk} : isPostfix op = true ↔ op = .questionMark := by simp [isPostfix]

theorem spine_last : ∀ e : Expr, endsPostfix e = false → ∃ x, (spine e).getLast? = some (.expr x)
  | .single _, _ | .group _ _, _ | .binder _ _ _ _ _, _ | .ite _ _ _, _ | .cases _ _, _ => ⟨_, rfl⟩
  | .unary op e, h => by
    rw [endsPostfix, Bool.or_eq_false_iff] at h
    obtain ⟨x, hx⟩ := spine_last e h.2
    rw [spine, if_neg (by simpa [isPostfix] using h.1)]
    exact ⟨x, by rw [List.getLast?_cons, hx]; rfl⟩
  | .binary l op r, h => by
    obtain ⟨x, hx⟩ := spine_last r h
    rw [spine]
    exact ⟨x, by rw [List.getLast?_append, List.getLast?_cons, hx]; rfl⟩
  | .concat l r, _ => by rw [spine]; exact ⟨r, by simp⟩

/-- What stands at an index of the open part. -/
theorem spine_get : ∀ (e : Expr) (i : Nat) (x : Partial), (spine e)[i]? = some x →
    (∃ y, x = .expr y) ∨ (∃ op, x = .binary op ∧ .infix op ∈ openOps e) ∨ (x = .implicit ∧ .apply ∈ openOps e) ∨
      (∃ op, x = .unary op ∧ (i = 0 → leading e = some (.prefix op))) ∨
        (x = .postfix .questionMark ∧ (i + 1 = (spine e).length → endsPostfix e = true))
  | .single _, i, x, h | .group _ _, i, x, h | .binder _ _ _ _ _, i, x, h | .ite _ _ _, i, x, h | .cases _ _, i, x, h => by
    rw [spine] at h
    · rcases i with _ | i
      · exact .inl ⟨_, (Option.some.inj h).symm⟩
      · simp at h
    all_goals simp
  | .unary op e, i, x, h => by
    rw [spine] at h
    split at h
    · next hp =>
      have hq := isPostfix_iff.1 hp
      by_cases hi : i < (spine e).length
      · rw [List.getElem?_append_left hi] at h
        rcases spine_get e i x h with h' | ⟨o, e1, e2⟩ | ⟨e1, e2⟩ | ⟨o, e1, e2⟩ | ⟨e1, e2⟩
        · exact .inl h'
        · exact .inr (.inl ⟨o, e1, by rw [openOps]; exact e2⟩)
        · exact .inr (.inr (.inl ⟨e1, by rw [openOps]; exact e2⟩))
        · exact .inr (.inr (.inr (.inl ⟨o, e1, fun z => by rw [leading, if_pos hq]; exact e2 z⟩)))
        · exact .inr (.inr (.inr (.inr ⟨e1, fun _ => by rw [endsPostfix, hq]; rfl⟩)))
      · rw [List.getElem?_append_right (Nat.le_of_not_lt hi)] at h
        rcases hj : i - (spine e).length with _ | j
        · rw [hj] at h
          exact .inr (.inr (.inr (.inr ⟨by rw [← hq]; exact (Option.some.inj h).symm, fun _ => by rw [endsPostfix, hq]; rfl⟩)))
        · rw [hj] at h; simp at h
    · next hp =>
      have hq : ¬ op = .questionMark := fun z => hp (isPostfix_iff.2 z)
      rcases i with _ | i
      · exact .inr (.inr (.inr (.inl ⟨op, (Option.some.inj h).symm, fun _ => by rw [leading, if_neg hq]⟩)))
      · rw [List.getElem?_cons_succ] at h
        rcases spine_get e i x h with h' | ⟨o, e1, e2⟩ | ⟨e1, e2⟩ | ⟨o, e1, e2⟩ | ⟨e1, e2⟩
        · exact .inl h'
        · exact .inr (.inl ⟨o, e1, by rw [openOps]; exact e2⟩)
        · exact .inr (.inr (.inl ⟨e1, by rw [openOps]; exact e2⟩))
        · exact .inr (.inr (.inr (.inl ⟨o, e1, fun z => by simp at z⟩)))
        · refine .inr (.inr (.inr (.inr ⟨e1, fun z => ?_⟩)))
          rw [spine, if_neg hp] at z
          rw [endsPostfix, e2 (by simpa using z), Bool.or_true]
  | .binary l op r, i, x, h => by
    rw [spine] at h
    by_cases hi : i < (spine l).length
    · rw [List.getElem?_append_left hi] at h
      rcases spine_get l i x h with h' | ⟨o, e1, e2⟩ | ⟨e1, e2⟩ | ⟨o, e1, e2⟩ | ⟨e1, e2⟩
      · exact .inl h'
      · exact .inr (.inl ⟨o, e1, by rw [openOps]; exact List.mem_append_left _ e2⟩)
      · exact .inr (.inr (.inl ⟨e1, by rw [openOps]; exact List.mem_append_left _ e2⟩))
      · exact .inr (.inr (.inr (.inl ⟨o, e1, fun z => by rw [leading]; exact e2 z⟩)))
      · refine .inr (.inr (.inr (.inr ⟨e1, fun z => ?_⟩)))
        rw [spine] at z
        simp at z; omega
    · rw [List.getElem?_append_right (Nat.le_of_not_lt hi)] at h
      rcases hj : i - (spine l).length with _ | j
      · rw [hj] at h
        exact .inr (.inl ⟨op, (Option.some.inj h).symm, by rw [openOps]; simp⟩)
      · rw [hj, List.getElem?_cons_succ] at h
        rcases spine_get r j x h with h' | ⟨o, e1, e2⟩ | ⟨e1, e2⟩ | ⟨o, e1, e2⟩ | ⟨e1, e2⟩
        · exact .inl h'
        · exact .inr (.inl ⟨o, e1, by rw [openOps]; simp [e2]⟩)
        · exact .inr (.inr (.inl ⟨e1, by rw [openOps]; simp [e2]⟩))
        · exact .inr (.inr (.inr (.inl ⟨o, e1, fun z => by omega⟩)))
        · refine .inr (.inr (.inr (.inr ⟨e1, fun z => ?_⟩)))
          rw [spine] at z
          rw [endsPostfix]
          exact e2 (by simp at z; omega)
  | .concat l r, i, x, h => by
    rw [spine] at h
    by_cases hi : i < (spine l).length
    · rw [List.getElem?_append_left hi] at h
      rcases spine_get l i x h with h' | ⟨o, e1, e2⟩ | ⟨e1, e2⟩ | ⟨o, e1, e2⟩ | ⟨e1, e2⟩
      · exact .inl h'
      · exact .inr (.inl ⟨o, e1, by rw [openOps]; exact List.mem_append_left _ e2⟩)
      · exact .inr (.inr (.inl ⟨e1, by rw [openOps]; exact List.mem_append_left _ e2⟩))
      · exact .inr (.inr (.inr (.inl ⟨o, e1, fun z => by rw [leading]; exact e2 z⟩)))
      · refine .inr (.inr (.inr (.inr ⟨e1, fun z => ?_⟩)))
        rw [spine] at z
        simp at z; omega
    · rw [List.getElem?_append_right (Nat.le_of_not_lt hi)] at h
      rcases hj : i - (spine l).length with _ | j
      · rw [hj] at h
        exact .inr (.inr (.inl ⟨(Option.some.inj h).symm, by rw [openOps]; simp⟩))
      · rw [hj, List.getElem?_cons_succ] at h
        rcases j with _ | j
        · exact .inl ⟨r, (Option.some.inj h).symm⟩
        · simp at h

/-! ### The operator that operates last -/

/-- The order of keys, strictly. -/
def KeyLt (a b : Int × Int) : Prop := a.1 < b.1 ∨ a.1 = b.1 ∧ a.2 < b.2

theorem keyLe_of_lt {a b : Int × Int} (h : KeyLt a b) : keyLe a b = true ∧ keyLe b a = false := by
  unfold KeyLt at h
  unfold keyLe
  rcases h with h | ⟨h1, h2⟩
  · constructor
    · simp [h]
    · simp; omega
  · constructor
    · simp [h1]; omega
    · simp [h1]; omega

theorem maxKey_stays {len : Nat} {k : Int × Int} : ∀ (ps : List Partial) (i : Nat),
    (∀ j x k', ps[j]? = some x → key len (i + j) x = some k' → KeyLt k' k) → maxKey len i ps (some k) = some k
  | [], _, _ => rfl
  | x :: ps, i, h => by
    rw [maxKey]
    have hs : laterKey (some k) (key len i x) = some k := by
      cases hk : key len i x with
      | none => rfl
      | some k' =>
        have := (keyLe_of_lt (h 0 x k' rfl hk)).2
        simp [laterKey, this]
    rw [hs]
    exact maxKey_stays ps (i + 1) fun j y k' hy hk => h (j + 1) y k' (by simpa using hy) (by rw [← hk]; congr 1; omega)

theorem maxKey_found {len : Nat} {k : Int × Int} (a : List Partial) (x : Partial) (b : List Partial) : ∀ (i : Nat) (best : Option (Int × Int)),
    (∀ k', best = some k' → KeyLt k' k) → key len (i + a.length) x = some k →
    (∀ j y k', a[j]? = some y → key len (i + j) y = some k' → KeyLt k' k) →
    (∀ j y k', b[j]? = some y → key len (i + a.length + 1 + j) y = some k' → KeyLt k' k) →
    maxKey len i (a ++ x :: b) best = some k := by
  induction a with
  | nil =>
    intro i best hbest hx _ hb
    rw [List.nil_append, maxKey]
    have hs : laterKey best (key len i x) = some k := by
      rw [show key len i x = some k from hx]
      cases best with
      | none => rfl
      | some k' => simp [laterKey, (keyLe_of_lt (hbest k' rfl)).1]
    rw [hs]
    exact maxKey_stays b (i + 1) fun j y k' hy hk => hb j y k' hy (by simpa using hk)
  | cons y a ih =>
    intro i best hbest hx ha hb
    rw [List.cons_append, maxKey]
    refine ih (i + 1) _ ?_ (by rw [← hx]; congr 1; simp; omega) ?_ ?_
    · intro k' hk'
      cases hk : key len i y with
      | none => rw [hk] at hk'; exact hbest k' hk'
      | some k2 =>
        rw [hk] at hk'
        have h2 := ha 0 y k2 rfl hk
        cases best with
        | none => injection hk' with hk'; subst hk'; exact h2
        | some k3 =>
          rw [laterKey] at hk'
          split at hk'
          · injection hk' with hk'; subst hk'; exact h2
          · injection hk' with hk'; subst hk'; exact hbest _ rfl
    · intro j z k' hz hk
      exact ha (j + 1) z k' (by simpa using hz) (by rw [← hk]; congr 1; omega)
    · intro j z k' hz hk
      exact hb j z k' hz (by rw [← hk]; congr 1; simp; omega)

theorem findLast_found (a : List Partial) (x : Partial) (b : List Partial) (k : Int × Int)
    (hx : key (a ++ x :: b).length a.length x = some k) (hk0 : k.1 ≠ 0) (hk : k.2.natAbs = a.length)
    (ha : ∀ j y k', a[j]? = some y → key (a ++ x :: b).length j y = some k' → KeyLt k' k)
    (hb : ∀ j y k', b[j]? = some y → key (a ++ x :: b).length (a.length + 1 + j) y = some k' → KeyLt k' k) :
    findLast (a ++ x :: b) = .ok (some a.length) := by
  unfold findLast
  rw [maxKey_found a x b 0 none (fun _ h => by cases h) (by simpa using hx)
    (fun j y k' hy h => ha j y k' hy (by simpa using h)) (fun j y k' hy h => hb j y k' hy (by simpa using h))]
  dsimp only
  rw [if_neg hk0, hk]

end Acorn.Parse
