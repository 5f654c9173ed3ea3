/-
C42: an expression that is printed reads back as the same expression.
-/
import Verif.Lemmas.ExpressionEnd
import Verif.Lemmas.ExpressionGen
namespace Acorn

open Parse Spec Scan

/-- C42: the tokens of a printed expression are read back as the same expression, and reading stops in front of
the token that ends it.  `Written` says which expressions have enough parentheses. -/
theorem C42_roundtrip {m : Mode} {term : Tk → Bool} {e : Expr} {t : Lex} {rest : List Lex} (hw : Written m e)
    (hs : Stops term e) (ht : term t.ty = true) (he : t.ty ≠ .keyword "else") :
    parse m term (toks e ++ t :: rest) = .ok (e, t, rest) :=
  parseGo_toks _ e m term t rest hw (by simp; omega) hs ht he

/-- C42: different expressions are printed differently. -/
theorem C42_unambiguous {m : Mode} {e e' : Expr} (hw : Written m e) (hw' : Written m e') (h : toks e = toks e') : e = e' := by
  have key : ∀ x, Written m x → parse m (· = .rightBrace) (toks x ++ [gen .rightBrace]) = .ok (x, gen .rightBrace, []) := by
    intro x hx
    refine C42_roundtrip hx (fun t ht => ?_) (by decide) (by decide)
    simp only [decide_eq_false_iff_not]
    rintro rfl
    exact hx.1.not_closer ht (by simp [closers])
  have a := key e hw
  rw [h, key e' hw'] at a
  injection a with a
  injection a with a
  exact a.symm

/-- C42: what is read is what was there: the tokens of the expression, apart from newlines, are the tokens in
front of the one that ended it, in the same order. -/
theorem C42_nothing_lost {m : Mode} {term : Tk → Bool} {ts : List Lex} {e : Expr} {t : Lex} {rest : List Lex}
    (hg : ∀ u ∈ ts, Genuine u) (h : parse m term ts = .ok (e, t, rest)) :
    term t.ty = true ∧ ∃ used, ts = used ++ t :: rest ∧ toks e = used.filter fun u => u.ty ≠ .newLine := by
  obtain ⟨⟨used, rfl, -, hu⟩, ht⟩ := parseGo_reads _ m term ts e t rest h
  exact ⟨ht, used, rfl, (hu fun u hu => hg u (by simp [hu])).symm⟩

/-- C42: printing what was read and reading it again gives the same expression, if there are no newlines. -/
theorem C42_reprint {m : Mode} {term : Tk → Bool} {ts : List Lex} {e : Expr} {t : Lex} {rest : List Lex}
    (hg : ∀ u ∈ ts, Genuine u ∧ u.ty ≠ .newLine) (h : parse m term ts = .ok (e, t, rest)) :
    parse m term (toks e ++ t :: rest) = .ok (e, t, rest) := by
  obtain ⟨-, used, rfl, hu⟩ := C42_nothing_lost (fun u hu => (hg u hu).1) h
  rw [hu, List.filter_eq_self.2 fun u hu => by simpa using (hg u (by simp [hu])).2]
  exact h

/-- C42: reading always comes to an end. -/
theorem C42_terminates (m : Mode) (term : Tk → Bool) (ts : List Lex) : parse m term ts ≠ .error .fuel :=
  parseGo_fine _ m term ts (by omega)

/-- The operand itself, or the operand in parentheses. -/
def Spec.Operand (e e' : Expr) : Prop := e' = e ∨ e' = .group .paren e

theorem operand_if {p : Prop} [Decidable p] (e : Expr) : Operand e (if p then paren e else e) := by
  split
  · exact .inr rfl
  · exact .inl rfl

/-- C42: the code generator puts parentheses around the operands of an infix operator where they are needed.

Partial: not if the right operand has a prefix operator in front of looser operators, if an `implies` is the
left operand of an `implies`, if a `?` is in front of a minus, or if a `<` is followed by a `>`; see the
examples below. -/
theorem C42_generate_binary_partial {l r : Expr} {op : Tk} (hl : Written .value l) (hr : Written .value r) (hi : op ∈ valueInfix)
    (hd : op ≠ .dot) (hc : op ≠ .comma)
    (h1 : ∀ p x, r = .unary p x → ∀ o ∈ openOps r, strength (.infix op) < strength o)
    (h2 : op = .minus → endsPostfix l = false) (h3 : op = .keyword "implies" → .infix (.keyword "implies") ∉ openOps l)
    (h4 : NoTypeList (openOps (generateBinary l op r))) {term : Tk → Bool} {t : Lex} {rest : List Lex}
    (hs : Stops term (generateBinary l op r)) (ht : term t.ty = true) (he : t.ty ≠ .keyword "else") :
    ∃ l' r', generateBinary l op r = .binary l' op r' ∧ Operand l l' ∧ Operand r r' ∧
      parse .value term (toks (generateBinary l op r) ++ t :: rest) = .ok (generateBinary l op r, t, rest) := by
  refine ⟨_, _, rfl, operand_if l, operand_if r, C42_roundtrip ?_ hs ht he⟩
  refine generateBinary_written hl hr hi hd hc ?_ h1 h2 h3 fun _ => h4
  rintro rfl
  revert hi
  decide

/-- C42: the code generator writes a member of an expression so that it reads back. -/
theorem C42_generate_member {l : Expr} {name : Lex} (hl : Written .value l) (hn : name.ty = .identifier)
    {term : Tk → Bool} {t : Lex} {rest : List Lex} (hs : Stops term (generateBinary l .dot (.single name)))
    (ht : term t.ty = true) (he : t.ty ≠ .keyword "else") :
    ∃ l', generateBinary l .dot (.single name) = .binary l' .dot (.single name) ∧ Operand l l' ∧
      parse .value term (toks (generateBinary l .dot (.single name)) ++ t :: rest) =
        .ok (generateBinary l .dot (.single name), t, rest) := by
  refine ⟨if topPrec false l < binaryPrec .dot then paren l else l, ?_, operand_if l, C42_roundtrip ?_ hs ht he⟩
  · rw [generateBinary, if_neg (show ¬ topPrec true (.single name) ≤ binaryPrec .dot from (by decide : ¬ 127 ≤ 14))]
  · exact generateMember_written hl (by simp [Infix, valueInfix]) hn

/-- C42: the code generator writes a negation so that it reads back. -/
theorem C42_generate_not {e : Expr} (hw : Written .value e) {term : Tk → Bool} {t : Lex} {rest : List Lex}
    (hs : Stops term (generateUnary (.keyword "not") e)) (ht : term t.ty = true) (he : t.ty ≠ .keyword "else") :
    ∃ e', generateUnary (.keyword "not") e = .unary (.keyword "not") e' ∧ Operand e e' ∧
      parse .value term (toks (generateUnary (.keyword "not") e) ++ t :: rest) = .ok (generateUnary (.keyword "not") e, t, rest) :=
  ⟨_, rfl, operand_if e, C42_roundtrip (generateUnary_not (.inl rfl) hw) hs ht he⟩

/-- C42: the code generator writes a minus so that it reads back.

Partial: not if the operand starts with `not` or `transport`, or ends with `?`; see the examples below. -/
theorem C42_generate_minus_partial {e : Expr} (hw : Written .value e) (hm : ∀ p x, e = .unary p x → p = .minus)
    {term : Tk → Bool} {t : Lex} {rest : List Lex}
    (hs : Stops term (generateUnary .minus e)) (ht : term t.ty = true) (he : t.ty ≠ .keyword "else") :
    ∃ e', generateUnary .minus e = .unary .minus e' ∧ Operand e e' ∧
      parse .value term (toks (generateUnary .minus e) ++ t :: rest) = .ok (generateUnary .minus e, t, rest) :=
  ⟨_, rfl, operand_if e, C42_roundtrip (generateUnary_minus (by decide) hw hm) hs ht he⟩

/-- C42: the code generator writes an application so that it reads back.

Partial: not if the function is an operator, or if a `<` is followed by a `>` in the arguments; see the examples
below. -/
theorem C42_generate_apply_partial {f e : Expr} {es : List Expr} (hf : Written .value f)
    (hfo : ∀ o ∈ openOps f, strength .apply ≤ strength o) (hfl : leading f = none) (hfp : endsPostfix f = false)
    (ha : ∀ x ∈ e :: es, Written .value x ∧ .infix .comma ∉ openOps x) (hn : NoTypeList (openOps (commas e es)))
    {term : Tk → Bool} {t : Lex} {rest : List Lex}
    (hs : Stops term (generateApply f e es)) (ht : term t.ty = true) (he : t.ty ≠ .keyword "else") :
    parse .value term (toks (generateApply f e es) ++ t :: rest) = .ok (generateApply f e es, t, rest) := by
  obtain ⟨h1, -⟩ := ha e (by simp)
  refine C42_roundtrip (generateApply_written (by simp [Infix, valueInfix]) hf hfo hfl hfp h1 (h1.2.1 (by decide))
    (fun x hx => ?_) fun _ => hn) hs ht he
  obtain ⟨h2, h3⟩ := ha x (by simp [hx])
  exact ⟨h2, h3, h2.2.1 (by decide)⟩

/-! ### Examples -/

namespace ExpressionExample

/-- The variable with a name. -/
def var (s : String) : Expr := .single ⟨.identifier, s⟩

/-- The variables. -/
def a : Expr := var "a"
def b : Expr := var "b"
def c : Expr := var "c"
def d : Expr := var "d"

/-- Reading a whole line. -/
def line (ts : List Lex) : Res Expr :=
  match parse .value (· = .newLine) (ts ++ [gen .newLine]) with
  | .ok (e, _, _) => .ok e
  | .error e => .error e

theorem written_var (m : Mode) (s : String) : Written m (var s) := by
  refine ⟨?_, opsOk_nil m⟩
  rw [var, Clear]
  exact .inl (.inl rfl)

/-- `forall(x: Nat -> Bool) { not (a = b) and f(a, b) }` with a bound variable applied. -/
def good : Expr :=
  .binder (.keyword "forall") .plain .nil
    (.typed ⟨.identifier, "x"⟩ (.binary (var "Nat") .rightArrow (var "Bool")) .nil)
    (.binary (.unary (.keyword "not") (.group .paren (.binary a .equals b))) (.keyword "and")
      (.concat (var "x") (.group .paren (.binary a .plus b))))

theorem written_good : Written .value good := by
  refine ⟨?_, opsOk_nil _⟩
  have hv : ∀ m dot s, Clear m dot (var s) := fun m dot s => by
    rw [var, Clear]; exact .inl (.inl rfl)
  have none : ∀ {ops : List Opr} (m : Mode), .infix (.keyword "implies") ∉ ops → .infix .lessThan ∉ ops → OpsOk m ops := by
    intro ops m h1 h2
    refine ⟨fun _ => oneImplies_of_none h1, fun _ a b c h => absurd ?_ h2⟩
    rw [h]; simp
  unfold good
  rw [Clear]
  refine ⟨by decide, .inl rfl, ?_, ?_, ?_, rfl⟩
  · rw [ClearDecls, Clear]
    refine ⟨⟨rfl, by decide, 'x', [], by decide, by decide⟩, ⟨⟨.inr (.inl rfl), hv _ _ _, hv _ _ _, ?_, ?_, ?_, ?_, ?_⟩, ?_⟩, ?_, by rw [ClearDecls]; trivial⟩
    · simp [var, openOps]
    · simp [var, openOps]
    · simp [var, leading]
    · simp [var, endsPostfix]
    · intro h; cases h
    · exact none _ (by simp [var, openOps]) (by simp [var, openOps])
    · simp [var, openOps]
  · rw [Clear]
    refine ⟨by simp [Infix, valueInfix], ?_, ?_, ?_, ?_, ?_, ?_, ?_⟩
    · rw [Clear, if_neg (by decide), Clear]
      refine ⟨.inl rfl, ⟨rfl, .inr ⟨?_, none _ (by simp [a, b, var, openOps]) (by simp [a, b, var, openOps])⟩⟩, by simp [openOps], by simp [endsPostfix]⟩
      rw [Clear]
      refine ⟨by simp [Infix, valueInfix], hv _ _ _, hv _ _ _, ?_, ?_, ?_, ?_, ?_⟩
      · simp [a, var, openOps]
      · simp [b, var, openOps]
      · simp [a, var, leading]
      · simp [b, var, endsPostfix]
      · intro h; cases h
    · rw [Clear]
      refine ⟨hv _ _ _, by simp [var, openOps], rfl, rfl, .inr ⟨?_, none _ (by simp [a, b, var, openOps]) (by simp [a, b, var, openOps])⟩⟩
      rw [Clear]
      refine ⟨by simp [Infix, valueInfix], hv _ _ _, hv _ _ _, ?_, ?_, ?_, ?_, ?_⟩
      · simp [a, var, openOps]
      · simp [b, var, openOps]
      · simp [a, var, leading]
      · simp [b, var, endsPostfix]
      · intro h; cases h
    · simp [openOps]
    · intro o ho
      simp [openOps, var] at ho
      subst ho
      decide
    · intro o ho
      simp [leading] at ho
      subst ho
      decide
    · simp [endsPostfix]
    · intro h; cases h
  · exact none _ (by simp [var, openOps]) (by simp [var, openOps])

/-- The hypotheses of `C42_roundtrip` can be met. -/
example : Written .value good ∧ Stops (· = .newLine) good ∧ line (toks good) = .ok good := by
  refine ⟨written_good, fun t ht => ?_, by rfl⟩
  simp only [good, openToks, List.mem_singleton] at ht
  subst ht
  decide

/-- The hypotheses of `C42_nothing_lost` and `C42_reprint` can be met. -/
example : (∀ u ∈ toks good ++ [gen .newLine], Genuine u) ∧
    parse .value (· = .newLine) (toks good ++ [gen .newLine]) = .ok (good, gen .newLine, []) ∧
    (∀ u ∈ toks good ++ [gen .rightBrace], Genuine u ∧ u.ty ≠ .newLine) ∧
    parse .value (· = .rightBrace) (toks good ++ [gen .rightBrace]) = .ok (good, gen .rightBrace, []) := by
  refine ⟨?_, by rfl, ?_, by rfl⟩
  · show ∀ u ∈ toks good ++ [gen .newLine], u.ty = .identifier ∨ u.ty = .numeral ∨ u = gen u.ty
    decide +kernel
  · show ∀ u ∈ toks good ++ [gen .rightBrace], (u.ty = .identifier ∨ u.ty = .numeral ∨ u = gen u.ty) ∧ u.ty ≠ .newLine
    decide +kernel

/-- `a + b * c` and `(a + b) * c`: the hypotheses of `C42_generate_binary_partial` can be met, with and without
parentheses. -/
example : ∃ s s', generateBinary a .plus b = s ∧ generateBinary s .asterisk c = s' ∧
    s' = .binary (.group .paren s) .asterisk c ∧ line (toks s') = .ok s' ∧
    generateBinary a .plus (generateBinary b .asterisk c) = .binary a .plus (.binary b .asterisk c) := by
  have none : ∀ {ops : List Opr}, .infix .lessThan ∉ ops → NoTypeList ops := fun h a b c e => absurd (by rw [e]; simp) h
  have h1 : Written .value (generateBinary a .plus b) :=
    generateBinary_written (written_var _ _) (written_var _ _) (by simp [Infix, valueInfix]) (by decide) (by decide) (by decide)
      (fun p x h => by cases h) (fun h => by cases h) (fun h => by cases h)
      fun _ => none (by simp [generateBinary, topPrec, a, b, var, openOps, binaryPrec])
  obtain ⟨l, r, e, hl, hr, hp⟩ := C42_generate_binary_partial (op := .asterisk) (term := (· = .newLine)) (t := gen .newLine) (rest := [])
    h1 (written_var .value "c") (by simp [valueInfix]) (by decide) (by decide) (fun p x h => by cases h) (fun h => by cases h)
    (fun h => by cases h) (none (by simp [generateBinary, topPrec, a, b, var, openOps, binaryPrec, paren]))
    (by unfold Stops; decide +kernel) rfl (by decide)
  refine ⟨_, _, rfl, rfl, rfl, ?_, rfl⟩
  unfold line c
  rw [hp]

/-- The hypotheses of `C42_generate_not`, `C42_generate_minus_partial`, `C42_generate_member` and
`C42_generate_apply_partial` can be met. -/
example : line (toks (generateUnary (.keyword "not") (.unary (.keyword "not") a))) = .ok (.unary (.keyword "not") (.unary (.keyword "not") a)) ∧
    line (toks (generateUnary .minus (.unary .minus a))) = .ok (.unary .minus (.unary .minus a)) ∧
    line (toks (generateBinary (.unary .minus a) .dot (var "f"))) = .ok (.binary (.group .paren (.unary .minus a)) .dot (var "f")) ∧
    line (toks (generateApply (var "f") a [b])) = .ok (.concat (var "f") (.group .paren (.binary a .comma b))) := by
  have hn : Written .value (generateUnary (.keyword "not") a) := generateUnary_not (.inl rfl) (written_var _ _)
  have hm : Written .value (generateUnary .minus a) := generateUnary_minus (by decide) (written_var _ _) (fun p x h => by cases h)
  refine ⟨?_, ?_, ?_, ?_⟩
  · obtain ⟨_, _, _, h⟩ := C42_generate_not (term := (· = .newLine)) (t := gen .newLine) (rest := []) hn (by unfold Stops; decide +kernel) rfl (by decide)
    exact congrArg (fun r : Res (Expr × Lex × List Lex) => match r with | .ok (e, _, _) => (.ok e : Res Expr) | .error e => .error e) h
  · obtain ⟨_, _, _, h⟩ := C42_generate_minus_partial (term := (· = .newLine)) (t := gen .newLine) (rest := []) hm
      (fun p x h => by injection h with h; exact h.symm) (by unfold Stops; decide +kernel) rfl (by decide)
    exact congrArg (fun r : Res (Expr × Lex × List Lex) => match r with | .ok (e, _, _) => (.ok e : Res Expr) | .error e => .error e) h
  · obtain ⟨_, _, _, h⟩ := C42_generate_member (name := ⟨.identifier, "f"⟩) (term := (· = .newLine)) (t := gen .newLine) (rest := []) hm rfl
      (by unfold Stops; decide +kernel) rfl (by decide)
    exact congrArg (fun r : Res (Expr × Lex × List Lex) => match r with | .ok (e, _, _) => (.ok e : Res Expr) | .error e => .error e) h
  · have h := C42_generate_apply_partial (f := var "f") (e := a) (es := [b]) (term := (· = .newLine)) (t := gen .newLine) (rest := [])
      (written_var _ _) (by simp [var, openOps]) rfl rfl
      (by
        intro x hx
        simp only [List.mem_cons, List.not_mem_nil, or_false] at hx
        rcases hx with rfl | rfl
        · exact ⟨written_var _ _, by simp [a, var, openOps]⟩
        · exact ⟨written_var _ _, by simp [b, var, openOps]⟩)
      (fun x y z h => by
        have : Opr.infix .lessThan ∈ openOps (commas a [b]) := by rw [h]; simp
        simp [commas, a, b, var, openOps] at this)
      (by unfold Stops; decide +kernel) rfl (by decide)
    exact congrArg (fun r : Res (Expr × Lex × List Lex) => match r with | .ok (e, _, _) => (.ok e : Res Expr) | .error e => .error e) h

/-! ### What goes wrong -/

/-- `a = (not (b = c))`, as the code generator writes it. -/
def negatedRight : Expr := generateBinary a .equals (generateUnary (.keyword "not") (generateBinary b .equals c))

/-- `(a implies b) implies c`, as the code generator writes it. -/
def twoImplies : Expr := generateBinary (generateBinary a (.keyword "implies") b) (.keyword "implies") c

/-- `f(a < b, c > d)`, as the code generator writes it. -/
def comparisons : Expr := generateApply (var "f") (generateBinary a .lessThan b) [generateBinary c .greaterThan d]

/-- `(a + b)?`, as the code generator writes it (code_generator.rs:1906-1909). -/
def tried : Expr := generateUnary .questionMark (generateBinary a .plus b)

/-- `-(a?)`, as the code generator writes it. -/
def minusTried : Expr := generateUnary .minus (generateUnary .questionMark a)

/-- `-(not (a = b))`, as the code generator writes it. -/
def minusNot : Expr := generateBinary (generateUnary .minus (generateUnary (.keyword "not") a)) .equals b

/-- `(a?)(b)`, as the code generator writes it. -/
def triedCall : Expr := generateApply (generateUnary .questionMark a) b []

end ExpressionExample

open ExpressionExample

/-- C42 does not hold for all expressions that the code generator makes: some are read back as something
else, and some are not read at all. -/
theorem C42_generated_misread :
    (negatedRight = .binary a .equals (.unary (.keyword "not") (.binary b .equals c)) ∧
      line (toks negatedRight) = .ok (.binary (.binary a .equals (.unary (.keyword "not") b)) .equals c)) ∧
    (tried = .unary .questionMark (.binary a .plus b) ∧
      line (toks tried) = .ok (.binary a .plus (.unary .questionMark b))) ∧
    (minusTried = .unary .minus (.unary .questionMark a) ∧
      line (toks minusTried) = .ok (.unary .questionMark (.unary .minus a))) ∧
    line (toks twoImplies) = .error .syntax ∧
    line (toks comparisons) = .error .syntax ∧
    line (toks triedCall) = .error .syntax :=
  ⟨⟨rfl, by rfl⟩, ⟨rfl, by rfl⟩, ⟨rfl, by rfl⟩, by rfl, by rfl, by rfl⟩

/-- C42: the tree of the code does not say how the type parameters of a function were written: these two are
the same tree for the code, and it prints the second. -/
theorem C42_forms_differ : ∃ e e', e = Expr.binder (.keyword "function") (.generic true false) (.cons ⟨.identifier, "T"⟩ .none .none .nil)
      (.typed ⟨.identifier, "x"⟩ (var "T") .nil) (var "x") ∧
    e' = Expr.binder (.keyword "function") (.generic false false) (.cons ⟨.identifier, "T"⟩ .none .none .nil)
      (.typed ⟨.identifier, "x"⟩ (var "T") .nil) (var "x") ∧
    line (toks e) = .ok e ∧ line (toks e') = .ok e' :=
  ⟨_, _, rfl, rfl, by rfl, by rfl⟩

end Acorn
