/-
Generated expressions can be written down as they are.
-/
import Verif.Model.ExpressionGen
import Verif.Lemmas.ExpressionParse
namespace Acorn.Parse

open Scan Spec

/-- All open operators bind at least as tightly as the outermost. -/
theorem top_le {m : Mode} {dot : Bool} {e : Expr} (hc : Clear m dot e) (hu : ∀ op x, e ≠ .unary op x) :
    (∀ o ∈ openOps e, topPrec false e ≤ strength o) ∧ ∀ o, leading e = some o → topPrec false e ≤ strength o := by
  cases e with
  | unary op x => exact absurd rfl (hu op x)
  | binary l op r =>
    rw [Clear] at hc
    obtain ⟨hi, -, -, hl, hr, hlead, -⟩ := hc
    rw [topPrec, ← strength_infix hi]
    refine ⟨fun o ho => ?_, fun o ho => hlead o ho⟩
    rw [openOps] at ho
    rcases List.mem_append.1 ho with ho | ho
    · rcases hl o ho with h | h
      · exact Nat.le_of_lt h
      · exact Nat.le_of_eq h.1
    · rcases List.mem_cons.1 ho with rfl | ho
      · exact Nat.le_refl _
      · rcases hr o ho with h | ⟨rfl, rfl⟩
        · exact Nat.le_of_lt h
        · exact Nat.le_refl _
  | concat l r =>
    obtain ⟨-, hl, hlead, -⟩ := hc.concat
    rw [topPrec]
    refine ⟨fun o ho => ?_, fun o ho => ?_⟩
    · rw [openOps] at ho
      rcases List.mem_append.1 ho with ho | ho
      · exact hl o ho
      · rw [List.mem_singleton.1 ho]; decide
    · rw [leading, hlead] at ho; cases ho
  | _ => exact ⟨fun o ho => by simp [openOps] at ho, fun o ho => by simp [Spec.leading] at ho⟩

theorem written_paren {m : Mode} {dot : Bool} {e : Expr} (h : Written m e) : Clear m dot (paren e) := by
  unfold paren
  rw [Clear]
  exact ⟨rfl, .inr h⟩

/-- The strengths of value operators, from the loosest on. -/
theorem infix_strength_le {m : Mode} {op : Tk} (h : Infix m op) : strength (.infix op) ≤ 14 := by
  rw [strength_infix h]
  unfold Infix at h
  cases m with
  | value =>
    simp only [valueInfix, List.mem_cons, List.not_mem_nil, or_false] at h
    rcases h with h | h | h | h | h | h | h | h | h | h | h | h | h | h | h | h | h | h | h | h | h | h | h | h | h | h | h | h <;> subst h <;> decide
  | type => rcases h with h | h | h <;> subst h <;> decide
  | typeArg =>
    rcases h with h | ⟨h, -⟩
    · subst h; decide
    simp only [valueInfix, List.mem_cons, List.not_mem_nil, or_false] at h
    rcases h with h | h | h | h | h | h | h | h | h | h | h | h | h | h | h | h | h | h | h | h | h | h | h | h | h | h | h | h <;> subst h <;> decide

theorem infix_not_six {m : Mode} {op : Tk} (h : Infix m op) : binaryPrec op ≠ 6 ∧ binaryPrec op ≠ 13 := by
  unfold Infix at h
  cases m with
  | value =>
    simp only [valueInfix, List.mem_cons, List.not_mem_nil, or_false] at h
    rcases h with h | h | h | h | h | h | h | h | h | h | h | h | h | h | h | h | h | h | h | h | h | h | h | h | h | h | h | h <;> subst h <;> decide
  | type => rcases h with h | h | h <;> subst h <;> decide
  | typeArg =>
    rcases h with h | ⟨h, -⟩
    · subst h; decide
    simp only [valueInfix, List.mem_cons, List.not_mem_nil, or_false] at h
    rcases h with h | h | h | h | h | h | h | h | h | h | h | h | h | h | h | h | h | h | h | h | h | h | h | h | h | h | h | h <;> subst h <;> decide

theorem infix_tight {m : Mode} {op : Tk} (h : Infix m op) : (op ≠ .dot → binaryPrec op ≤ 12) ∧ (op ≠ .comma → 3 ≤ binaryPrec op) ∧
    (op ≠ .comma → op ≠ .keyword "implies" → op ≠ .rightArrow → 4 ≤ binaryPrec op) ∧ 1 ≤ binaryPrec op := by
  unfold Infix at h
  cases m with
  | value =>
    simp only [valueInfix, List.mem_cons, List.not_mem_nil, or_false] at h
    rcases h with h | h | h | h | h | h | h | h | h | h | h | h | h | h | h | h | h | h | h | h | h | h | h | h | h | h | h | h <;> subst h <;> decide
  | type => rcases h with h | h | h <;> subst h <;> decide
  | typeArg =>
    rcases h with h | ⟨h, -⟩
    · subst h; decide
    simp only [valueInfix, List.mem_cons, List.not_mem_nil, or_false] at h
    rcases h with h | h | h | h | h | h | h | h | h | h | h | h | h | h | h | h | h | h | h | h | h | h | h | h | h | h | h | h <;> subst h <;> decide

theorem oneImplies_of_none {ops : List Opr} (h : .infix (.keyword "implies") ∉ ops) : OneImplies ops := by
  rintro a b c rfl
  exact absurd (by simp) h

theorem opsOk_nil (m : Mode) : OpsOk m [] :=
  ⟨fun _ => oneImplies_of_none (by simp), fun _ a b c h => by simp at h⟩

theorem strength_prefix_le {m : Mode} {op : Tk} (h : Prefix m op) : 6 ≤ strength (.prefix op) ∧ strength (.prefix op) ≤ 13 := by
  rcases h with h | h | ⟨h, -⟩ <;> subst h <;> decide

theorem apply_strength : strength .apply = 14 := strength_apply

/-- The open operators of an operand that a prefix operator keeps. -/
theorem unary_ops {m : Mode} {dot : Bool} {e : Expr} {k : Nat} (hc : Clear m dot e) (hk : k ≤ 13)
    (hp : ∀ p x, e = .unary p x → p ≠ .questionMark → k ≤ strength (.prefix p)) (hq : ∀ x, e = .unary .questionMark x → k < 13)
    (ht : k ≤ topPrec true e) (hne : ∀ op, Infix m op → binaryPrec op ≠ k) : ∀ o ∈ openOps e, k < strength o := by
  intro o ho
  by_cases hu : ∃ op x, e = .unary op x
  · obtain ⟨op, x, rfl⟩ := hu
    rw [Clear] at hc
    rw [openOps] at ho
    split at hc
    · next h =>
      subst h
      have := hc.2.1 o ho
      rw [strength_postfix] at this
      have := hq x rfl
      omega
    · next h =>
      have h1 := hc.2.2.1 o ho
      have h2 := hp op x rfl h
      omega
  · have hu' : ∀ op x, e ≠ .unary op x := fun op x h => hu ⟨op, x, h⟩
    have htop : topPrec true e = topPrec false e := by
      cases e with
      | unary op x => exact absurd rfl (hu' op x)
      | _ => rfl
    have := (top_le hc hu').1 o ho
    rw [htop] at ht
    cases e with
    | unary op x => exact absurd rfl (hu' op x)
    | binary l op r =>
      rw [Clear] at hc
      have := hne op hc.1
      rw [topPrec] at *
      omega
    | concat l r =>
      rw [topPrec] at *
      have h14 : binaryPrec .dot = 14 := rfl
      omega
    | _ => simp [openOps] at ho

theorem generateUnary_not {m : Mode} {op : Tk} {e : Expr} (hop : op = .keyword "not" ∨ op = .keyword "transport") (hw : Written m e) :
    Written m (generateUnary op e) := by
  have hpre : Prefix m op := by rcases hop with h | h <;> simp [Prefix, h]
  have h6 : strength (.prefix op) = 6 ∧ unaryPrec op = 6 ∧ op ≠ .questionMark := by rcases hop with h | h <;> subst h <;> decide
  unfold generateUnary
  rw [h6.2.1]
  split
  · refine ⟨?_, opsOk_nil _⟩
    rw [Clear, if_neg h6.2.2]
    exact ⟨hpre, written_paren hw, fun o ho => by simp [paren, openOps] at ho, fun h => by simp [paren, endsPostfix] at h⟩
  · next ht =>
    refine ⟨?_, hw.2⟩
    rw [Clear, if_neg h6.2.2, h6.1]
    refine ⟨hpre, hw.1, unary_ops hw.1 (by omega) (fun p x h hq => ?_) (fun _ _ => by omega) (by omega) fun op h => (infix_not_six h).1,
      fun _ => by rw [strength_postfix]; omega⟩
    subst h
    have := hw.1
    rw [Clear, if_neg hq] at this
    exact (strength_prefix_le this.1).1

theorem endsPostfix_strong {m : Mode} : ∀ {dot : Bool} (e : Expr), Clear m dot e → endsPostfix e = true → (∀ o ∈ openOps e, 13 < strength o) →
    (∃ p x, e = .unary p x)
  | _, .unary p x, _, _, _ => ⟨p, x, rfl⟩
  | _, .binary l op r, hc, he, ho => by
    rw [Clear] at hc
    have h1 := hc.2.2.2.2.2.2.1 he
    have h2 := ho (.infix op) (by simp [openOps])
    rw [strength_postfix] at h1
    omega
  | _, .single _, _, he, _ | _, .concat _ _, _, he, _ | _, .group _ _, _, he, _ | _, .binder _ _ _ _ _, _, he, _
  | _, .ite _ _ _, _, he, _ | _, .cases _ _, _, he, _ => by simp [endsPostfix] at he

theorem generateUnary_minus {m : Mode} {e : Expr} (hm : m ≠ .type) (hw : Written m e) (he : ∀ p x, e = .unary p x → p = .minus) :
    Written m (generateUnary .minus e) := by
  have h13 : strength (.prefix .minus) = 13 ∧ unaryPrec .minus = 13 := by decide
  unfold generateUnary
  rw [h13.2]
  split
  · refine ⟨?_, opsOk_nil _⟩
    rw [Clear, if_neg (by decide)]
    exact ⟨.inr (.inr ⟨rfl, hm⟩), written_paren hw, fun o ho => by simp [paren, openOps] at ho, fun h => by simp [paren, endsPostfix] at h⟩
  · next ht =>
    refine ⟨?_, hw.2⟩
    have hops : ∀ o ∈ openOps e, 13 < strength o := by
      refine unary_ops hw.1 (by omega) (fun p x h hq => ?_) (fun x h => ?_) (by omega) fun op h => (infix_not_six h).2
      · rw [he p x h, h13.1]; exact Nat.le_refl _
      · exact absurd (he _ x h) (by decide)
    rw [Clear, if_neg (by decide), h13.1]
    refine ⟨.inr (.inr ⟨rfl, hm⟩), hw.1, hops, fun hend => ?_⟩
    obtain ⟨p, x, h⟩ := endsPostfix_strong e hw.1 hend hops
    obtain rfl := he p x h
    subst h
    have hc := hw.1
    rw [Clear, if_neg (by decide)] at hc
    have h' : endsPostfix x = true := by simpa [endsPostfix] using hend
    have := hc.2.2.2 h'
    rw [strength_postfix, h13.1] at this
    omega

theorem written_paren_ops (e : Expr) : openOps (paren e) = [] := rfl

theorem generateBinary_written {m : Mode} {l r : Expr} {op : Tk} (hl : Written m l) (hr : Written m r) (hi : Infix m op)
    (hd : op ≠ .dot) (hcomma : op ≠ .comma) (harrow : op ≠ .rightArrow)
    (h1 : ∀ p x, r = .unary p x → ∀ o ∈ openOps r, strength (.infix op) < strength o)
    (h2 : op = .minus → endsPostfix l = false) (h3 : op = .keyword "implies" → .infix (.keyword "implies") ∉ openOps l)
    (h4 : m = .value → NoTypeList (openOps (generateBinary l op r))) : Written m (generateBinary l op r) := by
  have hs := strength_infix hi
  obtain ⟨t12, t3, t4, t1⟩ := infix_tight hi
  have hcl : Clear m false (if topPrec false l < binaryPrec op then paren l else l) := by
    split
    · exact written_paren hl
    · exact hl.1
  have hcr : Clear m (op = .dot) (if topPrec true r ≤ binaryPrec op then paren r else r) := by
    rw [show decide (op = .dot) = false by simp [hd]]
    split
    · exact written_paren hr
    · exact hr.1
  have hol : ∀ o ∈ openOps (if topPrec false l < binaryPrec op then paren l else l), strength (.infix op) ≤ strength o ∧ o ∈ openOps l := by
    intro o ho
    split at ho
    · cases ho
    · next ht =>
      refine ⟨?_, ho⟩
      by_cases hu : ∃ p x, l = .unary p x
      · obtain ⟨p, x, rfl⟩ := hu
        have hc := hl.1
        rw [Clear] at hc
        rw [openOps] at ho
        split at hc
        · next hq =>
          subst hq
          have := hc.2.1 o ho
          rw [strength_postfix] at this
          have := t12 hd
          omega
        · have a1 := hc.2.2.1 o ho
          rw [(strength_prefix hc.1).1] at a1
          rw [topPrec, if_neg (by decide)] at ht
          omega
      · have := (top_le hl.1 fun p x h => hu ⟨p, x, h⟩).1 o ho
        omega
  have hor : ∀ o ∈ openOps (if topPrec true r ≤ binaryPrec op then paren r else r), strength (.infix op) < strength o := by
    intro o ho
    split at ho
    · cases ho
    · next ht =>
      by_cases hu : ∃ p x, r = .unary p x
      · obtain ⟨p, x, h⟩ := hu
        exact h1 p x h o ho
      · have hu' : ∀ p x, r ≠ .unary p x := fun p x h => hu ⟨p, x, h⟩
        have := (top_le hr.1 hu').1 o ho
        have htop : topPrec true r = topPrec false r := by
          cases r with
          | unary p x => exact absurd rfl (hu' p x)
          | _ => rfl
        omega
  unfold generateBinary
  refine ⟨?_, fun hm => ?_, h4⟩
  · rw [Clear]
    refine ⟨hi, hcl, hcr, fun o ho => ?_, fun o ho => .inl (hor o ho), fun o ho => ?_, fun _ => ?_, fun hm => ?_⟩
    · rcases Nat.lt_or_ge (strength (.infix op)) (strength o) with h | h
      · exact .inl h
      · exact .inr ⟨Nat.le_antisymm (hol o ho).1 h, harrow⟩
    · split at ho
      · simp [paren, leading] at ho
      · next ht =>
        by_cases hu : ∃ p x, l = .unary p x
        · obtain ⟨p, x, rfl⟩ := hu
          have hc := hl.1
          rw [Clear] at hc
          rw [leading] at ho
          rw [topPrec, if_neg (by decide)] at ht
          split at hc
          · next hq =>
            subst hq
            rw [show unaryPrec .questionMark = 0 from rfl] at ht
            omega
          · next hq =>
            rw [if_neg hq] at ho
            injection ho with ho
            rw [← ho, (strength_prefix hc.1).1]
            omega
        · have := (top_le hl.1 fun p x h => hu ⟨p, x, h⟩).2 o ho
          omega
    · rw [strength_postfix, hs]
      have := t12 hd
      omega
    · split
      · rfl
      · exact h2 hm
  · rw [openOps]
    by_cases himp : op = .keyword "implies"
    · -- exactly one
      have nl : .infix (.keyword "implies") ∉ openOps (if topPrec false l < binaryPrec op then paren l else l) :=
        fun h => h3 himp (hol _ h).2
      have nr : .infix (.keyword "implies") ∉ openOps (if topPrec true r ≤ binaryPrec op then paren r else r) := by
        intro h
        have := hor _ h
        rw [himp] at this
        omega
      generalize openOps (if topPrec false l < binaryPrec op then paren l else l) = L at nl
      generalize openOps (if topPrec true r ≤ binaryPrec op then paren r else r) = R at nr
      subst himp
      intro a b c h
      have := congrArg (List.count (Opr.infix (.keyword "implies"))) h
      simp only [List.count_append, List.count_cons_self] at this
      rw [List.count_eq_zero_of_not_mem nl, List.count_eq_zero_of_not_mem nr] at this
      omega
    · have h4' := t4 hcomma himp harrow
      refine oneImplies_of_none fun h => ?_
      have h3' : strength (.infix (.keyword "implies")) = 3 := by decide
      rcases List.mem_append.1 h with h | h
      · have := (hol _ h).1
        omega
      · rcases List.mem_cons.1 h with h | h
        · injection h with h; exact himp h.symm
        · have := hor _ h
          omega

theorem generateMember_written {m : Mode} {l : Expr} {t : Lex} (hl : Written m l) (hm : Infix m .dot) (ht : t.ty = .identifier) :
    Written m (generateBinary l .dot (.single t)) := by
  unfold generateBinary
  rw [if_neg (show ¬ topPrec true (.single t) ≤ binaryPrec .dot from (by decide : ¬ 127 ≤ 14))]
  have h14 : binaryPrec .dot = 14 := rfl
  have hs : strength (.infix .dot) = 14 := by decide
  have hnu : ¬ topPrec false l < binaryPrec .dot → ∀ p x, l ≠ .unary p x := by
    intro ht p x h
    subst h
    rw [topPrec, if_neg (by decide), h14] at ht
    have hc := hl.1
    rw [Clear] at hc
    split at hc
    · next hq => subst hq; exact ht (by decide)
    · have := (strength_prefix_le hc.1).2
      rw [(strength_prefix hc.1).1] at this
      omega
  have hol : ∀ o ∈ openOps (if topPrec false l < binaryPrec .dot then paren l else l), 14 ≤ strength o := by
    intro o ho
    split at ho
    · cases ho
    · next ht =>
      have := (top_le hl.1 (hnu ht)).1 o ho
      omega
  have hlead : ∀ o, leading (if topPrec false l < binaryPrec .dot then paren l else l) = some o → 14 ≤ strength o := by
    intro o ho
    split at ho
    · simp [paren, leading] at ho
    · next ht =>
      have := (top_le hl.1 (hnu ht)).2 o ho
      omega
  have hops : ∀ o ∈ openOps (if topPrec false l < binaryPrec .dot then paren l else l) ++ .infix .dot :: openOps (.single t), 14 ≤ strength o := by
    intro o ho
    rcases List.mem_append.1 ho with ho | ho
    · exact hol o ho
    · rw [show openOps (.single t) = [] from rfl, List.mem_singleton] at ho
      subst ho; omega
  refine ⟨?_, fun _ => ?_, fun _ => ?_⟩
  · rw [Clear]
    refine ⟨hm, ?_, ?_, fun o ho => ?_, fun o ho => ?_, fun o ho => ?_, fun he => ?_, fun he => by cases he⟩
    · split
      · exact written_paren hl
      · exact hl.1
    · rw [Clear]; exact .inl (.inl ht)
    · have := hol o ho
      rw [hs]
      rcases Nat.lt_or_ge 14 (strength o) with h | h
      · exact .inl h
      · exact .inr ⟨by omega, by decide⟩
    · simp [openOps] at ho
    · rw [hs]; exact hlead o ho
    · simp [endsPostfix] at he
  · rw [openOps]
    refine oneImplies_of_none fun h => ?_
    have := hops _ h
    revert this; decide
  · rw [openOps]
    intro a b c h
    have := hops (.infix .lessThan) (by rw [h]; simp)
    exact absurd this (by decide)

theorem oneImplies_comma {a b : List Opr} (ha : OneImplies a) (hb : OneImplies b) : OneImplies (a ++ .infix .comma :: b) := by
  intro x y z h
  rw [List.append_eq_append_iff] at h
  rcases h with ⟨u, rfl, h⟩ | ⟨u, rfl, h⟩
  · -- the first `implies` is after the end of `a`
    cases u with
    | nil => simp at h
    | cons c u =>
      rw [List.cons_append] at h
      injection h with _ h
      exact hb _ _ _ h
  · -- the first `implies` is in `a`
    cases u with
    | nil => simp at h
    | cons c u =>
      rw [List.cons_append] at h
      injection h with hc h
      subst hc
      rw [eq_comm, List.append_eq_append_iff] at h
      rcases h with ⟨v, rfl, h⟩ | ⟨v, rfl, h⟩
      · cases v with
        | nil => simp at h
        | cons d v => injection h with h1 h2; subst h1; simp
      · cases v with
        | nil => simp at h
        | cons d v =>
          injection h with h1 h2
          subst h1
          exact ha _ _ _ rfl

theorem commas_clear {m : Mode} (hm : Infix m .comma) : ∀ (es : List Expr) (e : Expr), Clear m false e → OneImplies (openOps e) →
    (∀ x ∈ es, Written m x ∧ .infix .comma ∉ openOps x ∧ OneImplies (openOps x)) →
    Clear m false (commas e es) ∧ OneImplies (openOps (commas e es))
  | [], e, hc, ho, _ => ⟨hc, ho⟩
  | x :: es, e, hc, ho, h => by
    rw [commas]
    obtain ⟨hx, hxc, hxo⟩ := h x (by simp)
    have hs : strength (.infix .comma) = 1 := by decide
    refine commas_clear hm es _ ?_ ?_ fun y hy => h y (by simp [hy])
    · rw [Clear]
      refine ⟨hm, hc, hx.1, fun o _ => ?_, fun o hox => .inl ?_, fun o _ => ?_, fun _ => by rw [strength_postfix]; omega, fun h => by cases h⟩
      · rw [hs]
        rcases Nat.lt_or_ge 1 (strength o) with h | h
        · exact .inl h
        · exact .inr ⟨by unfold strength at h ⊢; omega, by decide⟩
      · rw [hs]
        rcases hx.1.ops x o hox with rfl | ⟨t, rfl, hi⟩
        · decide
        · have := (infix_tight hi).2.1 (fun e => hxc (e ▸ hox))
          rw [strength_infix hi]
          omega
      · rw [hs]; unfold strength; omega
    · rw [openOps]
      exact oneImplies_comma ho hxo

theorem generateApply_written {m : Mode} {f e : Expr} {es : List Expr} (hm : Infix m .comma) (hf : Written m f)
    (hfo : ∀ o ∈ openOps f, strength .apply ≤ strength o) (hfl : leading f = none) (hfp : endsPostfix f = false)
    (he : Written m e) (heo : OneImplies (openOps e))
    (hes : ∀ x ∈ es, Written m x ∧ .infix .comma ∉ openOps x ∧ OneImplies (openOps x))
    (ht : m = .value → NoTypeList (openOps (commas e es))) : Written m (generateApply f e es) := by
  obtain ⟨h1, h2⟩ := commas_clear hm es e he.1 heo hes
  unfold generateApply
  have hops : ∀ o ∈ openOps f ++ [Opr.apply], 14 ≤ strength o := by
    intro o ho
    rcases List.mem_append.1 ho with ho | ho
    · exact strength_apply ▸ hfo o ho
    · rw [List.mem_singleton.1 ho, strength_apply]
      exact Nat.le_refl _
  refine ⟨?_, fun _ => ?_, fun _ => ?_⟩
  · rw [Clear]
    exact ⟨hf.1, hfo, hfl, hfp, .inr ⟨h1, fun _ => h2, ht⟩⟩
  · rw [openOps]
    refine oneImplies_of_none fun h => ?_
    have := hops _ h
    revert this; decide
  · rw [openOps]
    intro a b c h
    have := hops (.infix .lessThan) (by rw [h]; simp)
    exact absurd this (by decide)

end Acorn.Parse
