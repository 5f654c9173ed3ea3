/-
Combining the partial expressions of a printed tree gives the tree back.
-/
import Verif.Lemmas.Expression
namespace Acorn.Parse

open Scan Spec

theorem _root_.Acorn.Spec.Clear.concat {m : Mode} {dot : Bool} {l r : Expr} (hc : Clear m dot (.concat l r)) :
    Clear m dot l ∧ (∀ o ∈ openOps l, strength .apply ≤ strength o) ∧ Spec.leading l = none ∧ ∃ d e, r = .group d e ∧
      match d with
      | .paren => endsPostfix l = false ∧
          ((m = .value ∧ ∃ t : Lex, NamedOperator t.ty ∧ e = .single t) ∨ Clear m false e ∧ OpsOk m (openOps e))
      | .bracket => Clear .typeArg false e ∧ OpsOk .typeArg (openOps e)
      | .angle =>
        m ≠ .value ∧ .infix .greaterThan ∉ openOps e ∧ Clear .typeArg false e ∧ OpsOk .typeArg (openOps e) := by
  cases r with
  | group d e =>
    cases d <;> rw [Clear] at hc <;> obtain ⟨h1, h2, h3, h4⟩ := hc <;> exact ⟨h1, h2, h3, _, _, rfl, h4⟩
  | _ => rw [Clear] at hc <;> first | exact hc.2.2.2.elim | (intro e h; cases h)

theorem _root_.Acorn.Spec.Clear.ops : ∀ {m : Mode} {dot : Bool} (e : Expr), Clear m dot e → ∀ o ∈ openOps e,
    o = .apply ∨ ∃ t, o = .infix t ∧ Infix m t
  | _, _, .single _, _, o, h | _, _, .group _ _, _, o, h | _, _, .binder _ _ _ _ _, _, o, h | _, _, .ite _ _ _, _, o, h
  | _, _, .cases _ _, _, o, h => by simp [openOps] at h
  | m, dot, .unary op e, hc, o, h => by
    rw [openOps] at h
    rw [Clear] at hc
    split at hc
    · exact Spec.Clear.ops e hc.1 o h
    · exact Spec.Clear.ops e hc.2.1 o h
  | m, dot, .binary l op r, hc, o, h => by
    rw [openOps] at h
    rw [Clear] at hc
    rcases List.mem_append.1 h with h | h
    · exact Spec.Clear.ops l hc.2.1 o h
    · rcases List.mem_cons.1 h with h | h
      · exact .inr ⟨op, h, hc.1⟩
      · exact Spec.Clear.ops r hc.2.2.1 o h
  | m, dot, .concat l r, hc, o, h => by
    rw [openOps] at h
    rcases List.mem_append.1 h with h | h
    · exact Spec.Clear.ops l hc.concat.1 o h
    · exact .inl (List.mem_singleton.1 h)

theorem _root_.Acorn.Spec.Clear.leading : ∀ {m : Mode} {dot : Bool} (e : Expr), Clear m dot e → ∀ o, leading e = some o →
    ∃ t, o = .prefix t ∧ Prefix m t
  | _, _, .single _, _, o, h | _, _, .group _ _, _, o, h | _, _, .binder _ _ _ _ _, _, o, h | _, _, .ite _ _ _, _, o, h
  | _, _, .cases _ _, _, o, h => by simp [Spec.leading] at h
  | m, dot, .unary op e, hc, o, h => by
    rw [Spec.leading] at h
    rw [Clear] at hc
    split at hc
    · next hq => rw [if_pos hq] at h; exact Spec.Clear.leading e hc.1 o h
    · next hq => rw [if_neg hq] at h; exact ⟨op, (Option.some.inj h).symm, hc.1⟩
  | m, dot, .binary l op r, hc, o, h => by
    rw [Spec.leading] at h
    rw [Clear] at hc
    exact Spec.Clear.leading l hc.2.1 o h
  | m, dot, .concat l r, hc, o, h => by
    rw [Spec.leading] at h
    exact Spec.Clear.leading l hc.concat.1 o h

theorem left_key {m : Mode} {dot : Bool} {l : Expr} (hc : Clear m dot l) {len j : Nat} {x : Partial} {k : Int × Int}
    (hx : (spine l)[j]? = some x) (hlen : (spine l).length < len) (hk : key len j x = some k) :
    ∃ o, k.1 = -(strength o : Int) ∧
      (o ∈ openOps l ∧ k.2 = (if o = .infix .rightArrow then -(j : Int) else (j : Int)) ∨ leading l = some o ∧ k.2 = 0) := by
  have hj : j < (spine l).length := by
    rcases Nat.lt_or_ge j (spine l).length with h | h
    · exact h
    · rw [List.getElem?_eq_none h] at hx; cases hx
  rcases spine_get l j x hx with ⟨y, rfl⟩ | ⟨op, rfl, h⟩ | ⟨rfl, h⟩ | ⟨op, rfl, h⟩ | ⟨rfl, h⟩
  · simp [key] at hk
  · rw [key] at hk
    injection hk with hk
    subst hk
    rcases hc.ops l _ h with h' | ⟨t, ht, hi⟩
    · cases h'
    · injection ht with ht
      subst ht
      refine ⟨_, by rw [strength_infix hi], .inl ⟨h, ?_⟩⟩
      simp [isRightAssociative]
  · rw [key] at hk
    injection hk with hk
    subst hk
    exact ⟨_, by rw [strength_apply]; rfl, .inl ⟨h, by simp⟩⟩
  · rw [key] at hk
    split at hk
    · next hz =>
      injection hk with hk
      subst hk
      obtain ⟨t, ht, hi⟩ := hc.leading l _ (h hz)
      injection ht with ht
      subst ht
      exact ⟨_, by rw [(strength_prefix hi).1], .inr ⟨h hz, by simp [hz]⟩⟩
    · cases hk
  · rw [key, if_neg (by omega)] at hk
    cases hk

theorem right_key {m : Mode} {dot : Bool} {r : Expr} (hc : Clear m dot r) {len i j : Nat} {x : Partial} {k : Int × Int} (hi : 0 < i)
    (hx : (spine r)[j]? = some x) (hlen : len = i + (spine r).length) (hk : key len (i + j) x = some k) :
    ∃ o, k.1 = -(strength o : Int) ∧
      (o ∈ openOps r ∧ k.2 = (if o = .infix .rightArrow then -((i + j : Nat) : Int) else ((i + j : Nat) : Int)) ∨
        endsPostfix r = true ∧ o = .postfix .questionMark ∧ k.2 = ((i + j : Nat) : Int) ∧ j + 1 = (spine r).length) := by
  rcases spine_get r j x hx with ⟨y, rfl⟩ | ⟨op, rfl, h⟩ | ⟨rfl, h⟩ | ⟨op, rfl, h⟩ | ⟨rfl, h⟩
  · simp [key] at hk
  · rw [key] at hk
    injection hk with hk
    subst hk
    rcases hc.ops r _ h with h' | ⟨t, ht, hi⟩
    · cases h'
    · injection ht with ht
      subst ht
      refine ⟨_, by rw [strength_infix hi], .inl ⟨h, ?_⟩⟩
      simp [isRightAssociative]
  · rw [key] at hk
    injection hk with hk
    subst hk
    exact ⟨_, by rw [strength_apply]; rfl, .inl ⟨h, by simp⟩⟩
  · rw [key, if_neg (by omega)] at hk
    cases hk
  · rw [key] at hk
    split at hk
    · next hz =>
      injection hk with hk
      subst hk
      have hj : j + 1 = (spine r).length := by omega
      exact ⟨_, by rw [strength_postfix]; rfl, .inr ⟨h hj, rfl, rfl, hj⟩⟩
    · cases hk

theorem combine_binary {n : Nat} {m : Mode} {a b : List Partial} {op : Tk} {l r : Expr} (ha : a ≠ []) (hb : b ≠ [])
    (hm : m = .value → op ≠ .rightArrow) (hf : findLast (a ++ .binary op :: b) = .ok (some a.length))
    (hl : combine n m a = .ok l) (hr : combine n m b = .ok r) :
    combine (n + 1) m (a ++ .binary op :: b) = .ok (.binary l op r) := by
  have ha' := List.length_pos_iff.2 ha
  have hb' := List.length_pos_iff.2 hb
  have hs : splitLast (a ++ .binary op :: b) = .ok (.binary a op b) := by
    unfold splitLast
    rw [hf]
    dsimp only
    unfold splitAt
    rw [if_neg (by omega), if_neg (by simp; omega), List.drop_left, List.take_left]
  rw [combine, if_neg (by simp), if_neg (by simp; omega), hs]
  simp only [bind, Except.bind]
  rw [if_neg (fun h => hm h.1 h.2), hl, hr]

theorem combine_implicit {n : Nat} {m : Mode} {a b : List Partial} {l r : Expr} (ha : a ≠ []) (hb : b ≠ [])
    (hf : findLast (a ++ .implicit :: b) = .ok (some a.length))
    (hl : combine n m a = .ok l) (hr : combine n m b = .ok r) :
    combine (n + 1) m (a ++ .implicit :: b) = .ok (.concat l r) := by
  have ha' := List.length_pos_iff.2 ha
  have hb' := List.length_pos_iff.2 hb
  have hs : splitLast (a ++ .implicit :: b) = .ok (.implicit a b) := by
    unfold splitLast
    rw [hf]
    dsimp only
    unfold splitAt
    rw [if_neg (by omega), if_neg (by simp; omega), List.drop_left, List.take_left]
  rw [combine, if_neg (by simp), if_neg (by simp; omega), hs]
  simp only [bind, Except.bind]
  rw [hl, hr]

theorem combine_unary {n : Nat} {m : Mode} {b : List Partial} {op : Tk} {e : Expr} (hb : b ≠ [])
    (hf : findLast (.unary op :: b) = .ok (some 0)) (hr : combine n m b = .ok e) :
    combine (n + 1) m (.unary op :: b) = .ok (.unary op e) := by
  have hb' := List.length_pos_iff.2 hb
  have hs : splitLast (.unary op :: b) = .ok (.unary op b) := by
    unfold splitLast
    rw [hf]
    rfl
  rw [combine, if_neg (by simp), if_neg (by simp; omega), hs]
  simp only [bind, Except.bind]
  rw [hr]

theorem combine_postfix {n : Nat} {m : Mode} {a : List Partial} {op : Tk} {e : Expr} (ha : a ≠ [])
    (hf : findLast (a ++ [.postfix op]) = .ok (some a.length)) (hr : combine n m a = .ok e) :
    combine (n + 1) m (a ++ [.postfix op]) = .ok (.unary op e) := by
  have ha' := List.length_pos_iff.2 ha
  have hs : splitLast (a ++ [.postfix op]) = .ok (.postfix op a) := by
    unfold splitLast
    rw [hf]
    dsimp only
    unfold splitAt
    rw [if_neg (by omega), if_pos (by simp), List.getLast?_append, List.dropLast_concat]
    rfl
  rw [combine, if_neg (by simp), if_neg (by simp; omega), hs]
  simp only [bind, Except.bind]
  rw [hr]

theorem combine_atom {n : Nat} {m : Mode} {e : Expr} (h : 1 ≤ n) : combine n m [.expr e] = .ok e := by
  obtain ⟨k, rfl⟩ : ∃ k, n = k + 1 := ⟨n - 1, by omega⟩
  rfl

/-- The partial expressions of a tree that is written down as it is are combined to this tree. -/
theorem combine_spine : ∀ {m : Mode} {dot : Bool} (e : Expr), Clear m dot e → ∀ n, (spine e).length ≤ n →
    combine n m (spine e) = .ok e
  | m, dot, .single _, _, n, hn | m, dot, .group _ _, _, n, hn | m, dot, .binder _ _ _ _ _, _, n, hn
  | m, dot, .ite _ _ _, _, n, hn | m, dot, .cases _ _, _, n, hn => by
    rw [spine] at hn ⊢
    · exact combine_atom (by simpa using hn)
    all_goals simp
  | m, dot, .unary op e, hc, n, hn => by
    rw [Clear] at hc
    rw [spine] at hn ⊢
    split at hc
    · next hq =>
      obtain ⟨hc, h1, h2⟩ := hc
      subst hq
      rw [if_pos (by rfl)] at hn ⊢
      rw [List.length_append, List.length_singleton] at hn
      obtain ⟨n, rfl⟩ : ∃ k, n = k + 1 := ⟨n - 1, by omega⟩
      refine combine_postfix (spine_ne e) ?_ (combine_spine e hc n (by omega))
      refine findLast_found (spine e) (.postfix .questionMark) [] (-(13 : Int), ((spine e).length : Int)) ?_ (by dsimp only; omega) rfl ?_ ?_
      · rw [key, if_pos (by simp)]; rfl
      · intro j y k hy hk
        have hj : j < (spine e).length := by
          rcases Nat.lt_or_ge j (spine e).length with h | h
          · exact h
          · rw [List.getElem?_eq_none h] at hy; cases hy
        obtain ⟨o, e1, ⟨e2, e3⟩ | ⟨e2, e3⟩⟩ := left_key hc hy (by simp) hk
        · have := h1 o e2
          rw [strength_postfix] at this
          unfold KeyLt
          dsimp only
          split at e3 <;> omega
        · have := h2 o e2
          rw [strength_postfix] at this
          unfold KeyLt
          dsimp only
          omega
      · intro j y k hy; simp at hy
    · next hq =>
      obtain ⟨hp, hc, h1, h2⟩ := hc
      rw [if_neg (fun z => hq (isPostfix_iff.1 z))] at hn ⊢
      rw [List.length_cons] at hn
      obtain ⟨n, rfl⟩ : ∃ k, n = k + 1 := ⟨n - 1, by omega⟩
      refine combine_unary (spine_ne e) ?_ (combine_spine e hc n (by omega))
      have hs := strength_prefix hp
      refine findLast_found [] (.unary op) (spine e) (-(unaryPrec op : Int), 0) ?_ (by dsimp only; omega) rfl ?_ ?_
      · rfl
      · intro j y k hy; simp at hy
      · intro j y k hy hk
        have hk' : key ([] ++ Partial.unary op :: spine e).length (1 + j) y = some k := by simpa using hk
        obtain ⟨o, e1, ⟨e2, e3⟩ | ⟨e2, e3, e4, e5⟩⟩ := right_key hc (by omega) hy (by simp; omega) hk'
        · have := h1 o e2
          unfold KeyLt
          dsimp only
          omega
        · have := h2 e2
          subst e3
          unfold KeyLt
          dsimp only
          omega
  | m, dot, .binary l op r, hc, n, hn => by
    rw [Clear] at hc
    obtain ⟨hi, hl, hr, h1, h2, h3, h4, h5⟩ := hc
    rw [spine] at hn ⊢
    rw [List.length_append, List.length_cons] at hn
    have hl0 : 0 < (spine l).length := List.length_pos_iff.2 (spine_ne l)
    have hr0 : 0 < (spine r).length := List.length_pos_iff.2 (spine_ne r)
    obtain ⟨n, rfl⟩ : ∃ k, n = k + 1 := ⟨n - 1, by omega⟩
    have hb := infix_isBinary hi
    have hs := strength_infix hi
    refine combine_binary (spine_ne l) (spine_ne r) hb.2.2.2.2.2.2 ?_ (combine_spine l hl n (by omega))
      (combine_spine r hr n (by omega))
    have hra : isRightAssociative op = true ↔ op = .rightArrow := by simp [isRightAssociative]
    refine findLast_found (spine l) (.binary op) (spine r)
      (-(binaryPrec op : Int), if isRightAssociative op then -((spine l).length : Int) else ((spine l).length : Int)) ?_ ?_ ?_ ?_ ?_
    · rw [key]
    · dsimp only; omega
    · dsimp only; split <;> simp
    · intro j y k hy hk
      have hj : j < (spine l).length := by
        rcases Nat.lt_or_ge j (spine l).length with h | h
        · exact h
        · rw [List.getElem?_eq_none h] at hy; cases hy
      obtain ⟨o, e1, ⟨e2, e3⟩ | ⟨e2, e3⟩⟩ := left_key hl hy (by simp) hk
      · unfold KeyLt
        dsimp only
        rcases h1 o e2 with h | ⟨h, h'⟩
        · omega
        · right
          rw [if_neg (fun z => h' (hra.1 z))]
          split at e3 <;> omega
      · have := h3 o e2
        unfold KeyLt
        dsimp only
        obtain ⟨t, rfl, ht⟩ := hl.leading l o e2
        have ht' := (strength_prefix ht).1
        by_cases hra' : op = .rightArrow
        · subst hra'
          left
          have : 3 < unaryPrec t := by rcases ht with rfl | rfl | ⟨rfl, -⟩ <;> decide
          have h3' : binaryPrec .rightArrow = 3 := rfl
          omega
        · rw [if_neg (fun z => hra' (hra.1 z))]
          omega
    · intro j y k hy hk
      obtain ⟨o, e1, ⟨e2, e3⟩ | ⟨e2, e3, e4, e5⟩⟩ := right_key hr (i := (spine l).length + 1) (by omega) hy (by simp; omega) hk
      · unfold KeyLt
        dsimp only
        rcases h2 o e2 with h | ⟨h, h'⟩
        · omega
        · right
          subst h'
          rw [if_pos rfl] at e3
          rw [if_pos (hra.2 h)]
          subst h
          omega
      · have := h4 e2
        subst e3
        unfold KeyLt
        dsimp only
        omega
  | m, dot, .concat l r, hc, n, hn => by
    rw [spine] at hn ⊢
    rw [List.length_append] at hn
    have hn' : (spine l).length + 2 ≤ n := hn
    have hl0 : 0 < (spine l).length := List.length_pos_iff.2 (spine_ne l)
    obtain ⟨n, rfl⟩ : ∃ k, n = k + 1 := ⟨n - 1, by omega⟩
    obtain ⟨hl, h1, h2, -⟩ := hc.concat
    refine combine_implicit (spine_ne l) (by simp) ?_ (combine_spine l hl n (by omega)) (combine_atom (by omega))
    refine findLast_found (spine l) .implicit [.expr r] (-(14 : Int), ((spine l).length : Int)) rfl (by dsimp only; omega) rfl ?_ ?_
    · intro j y k hy hk
      have hj : j < (spine l).length := by
        rcases Nat.lt_or_ge j (spine l).length with h | h
        · exact h
        · rw [List.getElem?_eq_none h] at hy; cases hy
      obtain ⟨o, e1, ⟨e2, e3⟩ | ⟨e2, e3⟩⟩ := left_key hl hy (by simp) hk
      · have := h1 o e2
        rw [strength_apply] at this
        unfold KeyLt
        dsimp only
        split at e3 <;> omega
      · rw [h2] at e2; cases e2
    · intro j y k hy hk
      rcases j with _ | j
      · injection hy with hy
        subst hy
        simp [key] at hk
      · simp at hy

end Acorn.Parse
