/-
Helper lemmas for C65.
-/
import Verif.Model.ClaimArgs
import Verif.Spec.ClaimArgs
import Verif.Lemmas.ValueMeaning
namespace Acorn
namespace Elab
namespace ClaimArgs
open Spec Spec.ClaimArgs

theorem apply_cons {f : Value} {as : List Value} (h : as ≠ []) : f.apply as = .app f as := by
  cases as with
  | nil => exact absurd rfl h
  | cons a as => rfl

theorem typeApply_cons {f : Value} {ns : List String} {ts : List Ty} (h : ts ≠ []) : f.typeApply ns ts = .tapp f ns ts := by
  cases ts with
  | nil => exact absurd rfl h
  | cons a as => rfl

theorem mkLam_cons {b : Value} {ts : List Ty} (h : ts ≠ []) : Value.mkLam ts b = .lam ts b := by
  cases ts with
  | nil => exact absurd rfl h
  | cons a as => rfl

theorem mkAll_cons {b : Value} {ts : List Ty} (h : ts ≠ []) : Value.mkAll ts b = .all ts b := by
  cases ts with
  | nil => exact absurd rfl h
  | cons a as => rfl

theorem mkEx_cons {b : Value} {ts : List Ty} (h : ts ≠ []) : Value.mkEx ts b = .ex ts b := by
  cases ts with
  | nil => exact absurd rfl h
  | cons a as => rfl

theorem grouped_once {v : Value} (h : ¬ InParens v) : v.grouped = .group v := by
  cases v <;> first | rfl | exact absurd trivial h

theorem grouped_insert {n : Nat} {v : Value} : InParens (v.insertStack 0 n) ↔ InParens v := by
  cases v <;> simp [Value.insertStack, InParens]

theorem shiftAll_ne {n : Nat} {as : List Value} (h : as ≠ []) : Value.shiftAll n as ≠ [] := by
  cases as with
  | nil => exact absurd rfl h
  | cons a as => simp [Value.shiftAll]

theorem rebaseAll_ne {n : Nat} {as : List Value} (h : as ≠ []) : Value.rebaseAll n as ≠ [] := by
  cases as with
  | nil => exact absurd rfl h
  | cons a as => simp [Value.rebaseAll]

theorem insertStackAll_ne {n : Nat} {as : List Value} (h : as ≠ []) : Value.insertStackAll 0 n as ≠ [] := by
  cases as with
  | nil => exact absurd rfl h
  | cons a as => simp [Value.insertStackAll]

mutual

theorem shift_eq {n : Nat} : ∀ {v : Value}, Tidy v → v.shift n = v.insertStack 0 n
  | .var i t, _ => by simp [Value.shift, Value.insertStack]
  | .const _ _ _, _ => rfl
  | .app f as, h => by
    obtain ⟨h1, h2, h3⟩ := h
    rw [Value.shift, apply_cons (shiftAll_ne h1), shift_eq h2, shiftAll_eq h3, Value.insertStack]
  | .tapp f _ _, h => by rw [Value.shift, typeApply_cons h.1, shift_eq h.2, Value.insertStack]
  | .lam _ b, h => by rw [Value.shift, mkLam_cons h.1, shift_eq h.2, Value.insertStack]
  | .bin _ a b, h => by rw [Value.shift, shift_eq h.1, shift_eq h.2, Value.insertStack]
  | .not a, h => by rw [Value.shift, shift_eq (v := a) h, Value.insertStack]
  | .try_ a _, h => by rw [Value.shift, shift_eq (v := a) h, Value.insertStack]
  | .all _ b, h => by rw [Value.shift, mkAll_cons h.1, shift_eq h.2, Value.insertStack]
  | .ex _ b, h => by rw [Value.shift, mkEx_cons h.1, shift_eq h.2, Value.insertStack]
  | .group a, h => by
    rw [Value.shift, shift_eq h.2, grouped_once (mt grouped_insert.1 h.1), Value.insertStack]
  | .bool _, _ => rfl
  | .ite c a b, h => by
    obtain ⟨h1, h2, h3⟩ := h
    rw [Value.shift, shift_eq h1, shift_eq h2, shift_eq h3, Value.insertStack]
  | .match_ s cs, h => by rw [Value.shift, shift_eq h.1, shiftCases_eq h.2, Value.insertStack]

theorem shiftAll_eq {n : Nat} : ∀ {vs : List Value}, AllTidy vs → Value.shiftAll n vs = Value.insertStackAll 0 n vs
  | [], _ => rfl
  | v :: vs, h => by rw [Value.shiftAll, shift_eq h.1, shiftAll_eq h.2, Value.insertStackAll]

theorem shiftCases_eq {n : Nat} : ∀ {cs : List Case}, CasesTidy cs → Value.shiftCases n cs = Value.insertStackCases 0 n cs
  | [], _ => rfl
  | .mk _ p r _ _ :: cs, h => by
    obtain ⟨h1, h2, h3⟩ := h
    rw [Value.shiftCases, shift_eq h1, shift_eq h2, shiftCases_eq h3, Value.insertStackCases]

end

mutual

theorem rebase_insert {n : Nat} : ∀ {v : Value}, Tidy v → (v.insertStack 0 n).rebase n = v
  | .var i t, _ => by simp [Value.rebase, Value.insertStack]; omega
  | .const _ _ _, _ => rfl
  | .app f as, h => by
    obtain ⟨h1, h2, h3⟩ := h
    rw [Value.insertStack, Value.rebase, apply_cons (rebaseAll_ne (insertStackAll_ne h1)), rebase_insert h2,
      rebaseAll_insert h3]
  | .tapp f _ _, h => by rw [Value.insertStack, Value.rebase, typeApply_cons h.1, rebase_insert h.2]
  | .lam _ b, h => by rw [Value.insertStack, Value.rebase, mkLam_cons h.1, rebase_insert h.2]
  | .bin _ a b, h => by rw [Value.insertStack, Value.rebase, rebase_insert h.1, rebase_insert h.2]
  | .not a, h => by rw [Value.insertStack, Value.rebase, rebase_insert (v := a) h]
  | .try_ a _, h => by rw [Value.insertStack, Value.rebase, rebase_insert (v := a) h]
  | .all _ b, h => by rw [Value.insertStack, Value.rebase, mkAll_cons h.1, rebase_insert h.2]
  | .ex _ b, h => by rw [Value.insertStack, Value.rebase, mkEx_cons h.1, rebase_insert h.2]
  | .group a, h => by rw [Value.insertStack, Value.rebase, rebase_insert h.2, grouped_once h.1]
  | .bool _, _ => rfl
  | .ite c a b, h => by
    obtain ⟨h1, h2, h3⟩ := h
    rw [Value.insertStack, Value.rebase, rebase_insert h1, rebase_insert h2, rebase_insert h3]
  | .match_ s cs, h => by rw [Value.insertStack, Value.rebase, rebase_insert h.1, rebaseCases_insert h.2]

theorem rebaseAll_insert {n : Nat} : ∀ {vs : List Value}, AllTidy vs →
    Value.rebaseAll n (Value.insertStackAll 0 n vs) = vs
  | [], _ => rfl
  | v :: vs, h => by rw [Value.insertStackAll, Value.rebaseAll, rebase_insert h.1, rebaseAll_insert h.2]

theorem rebaseCases_insert {n : Nat} : ∀ {cs : List Case}, CasesTidy cs →
    Value.rebaseCases n (Value.insertStackCases 0 n cs) = cs
  | [], _ => rfl
  | .mk _ p r _ _ :: cs, h => by
    obtain ⟨h1, h2, h3⟩ := h
    rw [Value.insertStackCases, Value.rebaseCases, rebase_insert h1, rebase_insert h2, rebaseCases_insert h3]

end

mutual

/-- A value that mentions nothing of the prefix comes from one without. -/
theorem lowered {n : Nat} : ∀ {v : Value}, Tidy v → (∀ i, Mentions i v → n ≤ i) → ∃ w, Tidy w ∧ w.insertStack 0 n = v
  | .var i t, _, m => ⟨.var (i - n) t, trivial, by
      have := m i rfl
      simp [Value.insertStack, Nat.sub_add_cancel this]⟩
  | .const c ps t, _, _ => ⟨.const c ps t, trivial, rfl⟩
  | .app f as, h, m => by
    obtain ⟨h1, h2, h3⟩ := h
    obtain ⟨w, hw, rfl⟩ := lowered h2 fun i k => m i (.inl k)
    obtain ⟨ws, hws, rfl⟩ := loweredAll h3 fun i k => m i (.inr k)
    exact ⟨.app w ws, ⟨fun e => h1 (by rw [e]; rfl), hw, hws⟩, rfl⟩
  | .tapp f ns ts, h, m => by
    obtain ⟨w, hw, rfl⟩ := lowered h.2 m
    exact ⟨.tapp w ns ts, ⟨h.1, hw⟩, rfl⟩
  | .lam ts b, h, m => by
    obtain ⟨w, hw, rfl⟩ := lowered h.2 m
    exact ⟨.lam ts w, ⟨h.1, hw⟩, rfl⟩
  | .bin op a b, h, m => by
    obtain ⟨w, hw, rfl⟩ := lowered h.1 fun i k => m i (.inl k)
    obtain ⟨x, hx, rfl⟩ := lowered h.2 fun i k => m i (.inr k)
    exact ⟨.bin op w x, ⟨hw, hx⟩, rfl⟩
  | .not a, h, m => by
    obtain ⟨w, hw, rfl⟩ := lowered (v := a) h m
    exact ⟨.not w, hw, rfl⟩
  | .try_ a t, h, m => by
    obtain ⟨w, hw, rfl⟩ := lowered (v := a) h m
    exact ⟨.try_ w t, hw, rfl⟩
  | .all ts b, h, m => by
    obtain ⟨w, hw, rfl⟩ := lowered h.2 m
    exact ⟨.all ts w, ⟨h.1, hw⟩, rfl⟩
  | .ex ts b, h, m => by
    obtain ⟨w, hw, rfl⟩ := lowered h.2 m
    exact ⟨.ex ts w, ⟨h.1, hw⟩, rfl⟩
  | .group a, h, m => by
    obtain ⟨w, hw, rfl⟩ := lowered h.2 m
    exact ⟨.group w, ⟨mt grouped_insert.2 h.1, hw⟩, rfl⟩
  | .bool b, _, _ => ⟨.bool b, trivial, rfl⟩
  | .ite c a b, h, m => by
    obtain ⟨h1, h2, h3⟩ := h
    obtain ⟨u, hu, rfl⟩ := lowered h1 fun i k => m i (.inl k)
    obtain ⟨w, hw, rfl⟩ := lowered h2 fun i k => m i (.inr (.inl k))
    obtain ⟨x, hx, rfl⟩ := lowered h3 fun i k => m i (.inr (.inr k))
    exact ⟨.ite u w x, ⟨hu, hw, hx⟩, rfl⟩
  | .match_ s cs, h, m => by
    obtain ⟨w, hw, rfl⟩ := lowered h.1 fun i k => m i (.inl k)
    obtain ⟨ws, hws, rfl⟩ := loweredCases h.2 fun i k => m i (.inr k)
    exact ⟨.match_ w ws, ⟨hw, hws⟩, rfl⟩

theorem loweredAll {n : Nat} : ∀ {vs : List Value}, AllTidy vs → (∀ i, SomeMentions i vs → n ≤ i) →
    ∃ ws, AllTidy ws ∧ Value.insertStackAll 0 n ws = vs
  | [], _, _ => ⟨[], trivial, rfl⟩
  | v :: vs, h, m => by
    obtain ⟨w, hw, rfl⟩ := lowered h.1 fun i k => m i (.inl k)
    obtain ⟨ws, hws, rfl⟩ := loweredAll h.2 fun i k => m i (.inr k)
    exact ⟨w :: ws, ⟨hw, hws⟩, rfl⟩

theorem loweredCases {n : Nat} : ∀ {cs : List Case}, CasesTidy cs → (∀ i, CaseMentions i cs → n ≤ i) →
    ∃ ws, CasesTidy ws ∧ Value.insertStackCases 0 n ws = cs
  | [], _, _ => ⟨[], trivial, rfl⟩
  | .mk ts p r i k :: cs, h, m => by
    obtain ⟨h1, h2, h3⟩ := h
    obtain ⟨u, hu, rfl⟩ := lowered h1 fun i k => m i (.inl k)
    obtain ⟨w, hw, rfl⟩ := lowered h2 fun i k => m i (.inr (.inl k))
    obtain ⟨ws, hws, rfl⟩ := loweredCases h3 fun i k => m i (.inr (.inr k))
    exact ⟨.mk ts u w i k :: ws, ⟨hu, hw, hws⟩, rfl⟩

end

mutual

theorem mentions_insert {n j : Nat} : ∀ {v : Value}, Mentions j (v.insertStack 0 n) ↔ n ≤ j ∧ Mentions (j - n) v
  | .var i t => by
    simp only [Value.insertStack, Nat.not_lt_zero, if_false, Mentions]
    omega
  | .const _ _ _ => by simp [Value.insertStack, Mentions]
  | .app f as => by
    simp only [Value.insertStack, Mentions, mentions_insert (v := f), mentions_insertAll (vs := as), and_or_left]
  | .tapp f _ _ => by simp only [Value.insertStack, Mentions, mentions_insert (v := f)]
  | .lam _ b => by simp only [Value.insertStack, Mentions, mentions_insert (v := b)]
  | .bin _ a b => by
    simp only [Value.insertStack, Mentions, mentions_insert (v := a), mentions_insert (v := b), and_or_left]
  | .not a => by simp only [Value.insertStack, Mentions, mentions_insert (v := a)]
  | .try_ a _ => by simp only [Value.insertStack, Mentions, mentions_insert (v := a)]
  | .all _ b => by simp only [Value.insertStack, Mentions, mentions_insert (v := b)]
  | .ex _ b => by simp only [Value.insertStack, Mentions, mentions_insert (v := b)]
  | .group a => by simp only [Value.insertStack, Mentions, mentions_insert (v := a)]
  | .bool _ => by simp [Value.insertStack, Mentions]
  | .ite c a b => by
    simp only [Value.insertStack, Mentions, mentions_insert (v := c), mentions_insert (v := a),
      mentions_insert (v := b), and_or_left]
  | .match_ s cs => by
    simp only [Value.insertStack, Mentions, mentions_insert (v := s), mentions_insertCases (cs := cs), and_or_left]

theorem mentions_insertAll {n j : Nat} : ∀ {vs : List Value},
    SomeMentions j (Value.insertStackAll 0 n vs) ↔ n ≤ j ∧ SomeMentions (j - n) vs
  | [] => by simp [Value.insertStackAll, SomeMentions]
  | v :: vs => by
    simp only [Value.insertStackAll, SomeMentions, mentions_insert (v := v), mentions_insertAll (vs := vs), and_or_left]

theorem mentions_insertCases {n j : Nat} : ∀ {cs : List Case},
    CaseMentions j (Value.insertStackCases 0 n cs) ↔ n ≤ j ∧ CaseMentions (j - n) cs
  | [] => by simp [Value.insertStackCases, CaseMentions]
  | .mk _ p r _ _ :: cs => by
    simp only [Value.insertStackCases, CaseMentions, mentions_insert (v := p), mentions_insert (v := r),
      mentions_insertCases (cs := cs), and_or_left]

end

mutual

theorem hasVariable_iff : ∀ {v : Value}, v.hasVariable = true ↔ ∃ i, Mentions i v
  | .var i t => by simp [Value.hasVariable, Mentions]
  | .const _ _ _ => by simp [Value.hasVariable, Mentions]
  | .app f as => by
    simp only [Value.hasVariable, Mentions, Bool.or_eq_true, hasVariable_iff (v := f), hasVariableAny_iff (vs := as),
      exists_or]
  | .tapp f _ _ => by simp only [Value.hasVariable, Mentions, hasVariable_iff (v := f)]
  | .lam _ b => by simp only [Value.hasVariable, Mentions, hasVariable_iff (v := b)]
  | .bin _ a b => by
    simp only [Value.hasVariable, Mentions, Bool.or_eq_true, hasVariable_iff (v := a), hasVariable_iff (v := b), exists_or]
  | .not a => by simp only [Value.hasVariable, Mentions, hasVariable_iff (v := a)]
  | .try_ a _ => by simp only [Value.hasVariable, Mentions, hasVariable_iff (v := a)]
  | .all _ b => by simp only [Value.hasVariable, Mentions, hasVariable_iff (v := b)]
  | .ex _ b => by simp only [Value.hasVariable, Mentions, hasVariable_iff (v := b)]
  | .group a => by simp only [Value.hasVariable, Mentions, hasVariable_iff (v := a)]
  | .bool _ => by simp [Value.hasVariable, Mentions]
  | .ite c a b => by
    simp only [Value.hasVariable, Mentions, Bool.or_eq_true, hasVariable_iff (v := c), hasVariable_iff (v := a),
      hasVariable_iff (v := b), exists_or, or_assoc]
  | .match_ s cs => by
    simp only [Value.hasVariable, Mentions, Bool.or_eq_true, hasVariable_iff (v := s), hasVariableCases_iff (cs := cs),
      exists_or]

theorem hasVariableAny_iff : ∀ {vs : List Value}, Value.hasVariableAny vs = true ↔ ∃ i, SomeMentions i vs
  | [] => by simp [Value.hasVariableAny, SomeMentions]
  | v :: vs => by
    simp only [Value.hasVariableAny, SomeMentions, Bool.or_eq_true, hasVariable_iff (v := v),
      hasVariableAny_iff (vs := vs), exists_or]

theorem hasVariableCases_iff : ∀ {cs : List Case}, Value.hasVariableCases cs = true ↔ ∃ i, CaseMentions i cs
  | [] => by simp [Value.hasVariableCases, CaseMentions]
  | .mk _ p r _ _ :: cs => by
    simp only [Value.hasVariableCases, CaseMentions, Bool.or_eq_true, hasVariable_iff (v := p), hasVariable_iff (v := r),
      hasVariableCases_iff (cs := cs), exists_or, or_assoc]

end

universe u

variable {F : Frame.{u}} {C : String → List F.T → F.D}

mutual

theorem den_closed (θ : String → F.T) (e e' : List F.D) : ∀ v : Value, (∀ i, ¬ Mentions i v) →
    F.den C θ e v = F.den C θ e' v
  | .var i _, h => absurd rfl (h i)
  | .const _ _ _, _ => rfl
  | .app f as, h => by
    simp only [Frame.den, den_closed θ e e' f fun i k => h i (.inl k), den_closedAll θ e e' as fun i k => h i (.inr k)]
  | .tapp f _ _, h => by simp only [Frame.den, den_closed _ e e' f h]
  | .lam ts b, h => by
    simp only [Frame.den]
    congr 1
    funext xs
    exact den_closed θ _ _ b h
  | .bin op a b, h => by
    simp only [Frame.den, den_closed θ e e' a fun i k => h i (.inl k), den_closed θ e e' b fun i k => h i (.inr k)]
  | .not a, h => by simp only [Frame.den, den_closed θ e e' a h]
  | .try_ a _, h => by simp only [Frame.den, den_closed θ e e' a h]
  | .all ts b, h => by
    simp only [Frame.den]
    refine ofProp_congr (forall_congr' fun xs => ?_)
    rw [den_closed θ (e ++ xs) (e' ++ xs) b h]
  | .ex ts b, h => by
    simp only [Frame.den]
    refine ofProp_congr (exists_congr fun xs => ?_)
    rw [den_closed θ (e ++ xs) (e' ++ xs) b h]
  | .group a, h => den_closed θ e e' a h
  | .bool _, _ => rfl
  | .ite c a b, h => by
    unfold Frame.den
    rw [den_closed θ e e' c fun i k => h i (.inl k), den_closed θ e e' a fun i k => h i (.inr (.inl k)),
      den_closed θ e e' b fun i k => h i (.inr (.inr k))]
  | .match_ s cs, h => by
    simp only [Frame.den, den_closed θ e e' s fun i k => h i (.inl k)]
    exact den_closedCases θ e e' _ cs fun i k => h i (.inr k)

theorem den_closedAll (θ : String → F.T) (e e' : List F.D) : ∀ vs : List Value, (∀ i, ¬ SomeMentions i vs) →
    F.denAll C θ e vs = F.denAll C θ e' vs
  | [], _ => rfl
  | v :: vs, h => by
    simp only [Frame.denAll, den_closed θ e e' v fun i k => h i (.inl k), den_closedAll θ e e' vs fun i k => h i (.inr k)]

theorem den_closedCases (θ : String → F.T) (e e' : List F.D) (d : F.D) : ∀ cs : List Case, (∀ i, ¬ CaseMentions i cs) →
    F.denCases C θ e d cs = F.denCases C θ e' d cs
  | [], _ => rfl
  | .mk ts p r _ _ :: cs, h => by
    simp only [Frame.denCases]
    refine pick_congr (fun xs => ?_) (fun xs _ => ?_) ?_
    · rw [den_closed θ (e ++ xs) (e' ++ xs) p fun i k => h i (.inl k)]
    · exact den_closed θ _ _ r fun i k => h i (.inr (.inl k))
    · exact den_closedCases θ e e' d cs fun i k => h i (.inr (.inr k))

end

end ClaimArgs
end Elab
end Acorn
