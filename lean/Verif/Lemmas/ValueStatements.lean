/-
Operations on statements: negation, conjunctions, definitions of functions, exporting from a block.
-/
import Verif.Lemmas.ValueExpand
namespace Acorn
namespace Elab

open Spec Classical

universe u

variable {F : Frame.{u}} {C : String → List F.T → F.D}

theorem holds_ofProp {p : Prop} : F.ofProp p = F.tt ↔ p := ofProp_tt

theorem holds_not (θ : String → F.T) (env : List F.D) (v : Value) :
    F.Holds C θ env (.not v) ↔ ¬ F.Holds C θ env v := holds_ofProp

theorem holds_bin (θ : String → F.T) (env : List F.D) (op : BinOp) (a b : Value) :
    F.Holds C θ env (.bin op a b) ↔ F.binary op (F.den C θ env a) (F.den C θ env b) := holds_ofProp

theorem holds_bool (θ : String → F.T) (env : List F.D) (b : Bool) :
    F.Holds C θ env (.bool b) ↔ b = true := holds_ofProp

theorem holds_all (θ : String → F.T) (env : List F.D) (ts : List Ty) (v : Value) :
    F.Holds C θ env (.all ts v) ↔ ∀ xs, F.Fits xs (F.tys θ ts) → F.Holds C θ (env ++ xs) v := holds_ofProp

theorem holds_ex (θ : String → F.T) (env : List F.D) (ts : List Ty) (v : Value) :
    F.Holds C θ env (.ex ts v) ↔ ∃ xs, F.Fits xs (F.tys θ ts) ∧ F.Holds C θ (env ++ xs) v := holds_ofProp

theorem holds_group (θ : String → F.T) (env : List F.D) (v : Value) :
    F.Holds C θ env (.group v) ↔ F.Holds C θ env v := .rfl

theorem holds_negate (θ : String → F.T) (env : List F.D) : ∀ v : Value,
    F.Holds C θ env v.negate ↔ ¬ F.Holds C θ env v := by
  intro v
  induction v using Value.negate.induct with
  | case1 x ih => exact ih
  | case2 x => exact ⟨fun h => by rw [holds_not]; exact not_not_intro h,
      fun h => by rw [holds_not] at h; exact Classical.not_not.1 h⟩
  | case3 x y =>
    simp only [Value.negate, holds_bin, Frame.binary, ne_eq]
  | case4 x y =>
    simp only [Value.negate, holds_bin, Frame.binary, ne_eq, Classical.not_not]
  | case5 b => cases b <;> simp [Value.negate, holds_bool]
  | case6 v h1 h2 h3 h4 h5 =>
    rw [Value.negate]
    · exact holds_not θ env v
    all_goals assumption

theorem holds_prettyNegate (θ : String → F.T) : ∀ (v : Value) (env : List F.D),
    F.Holds C θ env v.prettyNegate ↔ ¬ F.Holds C θ env v := by
  intro v
  induction v using Value.prettyNegate.induct with
  | case1 x ih => exact ih
  | case2 x => exact fun env => ⟨fun h => by rw [holds_not]; exact not_not_intro h,
      fun h => by rw [holds_not] at h; exact Classical.not_not.1 h⟩
  | case3 x y =>
    intro env
    simp only [Value.prettyNegate, holds_bin, Frame.binary, ne_eq]
  | case4 x y =>
    intro env
    simp only [Value.prettyNegate, holds_bin, Frame.binary, ne_eq, Classical.not_not]
  | case5 x y ih1 ih2 =>
    intro env
    have h1 := ih1 env
    have h2 := ih2 env
    simp only [Frame.Holds] at h1 h2
    simp only [Value.prettyNegate, holds_bin, Frame.binary, h1, h2, not_or]
  | case6 x y ih1 ih2 =>
    intro env
    have h1 := ih1 env
    have h2 := ih2 env
    simp only [Frame.Holds] at h1 h2
    simp only [Value.prettyNegate, holds_bin, Frame.binary, h1, h2, Classical.not_and_iff_not_or_not]
  | case7 x y ih2 =>
    intro env
    have h2 := ih2 env
    simp only [Frame.Holds] at h2
    simp only [Value.prettyNegate, holds_bin, Frame.binary, h2, Classical.not_imp]
  | case8 b => intro env; cases b <;> simp [Value.prettyNegate, holds_bool]
  | case9 ts b ih =>
    intro env
    simp only [Value.prettyNegate, den_mkEx, holds_all, ih]
    constructor
    · rintro ⟨xs, h1, h2⟩ h
      exact h2 (h xs h1)
    · intro h
      refine Classical.byContradiction fun hn => h fun xs hxs => ?_
      exact Classical.byContradiction fun h' => hn ⟨xs, hxs, h'⟩
  | case10 ts b ih =>
    intro env
    simp only [Value.prettyNegate, den_mkAll, holds_ex, ih]
    constructor
    · rintro h ⟨xs, h1, h2⟩
      exact h xs h1 h2
    · exact fun h xs hxs h' => h ⟨xs, hxs, h'⟩
  | case11 v =>
    intro env
    rw [Value.prettyNegate]
    · exact holds_not θ env v
    all_goals assumption

theorem holds_removeAnd (θ : String → F.T) (env : List F.D) : ∀ v : Value,
    (∀ w ∈ v.removeAnd, F.Holds C θ env w) ↔ F.Holds C θ env v := by
  intro v
  induction v using Value.removeAnd.induct with
  | case1 a b ih1 ih2 =>
    simp only [Value.removeAnd, List.mem_append, holds_bin, Frame.binary]
    rw [← Frame.Holds, ← Frame.Holds, ← ih1, ← ih2]
    exact ⟨fun h => ⟨fun w hw => h w (.inl hw), fun w hw => h w (.inr hw)⟩,
      fun h w hw => hw.elim (h.1 w) (h.2 w)⟩
  | case2 v h =>
    rw [Value.removeAnd]
    · simp
    · assumption

theorem holds_negateGoal (θ : String → F.T) (env : List F.D) (v : Value) :
    ((∀ a, v.negateGoal.1 = some a → F.Holds C θ env a) ∧ F.Holds C θ env v.negateGoal.2) ↔
      ¬ F.Holds C θ env v := by
  unfold Value.negateGoal
  split
  · simp only [Option.some.injEq, forall_eq', holds_negate, holds_bin, Frame.binary, Classical.not_imp]
    rfl
  · simp [holds_negate]

theorem holds_foldl_and (θ : String → F.T) (env : List F.D) : ∀ (vs : List Value) (v : Value),
    F.Holds C θ env (vs.foldl (fun a b => .bin .and a b) v) ↔ ∀ w ∈ v :: vs, F.Holds C θ env w
  | [], v => by simp
  | w :: vs, v => by
    rw [List.foldl_cons, holds_foldl_and θ env vs]
    simp only [List.mem_cons, forall_eq_or_imp, holds_bin, Frame.binary, and_assoc]
    rfl

theorem holds_foldl_or (θ : String → F.T) (env : List F.D) : ∀ (vs : List Value) (v : Value),
    F.Holds C θ env (vs.foldl (fun a b => .bin .or a b) v) ↔ ∃ w ∈ v :: vs, F.Holds C θ env w
  | [], v => by simp
  | w :: vs, v => by
    rw [List.foldl_cons, holds_foldl_or θ env vs]
    simp only [List.mem_cons, exists_eq_or_imp, holds_bin, Frame.binary, or_assoc]
    rfl

/-! ### Definitions of functions -/

theorem den_stripLams (θ : String → F.T) : ∀ (v : Value) (env : List F.D),
    F.den C θ env v = F.lamN (F.tys θ v.stripLams.1) fun xs => F.den C θ (env ++ xs) v.stripLams.2 := by
  intro v
  induction v using Value.stripLams.induct with
  | case1 ts b us v e ih =>
    intro env
    simp only [Value.stripLams, tys_append, lamN_append, Frame.den]
    congr 1
    funext xs
    rw [ih]
    simp only [List.append_assoc]
  | case2 v h =>
    intro env
    rw [Value.stripLams]
    · show _ = F.den C θ (env ++ []) v
      rw [List.append_nil]
    · assumption

theorem varsZip : ∀ (ts : List Ty) (i : Nat),
    ((List.range' i ts.length).zip ts |>.map fun (x : Nat × Ty) => Value.var x.1 x.2) = varsFrom i ts
  | [], _ => rfl
  | t :: ts, i => by
    simp only [List.length_cons, List.range'_succ, List.zip_cons_cons, List.map_cons, varsZip ts (i + 1),
      varsFrom]

theorem holds_inflate (θ : String → F.T) (n : String) (ps : List Ty) (t : Ty) (d : Value) (r : F.T)
    (hc : F.mem (C n (F.tys θ ps)) (F.fnN (F.tys θ d.stripLams.1) r))
    (hd : F.mem (F.den C θ [] d) (F.fnN (F.tys θ d.stripLams.1) r)) :
    F.Holds C θ [] (Value.inflate (.const n ps t) d) ↔ C n (F.tys θ ps) = F.den C θ [] d := by
  unfold Value.inflate
  have hs := den_stripLams (C := C) θ d []
  generalize d.stripLams = p at *
  obtain ⟨ts, body⟩ := p
  simp only at hs hc hd ⊢
  rw [hs] at hd ⊢
  split
  · rename_i h
    cases ts with
    | nil => exact holds_bin θ [] _ _ _
    | cons => simp at h
  · rw [holds_all]
    have hv : ∀ xs, F.Fits xs (F.tys θ ts) → (F.Holds C θ ([] ++ xs) (.bin .equals ((Value.const n ps t).apply
        ((List.range ts.length).zip ts |>.map fun (x : Nat × Ty) => Value.var x.1 x.2)) body) ↔
        F.appN (C n (F.tys θ ps)) xs =
          F.appN (F.lamN (F.tys θ ts) fun xs => F.den C θ ([] ++ xs) body) xs) := by
      intro xs hxs
      rw [holds_bin, List.range_eq_range', varsZip]
      have := den_pattern (C := C) θ [] xs n ps t ts (by rw [Fits.length hxs, tys_length])
      rw [List.length_nil] at this
      simp only [Frame.binary]
      rw [this, appN_lamN (k := fun xs => F.den C θ ([] ++ xs) body) hxs]
    constructor
    · exact fun h => extN hc hd fun xs hxs => (hv xs hxs).1 (h xs hxs)
    · exact fun h xs hxs => (hv xs hxs).2 (by rw [h])

/-! ### Exporting the statements of a block -/

mutual

theorem boundNames_insert (i k : Nat) : ∀ v : Value, boundNames (v.insertStack i k) = boundNames v
  | .var j t => by unfold Value.insertStack; split <;> rfl
  | .const _ _ _ => rfl
  | .app f as => by simp only [Value.insertStack, boundNames, boundNames_insert i k f, boundNamesAll_insert i k as]
  | .tapp f _ _ => by simp only [Value.insertStack, boundNames, boundNames_insert i k f]
  | .lam _ b => by simp only [Value.insertStack, boundNames, boundNames_insert i k b]
  | .bin _ a b => by simp only [Value.insertStack, boundNames, boundNames_insert i k a, boundNames_insert i k b]
  | .not a => by simp only [Value.insertStack, boundNames, boundNames_insert i k a]
  | .try_ a _ => by simp only [Value.insertStack, boundNames, boundNames_insert i k a]
  | .all _ b => by simp only [Value.insertStack, boundNames, boundNames_insert i k b]
  | .ex _ b => by simp only [Value.insertStack, boundNames, boundNames_insert i k b]
  | .group a => by simp only [Value.insertStack, boundNames, boundNames_insert i k a]
  | .bool _ => rfl
  | .ite c a b => by
    simp only [Value.insertStack, boundNames, boundNames_insert i k c, boundNames_insert i k a,
      boundNames_insert i k b]
  | .match_ s cs => by
    simp only [Value.insertStack, boundNames, boundNames_insert i k s, boundNamesCases_insert i k cs]

theorem boundNamesAll_insert (i k : Nat) : ∀ vs : List Value,
    boundNamesAll (Value.insertStackAll i k vs) = boundNamesAll vs
  | [] => rfl
  | v :: vs => by
    simp only [Value.insertStackAll, boundNamesAll, boundNames_insert i k v, boundNamesAll_insert i k vs]

theorem boundNamesCases_insert (i k : Nat) : ∀ cs : List Case,
    boundNamesCases (Value.insertStackCases i k cs) = boundNamesCases cs
  | [] => rfl
  | .mk _ p r _ _ :: cs => by
    simp only [Value.insertStackCases, boundNamesCases, boundNames_insert i k p, boundNames_insert i k r,
      boundNamesCases_insert i k cs]

end

/-- The meanings of the constants, except that those named get the given elements; of two elements for
one name the last counts. -/
noncomputable def pinned (F : Frame.{u}) (C : String → List F.T → F.D) (names : List String) (xs : List F.D) :
    String → List F.T → F.D := fun n ts => ((names.zip xs).reverse.lookup n).getD (C n ts)

theorem lookup_zip_idx (n : String) : ∀ (names : List String) (xs : List F.D), names.length = xs.length →
    n ∈ names → (names.zip xs).lookup n = xs[names.idxOf n]?
  | [], _, _, h => by simp at h
  | m :: names, [], h, _ => by simp at h
  | m :: names, x :: xs, h, hn => by
    simp only [List.zip_cons_cons, List.lookup_cons]
    by_cases e : n = m
    · subst e
      simp
    · have e' : (n == m) = false := by simpa using e
      have e2 : ¬ m = n := fun h => e h.symm
      rw [e']
      simp only [List.idxOf_cons]
      have e3 : (m == n) = false := by simpa using e2
      rw [e3]
      simp only [cond_false, List.getElem?_cons_succ]
      exact lookup_zip_idx n names xs (by simpa using h) (by simpa [e] using hn)

theorem lookup_zip_out (n : String) : ∀ (names : List String) (xs : List F.D),
    n ∉ names → (names.zip xs).lookup n = none
  | [], _, _ => by simp
  | m :: names, [], h => by simp
  | m :: names, x :: xs, h => by
    simp only [List.mem_cons, not_or] at h
    simp only [List.zip_cons_cons, List.lookup_cons]
    have e' : (n == m) = false := by simpa using h.1
    rw [e']
    exact lookup_zip_out n names xs h.2

theorem zip_reverse (names : List String) (xs : List F.D) (h : names.length = xs.length) :
    (names.zip xs).reverse = names.reverse.zip xs.reverse := by
  apply List.ext_getElem?
  intro i
  by_cases hi : i < names.length
  · rw [List.getElem?_reverse (by simp [h]; omega)]
    simp only [List.getElem?_zip_eq_some, List.zip, List.getElem?_zipWith]
    rw [List.getElem?_reverse hi, List.getElem?_reverse (by omega)]
    simp only [List.length_zipWith, h, Nat.min_self]
  · rw [List.getElem?_eq_none (by simp [h]; omega), List.getElem?_eq_none (by simp [h]; omega)]

theorem lookup_last_idx (n : String) (names : List String) (xs : List F.D) (h : names.length = xs.length)
    (hn : n ∈ names) :
    (names.zip xs).reverse.lookup n = xs[names.length - 1 - names.reverse.idxOf n]? := by
  rw [zip_reverse names xs h, lookup_zip_idx n _ _ (by simp [h]) (by simpa using hn)]
  have hlt : names.reverse.idxOf n < names.reverse.length := List.idxOf_lt_length_iff.2 (by simpa using hn)
  rw [List.length_reverse] at hlt
  rw [List.getElem?_reverse (by omega), h]

theorem lookup_last_out (n : String) (names : List String) (xs : List F.D) (hn : n ∉ names) :
    (names.zip xs).reverse.lookup n = none := by
  rw [List.lookup_eq_none_iff]
  intro p hp
  have := (List.of_mem_zip (List.mem_reverse.1 hp)).1
  simp only [bne_iff_ne, ne_eq]
  rintro rfl
  exact hn this

theorem holds_externalize (θ : String → F.T) (args others : List (String × Ty)) (v : Value)
    (hv : boundNames v = []) :
    F.Holds C θ [] (Value.externalize args others v) ↔
      ∀ xs, F.Fits xs (F.tys θ (args.map (·.2))) → ∃ ys, F.Fits ys (F.tys θ (others.map (·.2))) ∧
        F.Holds (pinned F C ((args ++ others).map (·.1)) (xs ++ ys)) θ [] v := by
  unfold Value.externalize
  rw [den_mkAll]
  refine forall_congr' fun xs => imp_congr_right fun hxs => ?_
  rw [den_mkEx]
  refine exists_congr fun ys => and_congr_right fun hys => ?_
  have hl : ((args ++ others).map (·.1)).length = (xs ++ ys).length := by
    have h1 := Fits.length hxs
    have h2 := Fits.length hys
    rw [tys_length] at h1 h2
    simp only [List.length_map, List.length_append] at *
    omega
  generalize hnm : (args ++ others).map (·.1) = names at hl
  have ok : RepOk F C θ (xs ++ ys) 0
      (fun n _ t => if n ∈ names then some (.var (names.length - 1 - names.reverse.idxOf n) t) else none)
      (pinned F C names (xs ++ ys)) := by
    constructor
    · intro n ps t w e rest
      by_cases hn : n ∈ names
      · rw [if_pos hn] at e
        simp only [Option.some.injEq] at e
        subst e
        have hlt : names.length - 1 - names.reverse.idxOf n < (xs ++ ys).length := by
          rw [← hl]
          have : 0 < names.length := List.length_pos_of_mem hn
          omega
        simp only [if_true, Frame.den, pinned, lookup_last_idx n names _ hl hn,
          List.getD_eq_getElem?_getD, List.getElem?_append_left hlt, List.getElem?_eq_getElem hlt,
          Option.getD_some]
      · rw [if_neg hn] at e
        cases e
    · intro n ps t e
      by_cases hn : n ∈ names
      · rw [if_pos hn] at e
        cases e
      · simp only [pinned, lookup_last_out n names _ hn, Option.getD_none]
  have e1 := den_replace ok (v.insertStack 0 names.length) 0 [] (by simp)
    (by rw [boundNames_insert]; exact hv)
  have e2 := den_insertStack (C := pinned F C names (xs ++ ys)) θ [] (xs ++ ys) [] v
  simp only [List.append_nil, List.nil_append, List.length_nil, ← hl] at e1 e2
  simp only [Frame.Holds, List.nil_append]
  rw [e1, e2]

end Elab
end Acorn
