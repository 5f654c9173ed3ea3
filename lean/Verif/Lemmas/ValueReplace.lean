/-
Replacing constants by values, and exporting the statements of a block.
-/
import Verif.Lemmas.ValueSubst
namespace Acorn
namespace Elab

open Spec Classical

universe u

variable {F : Frame.{u}} {C : String → List F.T → F.D}

/-- What is needed of the replacements: on the stack `pre` and its extensions they mean what `c` says. -/
structure RepOk (F : Frame.{u}) (C : String → List F.T → F.D) (θ : String → F.T) (pre : List F.D) (base : Nat) (rep : Value.Replacer)
    (c : String → List F.T → F.D) : Prop where
  some : ∀ n ps t w, rep n ps t = some w → ∀ rest,
    F.den C θ (pre ++ rest) (if base = 0 then w else w.insertStack base (pre.length + rest.length - base)) =
      c n (F.tys θ ps)
  none : ∀ n ps t, rep n ps t = none → c n (F.tys θ ps) = C n (F.tys θ ps)

section

variable {θ : String → F.T} {pre : List F.D} {base : Nat} {rep : Value.Replacer}
  {c : String → List F.T → F.D}

mutual

theorem den_replace (hr : RepOk F C θ pre base rep c) : ∀ (v : Value) (size : Nat) (rest : List F.D),
    (base ≠ 0 → size = pre.length + rest.length) → boundNames v = [] →
    F.den C θ (pre ++ rest) (v.replaceConstants size base rep) = F.den c θ (pre ++ rest) v
  | .var _ _, _, _, _, _ => rfl
  | .const n ps t, size, rest, hs, _ => by
    show F.den C θ (pre ++ rest) (match rep n ps t with
      | none => .const n ps t
      | some v => if base = 0 then v else v.insertStack base (size - base)) = c n (F.tys θ ps)
    cases e : rep n ps t with
    | none => exact (hr.none n ps t e).symm
    | some w =>
      have := hr.some n ps t w e rest
      by_cases hb : base = 0
      · rw [if_pos hb] at this
        simp only [if_pos hb]
        exact this
      · rw [if_neg hb, ← hs hb] at this
        simp only [if_neg hb]
        exact this
  | .app f as, size, rest, hs, hb => by
    simp only [boundNames, List.append_eq_nil_iff] at hb
    simp only [Value.replaceConstants, Frame.den, den_replace hr f size rest hs hb.1,
      den_replaceAll hr as size rest hs hb.2]
  | .tapp f ns ts, size, rest, hs, hb => by
    simp only [boundNames, List.append_eq_nil_iff] at hb
    obtain ⟨rfl, hb⟩ := hb
    simp only [Value.replaceConstants, Frame.den, List.zip_nil_left]
    exact den_replace hr f size rest hs hb
  | .lam ts b, size, rest, hs, hb => by
    simp only [Value.replaceConstants, Frame.den, List.append_assoc]
    refine lamN_congr fun xs hxs => ?_
    refine den_replace hr b _ (rest ++ xs) (fun h => ?_) (by simpa only [boundNames] using hb)
    rw [hs h, List.length_append, Fits.length hxs, tys_length]
    omega
  | .bin op a b, size, rest, hs, hb => by
    simp only [boundNames, List.append_eq_nil_iff] at hb
    simp only [Value.replaceConstants, Frame.den, den_replace hr a size rest hs hb.1,
      den_replace hr b size rest hs hb.2]
  | .not a, size, rest, hs, hb => by
    simp only [Value.replaceConstants, Frame.den, den_replace hr a size rest hs (by simpa only [boundNames] using hb)]
  | .try_ a t, size, rest, hs, hb => by
    simp only [Value.replaceConstants, Frame.den, den_replace hr a size rest hs (by simpa only [boundNames] using hb)]
  | .all ts b, size, rest, hs, hb => by
    simp only [Value.replaceConstants, Frame.den, List.append_assoc]
    refine ofProp_congr (forall_congr' fun xs => ?_)
    refine imp_congr_right fun hxs => ?_
    rw [den_replace hr b _ (rest ++ xs) (fun h => ?_) (by simpa only [boundNames] using hb)]
    rw [hs h, List.length_append, Fits.length hxs, tys_length]
    omega
  | .ex ts b, size, rest, hs, hb => by
    simp only [Value.replaceConstants, Frame.den, List.append_assoc]
    refine ofProp_congr (exists_congr fun xs => ?_)
    refine and_congr_right fun hxs => ?_
    rw [den_replace hr b _ (rest ++ xs) (fun h => ?_) (by simpa only [boundNames] using hb)]
    rw [hs h, List.length_append, Fits.length hxs, tys_length]
    omega
  | .group a, size, rest, hs, hb => den_replace hr a size rest hs (by simpa only [boundNames] using hb)
  | .bool _, _, _, _, _ => rfl
  | .ite x a b, size, rest, hs, hb => by
    simp only [boundNames, List.append_eq_nil_iff] at hb
    simp only [Value.replaceConstants, Frame.den, den_replace hr x size rest hs hb.1,
      den_replace hr a size rest hs hb.2.1, den_replace hr b size rest hs hb.2.2]
  | .match_ s cs, size, rest, hs, hb => by
    simp only [boundNames, List.append_eq_nil_iff] at hb
    simp only [Value.replaceConstants, Frame.den, den_replace hr s size rest hs hb.1]
    exact den_replaceCases hr cs _ size rest hs hb.2

theorem den_replaceAll (hr : RepOk F C θ pre base rep c) : ∀ (vs : List Value) (size : Nat)
    (rest : List F.D), (base ≠ 0 → size = pre.length + rest.length) → boundNamesAll vs = [] →
    F.denAll C θ (pre ++ rest) (Value.replaceConstantsAll size base rep vs) =
      F.denAll c θ (pre ++ rest) vs
  | [], _, _, _, _ => rfl
  | v :: vs, size, rest, hs, hb => by
    simp only [boundNamesAll, List.append_eq_nil_iff] at hb
    simp only [Value.replaceConstantsAll, Frame.denAll, den_replace hr v size rest hs hb.1,
      den_replaceAll hr vs size rest hs hb.2]

theorem den_replaceCases (hr : RepOk F C θ pre base rep c) : ∀ (cs : List Case) (d : F.D) (size : Nat)
    (rest : List F.D), (base ≠ 0 → size = pre.length + rest.length) → boundNamesCases cs = [] →
    F.denCases C θ (pre ++ rest) d (Value.replaceConstantsCases size base rep cs) =
      F.denCases c θ (pre ++ rest) d cs
  | [], _, _, _, _, _ => rfl
  | .mk ts p r _ _ :: cs, d, size, rest, hs, hb => by
    simp only [boundNamesCases, List.append_eq_nil_iff] at hb
    simp only [Value.replaceConstantsCases, Frame.denCases, List.append_assoc]
    have hl : ∀ xs, F.Fits xs (F.tys θ ts) → (base ≠ 0 → size + ts.length = pre.length + (rest ++ xs).length) := by
      intro xs hxs h
      rw [hs h, List.length_append, Fits.length hxs, tys_length]
      omega
    refine pick_congr (fun xs => ?_) (fun xs hxs => ?_) ?_
    · refine and_congr_right fun hxs => ?_
      rw [den_replace hr p _ (rest ++ xs) (hl xs hxs) hb.1]
    · exact den_replace hr r _ (rest ++ xs) (hl xs hxs.1) hb.2.1
    · exact den_replaceCases hr cs d size rest hs hb.2.2

end
end

/-! ### Quantifiers without variables -/

theorem den_mkAll (θ : String → F.T) (env : List F.D) (ts : List Ty) (v : Value) :
    F.Holds C θ env (Value.mkAll ts v) ↔ ∀ xs, F.Fits xs (F.tys θ ts) → F.Holds C θ (env ++ xs) v := by
  unfold Value.mkAll
  cases ts with
  | nil =>
    simp only [List.isEmpty_nil, if_true]
    constructor
    · intro h xs hxs
      cases xs with
      | nil => rwa [List.append_nil]
      | cons => exact hxs.elim
    · intro h
      have := h [] trivial
      rwa [List.append_nil] at this
  | cons t ts =>
    simp only [List.isEmpty_cons, Bool.false_eq_true, if_false]
    exact ofProp_tt

theorem den_mkEx (θ : String → F.T) (env : List F.D) (ts : List Ty) (v : Value) :
    F.Holds C θ env (Value.mkEx ts v) ↔ ∃ xs, F.Fits xs (F.tys θ ts) ∧ F.Holds C θ (env ++ xs) v := by
  unfold Value.mkEx
  cases ts with
  | nil =>
    simp only [List.isEmpty_nil, if_true]
    constructor
    · intro h
      exact ⟨[], trivial, by rwa [List.append_nil]⟩
    · rintro ⟨xs, hxs, h⟩
      cases xs with
      | nil => rwa [List.append_nil] at h
      | cons => exact hxs.elim
  | cons t ts =>
    simp only [List.isEmpty_cons, Bool.false_eq_true, if_false]
    exact ofProp_tt

theorem den_mkLam (θ : String → F.T) (env : List F.D) (ts : List Ty) (v : Value) :
    F.den C θ env (Value.mkLam ts v) = F.lamN (F.tys θ ts) fun xs => F.den C θ (env ++ xs) v := by
  unfold Value.mkLam
  cases ts with
  | nil =>
    simp only [List.isEmpty_nil, if_true]
    show _ = F.den C θ (env ++ []) v
    rw [List.append_nil]
  | cons t ts => rfl

theorem den_apply (θ : String → F.T) (env : List F.D) (f : Value) (as : List Value) :
    F.den C θ env (f.apply as) = F.appN (F.den C θ env f) (F.denAll C θ env as) := by
  unfold Value.apply
  cases as <;> rfl

end Elab
end Acorn
