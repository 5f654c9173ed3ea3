/-
The computed variance of a type parameter, the positivity test, and the generic form of values.
-/
import Verif.Spec.Variance
import Verif.Lemmas.SetDatatypes
namespace Acorn
namespace Elab

open Spec

/-! ### Variance -/

/-- The sign is in the variance. -/
def Variance.has : Variance → Bool → Prop
  | .positive, b => b = true
  | .negative, b => b = false
  | .both, _ => True
  | .none, _ => False

theorem has_merge (v w : Variance) (b : Bool) : (v.merge w).has b ↔ v.has b ∨ w.has b := by
  cases v <;> cases w <;> cases b <;> simp [Variance.merge, Variance.has]

variable {lookup : String → Option (List Variance)} {p : String}

theorem occurs_tvar {b : Bool} {n : String} : Occurs lookup p b (.tvar n) ↔ n = p ∧ b = true :=
  ⟨fun h => by cases h; exact ⟨rfl, rfl⟩, fun ⟨h, k⟩ => by rw [h, k]; exact .tvar⟩

theorem occurs_arb {b : Bool} {n : String} : Occurs lookup p b (.arb n) ↔ n = p ∧ b = true :=
  ⟨fun h => by cases h; exact ⟨rfl, rfl⟩, fun ⟨h, k⟩ => by rw [h, k]; exact .arb⟩

theorem occurs_bool {b : Bool} : ¬ Occurs lookup p b .bool := fun h => by cases h
theorem occurs_type0 {b : Bool} : ¬ Occurs lookup p b .type0 := fun h => by cases h
theorem occurs_constraint {b : Bool} {c : String} : ¬ Occurs lookup p b (.constraint c) := fun h => by cases h

theorem occ_cons {a : Ty} {as : List Ty} {Q : Nat → Ty → Prop} :
    (∃ (i : Nat) (x : Ty), (a :: as)[i]? = some x ∧ Q i x) ↔ Q 0 a ∨ ∃ (i : Nat) (x : Ty), as[i]? = some x ∧ Q (i + 1) x := by
  constructor
  · rintro ⟨i, x, hi, h⟩
    cases i with
    | zero => cases hi; exact .inl h
    | succ i => exact .inr ⟨i, x, hi, h⟩
  · rintro (h | ⟨i, x, hi, h⟩)
    · exact ⟨0, a, rfl, h⟩
    · exact ⟨i + 1, x, hi, h⟩

/-- An occurrence of the sign in the argument of a datatype, for a parameter with this variance. -/
def occArg (lookup : String → Option (List Variance)) (p : String) (b : Bool) (v : Option Variance) (a : Ty) : Prop :=
  match v with
  | some .negative => Occurs lookup p (!b) a
  | some .both => ∃ c, Occurs lookup p c a
  | _ => Occurs lookup p b a

theorem occurs_data {b : Bool} {d : String} {as : List Ty} : Occurs lookup p b (.data d as) ↔
    ∃ (i : Nat) (a : Ty), as[i]? = some a ∧ occArg lookup p b (declaredVariance lookup d i) a := by
  constructor
  · intro h
    cases h with
    | contra hi hv h => exact ⟨_, _, hi, by rw [hv]; simpa [occArg] using h⟩
    | inv hi hv h => exact ⟨_, _, hi, by rw [hv]; exact ⟨_, h⟩⟩
    | @co _ _ _ i a hi h1 h2 h =>
      refine ⟨i, a, hi, ?_⟩
      revert h1 h2
      generalize declaredVariance lookup d i = v
      intro h1 h2
      match v with
      | some .negative => exact absurd rfl h1
      | some .both => exact absurd rfl h2
      | some .positive => exact h
      | some .none => exact h
      | none => exact h
  · rintro ⟨i, a, hi, h⟩
    revert h
    cases hv : declaredVariance lookup d i with
    | none => exact fun h => .co hi (by rw [hv]; simp) (by rw [hv]; simp) h
    | some v =>
      cases v with
      | negative =>
        intro h
        have := Occurs.contra (lookup := lookup) hi hv h
        rwa [Bool.not_not] at this
      | both => exact fun ⟨c, h⟩ => .inv hi hv h
      | positive => exact fun h => .co hi (by rw [hv]; simp) (by rw [hv]; simp) h
      | none => exact fun h => .co hi (by rw [hv]; simp) (by rw [hv]; simp) h

theorem occurs_fn {b : Bool} {as : List Ty} {r : Ty} : Occurs lookup p b (.fn as r) ↔
    (∃ a ∈ as, Occurs lookup p (!b) a) ∨ Occurs lookup p b r := by
  constructor
  · intro h
    cases h with
    | arg ha h => exact .inl ⟨_, ha, by rwa [Bool.not_not]⟩
    | res h => exact .inr h
  · rintro (⟨a, ha, h⟩ | h)
    · have := Occurs.arg (lookup := lookup) (r := r) ha h
      rwa [Bool.not_not] at this
    · exact .res h

/-- The sign, from a position of the sign `pos`. -/
def sign (pos b : Bool) : Bool := pos == b

mutual

theorem variance_has (pos b : Bool) : ∀ t : Ty, (t.variance lookup p pos).has b ↔ Occurs lookup p (sign pos b) t
  | .tvar n => by
    rw [Ty.variance, occurs_tvar]
    by_cases e : n = p
    · rw [show (n == p) = true from beq_iff_eq.2 e]
      cases pos <;> cases b <;> simp [Variance.has, sign, e]
    · rw [show (n == p) = false from beq_eq_false_iff_ne.2 e]
      simp [Variance.has, e]
  | .arb n => by
    rw [Ty.variance, occurs_arb]
    by_cases e : n = p
    · rw [show (n == p) = true from beq_iff_eq.2 e]
      cases pos <;> cases b <;> simp [Variance.has, sign, e]
    · rw [show (n == p) = false from beq_eq_false_iff_ne.2 e]
      simp [Variance.has, e]
  | .data d as => by
    rw [Ty.variance, varianceArgs_has pos b (lookup d) .none as, occurs_data]
    simp only [Variance.has, false_or]
    rfl
  | .fn as r => by
    rw [Ty.variance, has_merge, varianceAll_has (!pos) b .none as, variance_has pos b r, occurs_fn]
    simp only [Variance.has, false_or]
    rw [show sign (!pos) b = !sign pos b by cases pos <;> cases b <;> rfl]
  | .bool => ⟨fun h => h.elim, fun h => (occurs_bool h).elim⟩
  | .type0 => ⟨fun h => h.elim, fun h => (occurs_type0 h).elim⟩
  | .constraint _ => ⟨fun h => h.elim, fun h => (occurs_constraint h).elim⟩

theorem varianceArgs_has (pos b : Bool) : ∀ (vs : Option (List Variance)) (acc : Variance) (as : List Ty),
    (Ty.varianceArgs lookup p pos vs acc as).has b ↔
      acc.has b ∨ ∃ (i : Nat) (a : Ty), as[i]? = some a ∧ occArg lookup p (sign pos b) (vs.bind (·[i]?)) a
  | vs, acc, [] => by
    have : Ty.varianceArgs lookup p pos vs acc [] = acc := by
      match vs with
      | none => rfl
      | some [] => rfl
      | some (v :: vs) => cases v <;> rfl
    rw [this]
    exact ⟨.inl, fun h => h.elim id fun ⟨i, a, hi, _⟩ => by simp at hi⟩
  | some (.negative :: vs), acc, a :: as => by
    rw [Ty.varianceArgs, varianceArgs_has pos b (some vs) _ as, has_merge, variance_has (!pos) b a, or_assoc, occ_cons]
    rw [show sign (!pos) b = !sign pos b by cases pos <;> cases b <;> rfl]
    rfl
  | some (.both :: vs), acc, a :: as => by
    rw [Ty.varianceArgs, varianceArgs_has pos b (some vs) _ as, occ_cons]
    have h1 := variance_has true true a
    have h2 := variance_has true false a
    have : (if a.variance lookup p true = .none then acc else acc.merge .both).has b ↔
        acc.has b ∨ ∃ c, Occurs lookup p c a := by
      split
      · next e =>
        rw [e] at h1 h2
        refine ⟨.inl, fun h => h.elim id fun ⟨c, h⟩ => ?_⟩
        cases c
        · exact (h2.2 h).elim
        · exact (h1.2 h).elim
      · next e =>
        rw [has_merge]
        refine or_congr_right ⟨fun _ => ?_, fun _ => trivial⟩
        revert e h1 h2
        cases a.variance lookup p true with
        | positive => exact fun h1 _ _ => ⟨_, h1.1 rfl⟩
        | negative => exact fun _ h2 _ => ⟨_, h2.1 rfl⟩
        | both => exact fun _ h2 _ => ⟨_, h2.1 trivial⟩
        | none => exact fun _ _ e => absurd rfl e
    rw [this, or_assoc]
    rfl
  | some (.positive :: vs), acc, a :: as => by
    rw [Ty.varianceArgs, varianceArgs_has pos b (some vs) _ as, has_merge, variance_has pos b a, or_assoc, occ_cons]
    · rfl
    · simp
    · simp
  | some (.none :: vs), acc, a :: as => by
    rw [Ty.varianceArgs, varianceArgs_has pos b (some vs) _ as, has_merge, variance_has pos b a, or_assoc, occ_cons]
    · rfl
    · simp
    · simp
  | some [], acc, a :: as => by
    rw [Ty.varianceArgs, varianceArgs_has pos b (some []) _ as, has_merge, variance_has pos b a, or_assoc, occ_cons]
    rfl
  | none, acc, a :: as => by
    rw [Ty.varianceArgs, varianceArgs_has pos b none _ as, has_merge, variance_has pos b a, or_assoc, occ_cons]
    rfl

theorem varianceAll_has (pos b : Bool) : ∀ (acc : Variance) (as : List Ty),
    (Ty.varianceAll lookup p pos acc as).has b ↔ acc.has b ∨ ∃ a ∈ as, Occurs lookup p (sign pos b) a
  | acc, [] => by simp [Ty.varianceAll]
  | acc, a :: as => by
    rw [Ty.varianceAll, varianceAll_has pos b _ as, has_merge, variance_has pos b a, or_assoc]
    simp only [List.mem_cons, exists_eq_or_imp]

end

/-! ### Positivity -/

theorem freeAll_mem {name : String} : ∀ {ts : List Ty}, TyFreeAll name ts ↔ ∀ t ∈ ts, TyFree name t
  | [] => ⟨fun _ _ h => (by cases h), fun _ => trivial⟩
  | t :: ts => by
    rw [TyFreeAll, freeAll_mem (ts := ts), List.forall_mem_cons]

mutual

theorem contains_free {name : String} {bs : List Ty} : ∀ {t : Ty}, TyFree name t → Ty.containsInd (.data name bs) t = false
  | .data d as, h => by
    have e : Ty.same (.data d as) (.data name bs) = false := by
      rw [Bool.eq_false_iff]
      intro k
      have := (same_iff _ _).1 k
      cases this
      exact h.1 rfl
    simp only [Ty.containsInd, e, Bool.false_or, containsAny_free h.2, Bool.or_false, beq_eq_false_iff_ne]
    exact h.1
  | .fn as r, h => by
    have e : Ty.same (.fn as r) (.data name bs) = false := by
      rw [Bool.eq_false_iff]
      intro k
      cases (same_iff _ _).1 k
    simp only [Ty.containsInd, e, Bool.false_or, containsAny_free h.1, contains_free h.2, Bool.or_false]
  | .bool, _ => rfl
  | .tvar _, _ => rfl
  | .arb _, _ => rfl
  | .type0, _ => rfl
  | .constraint _, _ => rfl

theorem containsAny_free {name : String} {bs : List Ty} : ∀ {ts : List Ty}, TyFreeAll name ts →
    Ty.containsIndAny (.data name bs) ts = false
  | [], _ => rfl
  | t :: ts, h => by rw [Ty.containsIndAny, contains_free h.1, containsAny_free h.2]; rfl

end

theorem containsInd_iff {name : String} {bs : List Ty} {t : Ty} :
    Ty.containsInd (.data name bs) t = true ↔ ¬ TyFree name t := by
  rw [← Bool.not_eq_false]
  exact not_congr ⟨free_of_not_contains, contains_free⟩

theorem containsIndAny_iff {name : String} {bs : List Ty} {ts : List Ty} :
    Ty.containsIndAny (.data name bs) ts = true ↔ ∃ t ∈ ts, ¬ TyFree name t := by
  rw [← Bool.not_eq_false, show (Ty.containsIndAny (.data name bs) ts = false) ↔ TyFreeAll name ts from
    ⟨free_of_not_containsAny, containsAny_free⟩, freeAll_mem]
  constructor
  · intro h
    refine Classical.byContradiction fun k => h fun t ht => Classical.byContradiction fun k' => k ⟨t, ht, k'⟩
  · rintro ⟨t, ht, h⟩ k
    exact h (k t ht)

variable {name : String}

theorem misplaced_in {t : Ty} (h : Misplaced lookup name t) : ¬ TyFree name t := by
  induction h with
  | arg ha h => exact fun k => h (freeAll_mem.1 k.1 _ ha)
  | res _ ih => exact fun k => ih k.2
  | param hi h _ => exact fun k => h (freeAll_mem.1 k.2 _ (List.mem_of_getElem? hi))
  | inside hi _ _ ih => exact fun k => ih (freeAll_mem.1 k.2 _ (List.mem_of_getElem? hi))

theorem misplaced_fn {as : List Ty} {r : Ty} : Misplaced lookup name (.fn as r) ↔
    (∃ a ∈ as, ¬ TyFree name a) ∨ Misplaced lookup name r := by
  constructor
  · intro h
    cases h with
    | arg ha h => exact .inl ⟨_, ha, h⟩
    | res h => exact .inr h
  · rintro (⟨a, ha, h⟩ | h)
    · exact .arg ha h
    · exact .res h

/-- In the argument of a datatype, for a parameter with this entry; `known` when the datatype has variances. -/
def misArg (lookup : String → Option (List Variance)) (name : String) (known : Bool) (v : Option Variance) (a : Ty) : Prop :=
  (¬ TyFree name a ∧ (v = some .negative ∨ v = some .both)) ∨ ((known = false ∨ v.isSome) ∧ Misplaced lookup name a)

theorem misplaced_data {d : String} {as : List Ty} : Misplaced lookup name (.data d as) ↔
    ∃ (i : Nat) (a : Ty), as[i]? = some a ∧ misArg lookup name (lookup d).isSome ((lookup d).bind (·[i]?)) a := by
  have hk : (lookup d).isSome = false ↔ lookup d = none := by cases lookup d <;> simp
  constructor
  · intro h
    cases h with
    | param hi h hv => exact ⟨_, _, hi, .inl ⟨h, hv⟩⟩
    | inside hi hv h => exact ⟨_, _, hi, .inr ⟨by rw [hk]; exact hv, h⟩⟩
  · rintro ⟨i, a, hi, ⟨h, hv⟩ | ⟨hv, h⟩⟩
    · exact .param hi h hv
    · exact .inside hi (by rw [hk] at hv; exact hv) h

mutual

theorem strictlyPositive_iff (bs : List Ty) : ∀ t : Ty,
    Ty.strictlyPositive lookup (.data name bs) t = true ↔ ¬ Misplaced lookup name t
  | .data d as => by
    rw [Ty.strictlyPositive, strictlyPositiveArgs_iff bs (lookup d) as, misplaced_data]
  | .fn as r => by
    rw [Ty.strictlyPositive, Bool.and_eq_true, Bool.not_eq_true', ← Bool.not_eq_true, containsIndAny_iff,
      strictlyPositive_iff bs r, misplaced_fn, not_or]
  | .bool => ⟨fun _ h => (by cases h), fun _ => rfl⟩
  | .tvar _ => ⟨fun _ h => (by cases h), fun _ => rfl⟩
  | .arb _ => ⟨fun _ h => (by cases h), fun _ => rfl⟩
  | .type0 => ⟨fun _ h => (by cases h), fun _ => rfl⟩
  | .constraint _ => ⟨fun _ h => (by cases h), fun _ => rfl⟩

theorem strictlyPositiveArgs_iff (bs : List Ty) : ∀ (vs : Option (List Variance)) (as : List Ty),
    Ty.strictlyPositiveArgs lookup (.data name bs) vs as = true ↔
      ¬ ∃ (i : Nat) (a : Ty), as[i]? = some a ∧ misArg lookup name vs.isSome (vs.bind (·[i]?)) a
  | vs, [] => by
    have : Ty.strictlyPositiveArgs lookup (.data name bs) vs [] = true := by
      match vs with
      | none => rfl
      | some [] => rfl
      | some (_ :: _) => rfl
    rw [this]
    simp
  | none, a :: as => by
    rw [Ty.strictlyPositiveArgs, Bool.and_eq_true, strictlyPositiveArgs_iff bs none as, occ_cons, not_or]
    refine and_congr ?_ Iff.rfl
    rw [Bool.or_eq_true, Bool.not_eq_true', ← Bool.not_eq_true, containsInd_iff, strictlyPositive_iff bs a]
    simp only [misArg]
    have := fun h => misplaced_in (lookup := lookup) (name := name) (t := a) h
    constructor
    · rintro h (⟨_, h1 | h1⟩ | ⟨_, h1⟩)
      · cases h1
      · cases h1
      · exact h.elim (fun h => h (this h1)) fun h => h h1
    · exact fun h => .inr fun k => h (.inr ⟨.inl rfl, k⟩)
  | some [], a :: as => by
    rw [Ty.strictlyPositiveArgs, strictlyPositiveArgs_iff bs (some []) as, occ_cons, not_or]
    refine ⟨fun h => ⟨?_, h⟩, fun h => h.2⟩
    rintro (⟨_, h1 | h1⟩ | ⟨h1 | h1, _⟩) <;> cases h1
  | some (v :: vs), a :: as => by
    rw [Ty.strictlyPositiveArgs, Bool.and_eq_true, strictlyPositiveArgs_iff bs (some vs) as, occ_cons, not_or]
    refine and_congr ?_ Iff.rfl
    rw [Bool.or_eq_true, Bool.not_eq_true', ← Bool.not_eq_true, containsInd_iff, Bool.and_eq_true, Bool.and_eq_true,
      strictlyPositive_iff bs a]
    simp only [bne_iff_ne]
    have hm := fun h => misplaced_in (lookup := lookup) (name := name) (t := a) h
    show _ ↔ ¬ misArg lookup name true (some v) a
    simp only [misArg, Option.some.injEq, Option.isSome_some, or_true, true_and]
    constructor
    · rintro h (⟨h1, h2⟩ | h1)
      · rcases h with h | h
        · exact h h1
        · exact h2.elim (fun e => h.1.1 e) fun e => h.1.2 e
      · exact h.elim (fun h => h (hm h1)) fun h => h.2 h1
    · intro h
      by_cases hf : TyFree name a
      · exact .inl fun k => k hf
      · exact .inr ⟨⟨fun e => h (.inl ⟨hf, .inl e⟩), fun e => h (.inl ⟨hf, .inr e⟩)⟩, fun k => h (.inr k)⟩

end

/-! ### Generic forms mention no arbitrary type of the parameters -/

theorem tysArbs_append : ∀ as bs : List Ty, tysArbs (as ++ bs) = tysArbs as ++ tysArbs bs
  | [], _ => rfl
  | a :: as, bs => by simp [tysArbs, tysArbs_append as bs]

theorem arbs_functional (q : String) (as : List Ty) (r : Ty) :
    q ∈ tyArbs (Ty.functional as r) ↔ q ∈ tysArbs as ∨ q ∈ tyArbs r := by
  cases as with
  | nil => simp [Ty.functional, tysArbs]
  | cons a as =>
    cases r with
    | fn bs t =>
      show q ∈ tysArbs (a :: as ++ bs) ++ tyArbs t ↔ _
      rw [tysArbs_append]
      simp [tyArbs, or_assoc]
    | _ =>
      show q ∈ tysArbs (a :: as) ++ tyArbs _ ↔ _
      simp

mutual

theorem arbs_genericize (params : List String) (q : String) : ∀ t : Ty,
    q ∈ tyArbs (t.genericize params) ↔ q ∈ tyArbs t ∧ q ∉ params
  | .arb n => by
    rw [Ty.genericize]
    by_cases h : params.contains n = true
    · rw [if_pos h]
      have h' : n ∈ params := by simpa using h
      simp only [tyArbs, List.not_mem_nil, List.mem_singleton, false_iff, not_and]
      rintro rfl
      exact fun k => k h'
    · rw [if_neg h]
      have h' : n ∉ params := by simpa using h
      simp only [tyArbs, List.mem_singleton]
      constructor
      · rintro rfl; exact ⟨rfl, h'⟩
      · exact fun k => k.1
  | .fn as r => by
    rw [Ty.genericize, arbs_functional, arbsAll_genericize params q as, arbs_genericize params q r, tyArbs,
      List.mem_append, or_and_right]
  | .data d as => by rw [Ty.genericize, tyArbs, tyArbs, arbsAll_genericize params q as]
  | .tvar _ => by simp [Ty.genericize, tyArbs]
  | .bool => by simp [Ty.genericize, tyArbs]
  | .type0 => by simp [Ty.genericize, tyArbs]
  | .constraint _ => by simp [Ty.genericize, tyArbs]

theorem arbsAll_genericize (params : List String) (q : String) : ∀ ts : List Ty,
    q ∈ tysArbs (Ty.genericizeAll params ts) ↔ q ∈ tysArbs ts ∧ q ∉ params
  | [] => by simp [Ty.genericizeAll, tysArbs]
  | t :: ts => by
    rw [Ty.genericizeAll, tysArbs, tysArbs, List.mem_append, List.mem_append, arbs_genericize params q t,
      arbsAll_genericize params q ts, or_and_right]

end

theorem arbs_tvars : ∀ ps : List String, tysArbs (ps.map .tvar) = []
  | [] => rfl
  | p :: ps => by simp [tysArbs, tyArbs, arbs_tvars ps]

theorem arbs_addParams (t : Ty) : ∀ (ps : List String) (res : List Ty),
    tysArbs (addParams t res ps) = tysArbs res
  | [], _ => rfl
  | p :: ps, res => by
    rw [addParams]
    split
    · rw [arbs_addParams t ps, tysArbs_append]
      simp [tysArbs, tyArbs]
    · exact arbs_addParams t ps res

theorem arbs_constGeneric {params ps : List String} {ts : List Ty} {t : Ty} {q : String}
    (h : q ∈ tysArbs (constGeneric params ts t)) : q ∈ tysArbs ts ∧ q ∉ params := by
  unfold constGeneric at h
  split at h
  · rw [arbs_tvars] at h; cases h
  · split at h
    · rw [arbs_addParams] at h
      exact (arbsAll_genericize params q ts).1 h
    · exact (arbsAll_genericize params q ts).1 h

mutual

/-- The generic form mentions the arbitrary types of the value that are not parameters. -/
theorem valueArbs_genericize (params : List String) (q : String) : ∀ v : Value,
    q ∈ valueArbs (v.genericize params) → q ∈ valueArbs v ∧ q ∉ params
  | .var i t => fun h => (arbs_genericize params q t).1 h
  | .const n ps t => fun h => by
    rw [Value.genericize, valueArbs] at h
    rw [valueArbs, List.mem_append]
    rcases List.mem_append.1 h with h | h
    · exact ⟨.inl (arbs_constGeneric (ps := params) h).1, (arbs_constGeneric (ps := params) h).2⟩
    · exact ⟨.inr ((arbs_genericize params q t).1 h).1, ((arbs_genericize params q t).1 h).2⟩
  | .app f as => fun h => by
    rw [Value.genericize, valueArbs] at h
    rw [valueArbs, List.mem_append]
    rcases List.mem_append.1 h with h | h
    · exact ⟨.inl (valueArbs_genericize params q f h).1, (valueArbs_genericize params q f h).2⟩
    · exact ⟨.inr (valuesArbs_genericize params q as h).1, (valuesArbs_genericize params q as h).2⟩
  | .tapp f ns ts => fun h => by
    rw [Value.genericize, valueArbs] at h
    rw [valueArbs, List.mem_append]
    rcases List.mem_append.1 h with h | h
    · exact ⟨.inl (valueArbs_genericize params q f h).1, (valueArbs_genericize params q f h).2⟩
    · exact ⟨.inr ((arbsAll_genericize params q ts).1 h).1, ((arbsAll_genericize params q ts).1 h).2⟩
  | .lam ts b => fun h => by
    rw [Value.genericize, valueArbs] at h
    rw [valueArbs, List.mem_append]
    rcases List.mem_append.1 h with h | h
    · exact ⟨.inl ((arbsAll_genericize params q ts).1 h).1, ((arbsAll_genericize params q ts).1 h).2⟩
    · exact ⟨.inr (valueArbs_genericize params q b h).1, (valueArbs_genericize params q b h).2⟩
  | .all ts b => fun h => by
    rw [Value.genericize, valueArbs] at h
    rw [valueArbs, List.mem_append]
    rcases List.mem_append.1 h with h | h
    · exact ⟨.inl ((arbsAll_genericize params q ts).1 h).1, ((arbsAll_genericize params q ts).1 h).2⟩
    · exact ⟨.inr (valueArbs_genericize params q b h).1, (valueArbs_genericize params q b h).2⟩
  | .ex ts b => fun h => by
    rw [Value.genericize, valueArbs] at h
    rw [valueArbs, List.mem_append]
    rcases List.mem_append.1 h with h | h
    · exact ⟨.inl ((arbsAll_genericize params q ts).1 h).1, ((arbsAll_genericize params q ts).1 h).2⟩
    · exact ⟨.inr (valueArbs_genericize params q b h).1, (valueArbs_genericize params q b h).2⟩
  | .group a => fun h => valueArbs_genericize params q a h
  | .bin op a b => fun h => by
    rw [Value.genericize, valueArbs] at h
    rw [valueArbs, List.mem_append]
    rcases List.mem_append.1 h with h | h
    · exact ⟨.inl (valueArbs_genericize params q a h).1, (valueArbs_genericize params q a h).2⟩
    · exact ⟨.inr (valueArbs_genericize params q b h).1, (valueArbs_genericize params q b h).2⟩
  | .ite c a b => fun h => by
    rw [Value.genericize, valueArbs] at h
    rw [valueArbs, List.mem_append, List.mem_append]
    rcases List.mem_append.1 h with h | h
    · exact ⟨.inl (valueArbs_genericize params q c h).1, (valueArbs_genericize params q c h).2⟩
    · rcases List.mem_append.1 h with h | h
      · exact ⟨.inr (.inl (valueArbs_genericize params q a h).1), (valueArbs_genericize params q a h).2⟩
      · exact ⟨.inr (.inr (valueArbs_genericize params q b h).1), (valueArbs_genericize params q b h).2⟩
  | .match_ s cs => fun h => by
    rw [Value.genericize, valueArbs] at h
    rw [valueArbs, List.mem_append]
    rcases List.mem_append.1 h with h | h
    · exact ⟨.inl (valueArbs_genericize params q s h).1, (valueArbs_genericize params q s h).2⟩
    · exact ⟨.inr (casesArbs_genericize params q cs h).1, (casesArbs_genericize params q cs h).2⟩
  | .not a => fun h => valueArbs_genericize params q a h
  | .try_ a t => fun h => by
    rw [Value.genericize, valueArbs] at h
    rw [valueArbs, List.mem_append]
    rcases List.mem_append.1 h with h | h
    · exact ⟨.inl (valueArbs_genericize params q a h).1, (valueArbs_genericize params q a h).2⟩
    · exact ⟨.inr ((arbs_genericize params q t).1 h).1, ((arbs_genericize params q t).1 h).2⟩
  | .bool b => fun h => nomatch h

theorem valuesArbs_genericize (params : List String) (q : String) : ∀ vs : List Value,
    q ∈ valuesArbs (Value.genericizeAll params vs) → q ∈ valuesArbs vs ∧ q ∉ params
  | [] => fun h => nomatch h
  | v :: vs => fun h => by
    rw [Value.genericizeAll, valuesArbs] at h
    rw [valuesArbs, List.mem_append]
    rcases List.mem_append.1 h with h | h
    · exact ⟨.inl (valueArbs_genericize params q v h).1, (valueArbs_genericize params q v h).2⟩
    · exact ⟨.inr (valuesArbs_genericize params q vs h).1, (valuesArbs_genericize params q vs h).2⟩

theorem casesArbs_genericize (params : List String) (q : String) : ∀ cs : List Case,
    q ∈ casesArbs (Value.genericizeCases params cs) → q ∈ casesArbs cs ∧ q ∉ params
  | [] => fun h => nomatch h
  | .mk ts p r i n :: cs => fun h => by
    rw [Value.genericizeCases, casesArbs] at h
    rw [casesArbs, List.mem_append, List.mem_append, List.mem_append]
    rcases List.mem_append.1 h with h | h
    · exact ⟨.inl ((arbsAll_genericize params q ts).1 h).1, ((arbsAll_genericize params q ts).1 h).2⟩
    · rcases List.mem_append.1 h with h | h
      · exact ⟨.inr (.inl (valueArbs_genericize params q p h).1), (valueArbs_genericize params q p h).2⟩
      · rcases List.mem_append.1 h with h | h
        · exact ⟨.inr (.inr (.inl (valueArbs_genericize params q r h).1)), (valueArbs_genericize params q r h).2⟩
        · exact ⟨.inr (.inr (.inr (casesArbs_genericize params q cs h).1)), (casesArbs_genericize params q cs h).2⟩

end

/-! ### The variance of a parameter of a declaration -/

theorem foldVariance_has (p : String) (b : Bool) : ∀ (ts : List Ty) (acc : Variance),
    (ts.foldl (fun acc t => acc.merge (t.variance lookup p true)) acc).has b ↔
      acc.has b ∨ ∃ t ∈ ts, Occurs lookup p b t
  | [], acc => by simp
  | t :: ts, acc => by
    rw [List.foldl_cons, foldVariance_has p b ts, has_merge, variance_has]
    simp [sign, or_assoc]

end Elab
end Acorn
