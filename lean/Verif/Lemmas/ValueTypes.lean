/-
Types of values under the operations on values.
-/
import Verif.Model.ValueTypes
import Verif.Spec.ValueTypes
namespace Acorn
namespace Elab

open Spec

/-! ### Equality of types -/

mutual

theorem same_iff : ∀ a b : Ty, a.same b = true ↔ a = b
  | .bool, b => by cases b <;> simp [Ty.same]
  | .data n as, b => by
    cases b <;> simp [Ty.same, sameAll_iff as]
  | .fn as r, b => by
    cases b <;> simp [Ty.same, sameAll_iff as, same_iff r]
  | .tvar n, b => by cases b <;> simp [Ty.same]
  | .arb n, b => by cases b <;> simp [Ty.same]
  | .type0, b => by cases b <;> simp [Ty.same]
  | .constraint n, b => by cases b <;> simp [Ty.same]

theorem sameAll_iff : ∀ as bs : List Ty, Ty.sameAll as bs = true ↔ as = bs
  | [], bs => by cases bs <;> simp [Ty.sameAll]
  | a :: as, bs => by cases bs <;> simp [Ty.sameAll, same_iff a, sameAll_iff as]

end

theorem same_refl (a : Ty) : a.same a = true := (same_iff a a).2 rfl

theorem typeIs_iff (o : Option Ty) (t : Ty) : Value.typeIs o t = true ↔ o = some t := by
  cases o <;> simp [Value.typeIs, same_iff]

/-! ### Function types -/

theorem functional_nil (r : Ty) : Ty.functional [] r = r := rfl

theorem functional_fn {as bs : List Ty} (q : Ty) (h : as ≠ []) :
    Ty.functional as (.fn bs q) = .fn (as ++ bs) q := by
  cases as with
  | nil => exact absurd rfl h
  | cons a as => rfl

theorem functional_notFn {as : List Ty} {r : Ty} (h : as ≠ []) (hr : NotFn r) :
    Ty.functional as r = .fn as r := by
  cases as with
  | nil => exact absurd rfl h
  | cons a as => cases r <;> first | rfl | exact absurd rfl (hr _ _)

theorem functional_append : ∀ (as bs : List Ty) (r : Ty),
    Ty.functional (as ++ bs) r = Ty.functional as (Ty.functional bs r)
  | [], bs, r => rfl
  | a :: as, [], r => by rw [List.append_nil]; rfl
  | a :: as, b :: bs, r => by
    cases r <;> simp [Ty.functional]

theorem functional_isFn {as : List Ty} {r : Ty} (h : as ≠ []) :
    ∃ bs q, Ty.functional as r = .fn (as ++ bs) q := by
  cases as with
  | nil => exact absurd rfl h
  | cons a as =>
    cases r with
    | fn bs q => exact ⟨bs, q, rfl⟩
    | _ => exact ⟨[], _, by rw [List.append_nil]; rfl⟩

theorem instantiateAll_length (ps : List (String × Ty)) : ∀ ts : List Ty,
    (Ty.instantiateAll ps ts).length = ts.length
  | [] => rfl
  | _ :: ts => by simp [Ty.instantiateAll, instantiateAll_length ps ts]

theorem instantiateAll_append (ps : List (String × Ty)) : ∀ ts us : List Ty,
    Ty.instantiateAll ps (ts ++ us) = Ty.instantiateAll ps ts ++ Ty.instantiateAll ps us
  | [], _ => rfl
  | t :: ts, us => by simp [Ty.instantiateAll, instantiateAll_append ps ts us]

theorem instantiateAll_ne {ps : List (String × Ty)} {ts : List Ty} (h : ts ≠ []) :
    Ty.instantiateAll ps ts ≠ [] := by
  cases ts with
  | nil => exact absurd rfl h
  | cons t ts => simp [Ty.instantiateAll]

theorem instantiateAll_get (ps : List (String × Ty)) : ∀ (ts : List Ty) (i : Nat),
    (Ty.instantiateAll ps ts)[i]? = ts[i]?.map (Ty.instantiate ps)
  | [], i => by simp [Ty.instantiateAll]
  | t :: ts, 0 => by simp [Ty.instantiateAll]
  | t :: ts, i + 1 => by simp [Ty.instantiateAll, instantiateAll_get ps ts i]

theorem instantiate_functional (ps : List (String × Ty)) (as : List Ty) (r : Ty) :
    (Ty.functional as r).instantiate ps = Ty.functional (Ty.instantiateAll ps as) (r.instantiate ps) := by
  cases as with
  | nil => rfl
  | cons a as =>
    cases r with
    | fn bs q =>
      show Ty.functional (Ty.instantiateAll ps (a :: as ++ bs)) _ = _
      rw [instantiateAll_append, functional_append]; rfl
    | _ => rfl

theorem applied_functional {a : Ty} {as : List Ty} {r : Ty} (h : NormalTy r) :
    (Ty.functional (a :: as) r).applied = some (Ty.functional as r) := by
  cases as with
  | cons b bs => cases r <;> rfl
  | nil =>
    cases r with
    | fn bs q =>
      have := h.1
      cases bs with
      | nil => exact absurd rfl this
      | cons b bs => rfl
    | _ => rfl

theorem appliedN_functional {r : Ty} (h : NormalTy r) : ∀ as : List Ty,
    (Ty.functional as r).appliedN as.length = some r
  | [] => rfl
  | a :: as => by
    show ((Ty.functional (a :: as) r).applied).bind _ = _
    rw [applied_functional h]
    exact appliedN_functional h as

/-! ### Normal forms of types -/

theorem normalTys_append : ∀ {as bs : List Ty}, NormalTys as → NormalTys bs → NormalTys (as ++ bs)
  | [], _, _, h => h
  | _ :: _, _, h, h' => ⟨h.1, normalTys_append h.2 h'⟩

theorem normalTys_mem : ∀ {as : List Ty} {t : Ty}, NormalTys as → t ∈ as → NormalTy t
  | _ :: as, t, h, hm => by
    rcases List.mem_cons.1 hm with rfl | hm
    · exact h.1
    · exact normalTys_mem (as := as) h.2 hm

theorem normalTys_of : ∀ {as : List Ty}, (∀ t ∈ as, NormalTy t) → NormalTys as
  | [], _ => True.intro
  | _ :: as, h => ⟨h _ (List.mem_cons_self ..), normalTys_of (as := as) fun t ht => h t (List.mem_cons_of_mem _ ht)⟩

theorem normal_functional {as : List Ty} {r : Ty} (ha : NormalTys as) (hr : NormalTy r) :
    NormalTy (Ty.functional as r) := by
  cases as with
  | nil => exact hr
  | cons a as =>
    cases r with
    | fn bs q => exact ⟨by simp, normalTys_append ha hr.2.1, hr.2.2⟩
    | _ => exact ⟨by simp, ha, hr, fun _ _ e => by cases e⟩

theorem normal_lookup {ps : List (String × Ty)} (h : ∀ p ∈ ps, NormalTy p.2) {n : String} {t : Ty}
    (e : ps.lookup n = some t) : NormalTy t := by
  induction ps with
  | nil => simp at e
  | cons p ps ih =>
    obtain ⟨k, u⟩ := p
    simp only [List.lookup_cons] at e
    by_cases hk : n == k
    · simp only [hk] at e
      cases e
      exact h _ (List.mem_cons_self ..)
    · simp only [hk] at e
      exact ih (fun p hp => h p (List.mem_cons_of_mem _ hp)) e

mutual

theorem normal_instantiate {ps : List (String × Ty)} (h : ∀ p ∈ ps, NormalTy p.2) : ∀ t : Ty,
    NormalTy t → NormalTy (t.instantiate ps)
  | .bool, _ => True.intro
  | .data _ as, ht => normal_instantiateAll h as ht
  | .fn as r, ht => normal_functional (normal_instantiateAll h as ht.2.1) (normal_instantiate h r ht.2.2.1)
  | .tvar n, _ => by
    show NormalTy ((ps.lookup n).getD _)
    cases e : ps.lookup n with
    | none => exact True.intro
    | some t => exact normal_lookup h e
  | .arb n, _ => by
    show NormalTy ((ps.lookup n).getD _)
    cases e : ps.lookup n with
    | none => exact True.intro
    | some t => exact normal_lookup h e
  | .type0, _ => True.intro
  | .constraint _, _ => True.intro

theorem normal_instantiateAll {ps : List (String × Ty)} (h : ∀ p ∈ ps, NormalTy p.2) : ∀ ts : List Ty,
    NormalTys ts → NormalTys (Ty.instantiateAll ps ts)
  | [], _ => True.intro
  | t :: ts, ht => ⟨normal_instantiate h t ht.1, normal_instantiateAll h ts ht.2⟩

end

theorem normal_applied {t u : Ty} (h : NormalTy t) (e : t.applied = some u) : NormalTy u := by
  cases t with
  | fn as r =>
    cases as with
    | nil => simp [Ty.applied] at e
    | cons a as =>
      simp only [Ty.applied, Option.some.injEq] at e
      cases as with
      | nil => simp only [List.isEmpty_nil, if_true] at e; exact e ▸ h.2.2.1
      | cons b bs =>
        have e' : Ty.fn (b :: bs) r = u := e
        exact e' ▸ ⟨by simp, h.2.1.2, h.2.2⟩
  | _ => simp [Ty.applied] at e

theorem normal_appliedN : ∀ {n : Nat} {t u : Ty}, NormalTy t → t.appliedN n = some u → NormalTy u
  | 0, t, u, h, e => by cases e; exact h
  | n + 1, t, u, h, e => by
    obtain ⟨w, hw, e'⟩ := Option.bind_eq_some_iff.1 (show (t.applied).bind _ = _ from e)
    exact normal_appliedN (normal_applied h hw) e'

theorem applied_instantiate {ps : List (String × Ty)} (hp : ∀ p ∈ ps, NormalTy p.2) {t u : Ty}
    (h : NormalTy t) (e : t.applied = some u) : (t.instantiate ps).applied = some (u.instantiate ps) := by
  cases t with
  | fn as r =>
    cases as with
    | nil => simp [Ty.applied] at e
    | cons a as =>
      have := applied_functional (a := a.instantiate ps) (as := Ty.instantiateAll ps as)
        (normal_instantiate hp r h.2.2.1)
      show (Ty.functional (a.instantiate ps :: Ty.instantiateAll ps as) (r.instantiate ps)).applied = _
      rw [this]
      cases as with
      | nil => cases e; rfl
      | cons b bs =>
        have e' : Ty.fn (b :: bs) r = u := Option.some.inj e
        rw [← e']; rfl
  | _ => simp [Ty.applied] at e

theorem appliedN_instantiate {ps : List (String × Ty)} (hp : ∀ p ∈ ps, NormalTy p.2) :
    ∀ {n : Nat} {t u : Ty}, NormalTy t → t.appliedN n = some u →
      (t.instantiate ps).appliedN n = some (u.instantiate ps)
  | 0, t, u, _, e => by cases e; rfl
  | n + 1, t, u, h, e => by
    obtain ⟨w, hw, e'⟩ := Option.bind_eq_some_iff.1 (show (t.applied).bind _ = _ from e)
    show ((t.instantiate ps).applied).bind _ = _
    rw [applied_instantiate hp h hw]
    exact appliedN_instantiate hp (normal_applied h hw) e'

/-! ### Adding levels to the stack -/

theorem insertStackAll_length (i k : Nat) : ∀ vs : List Value, (Value.insertStackAll i k vs).length = vs.length
  | [] => rfl
  | _ :: vs => by simp [Value.insertStackAll, insertStackAll_length i k vs]

theorem getType_insertStack (i k : Nat) : ∀ v : Value, (v.insertStack i k).getType = v.getType
  | .var j t => by
    simp only [Value.insertStack]
    split <;> rfl
  | .const _ _ _ => rfl
  | .app f as => by
    simp only [Value.insertStack, Value.getType, getType_insertStack i k f, insertStackAll_length]
  | .tapp f ns ts => by simp only [Value.insertStack, Value.getType, getType_insertStack i k f]
  | .lam ts b => by simp only [Value.insertStack, Value.getType, getType_insertStack i k b]
  | .bin _ _ _ => rfl
  | .not _ => rfl
  | .try_ _ _ => rfl
  | .all _ _ => rfl
  | .ex _ _ => rfl
  | .group a => by simp only [Value.insertStack, Value.getType, getType_insertStack i k a]
  | .bool _ => rfl
  | .ite _ a _ => by simp only [Value.insertStack, Value.getType, getType_insertStack i k a]
  | .match_ _ [] => rfl
  | .match_ _ (.mk _ _ r _ _ :: _) => by
    simp only [Value.insertStack, Value.insertStackCases, Value.getType, Value.getTypeCases,
      getType_insertStack i k r]

theorem isType_insertStack (i k : Nat) : ∀ (v : Value) (t : Ty), (v.insertStack i k).isType t = v.isType t
  | .var j u, t => by
    simp only [Value.insertStack]
    split <;> rfl
  | .const _ _ _, _ => rfl
  | .app f as, t => by
    have := getType_insertStack i k (.app f as)
    simp only [Value.insertStack] at this
    simp only [Value.insertStack, Value.isType, this]
  | .tapp f ns ts, t => by
    have := getType_insertStack i k (.tapp f ns ts)
    simp only [Value.insertStack] at this
    simp only [Value.insertStack, Value.isType, this]
  | .lam ts b, t => by
    simp only [Value.insertStack, Value.isType]
    cases t <;> simp only [isType_insertStack i k b]
  | .bin _ _ _, _ => rfl
  | .not _, _ => rfl
  | .try_ _ _, _ => rfl
  | .all _ _, _ => rfl
  | .ex _ _, _ => rfl
  | .group a, t => by simp only [Value.insertStack, Value.isType, isType_insertStack i k a]
  | .bool _, _ => rfl
  | .ite _ a _, t => by simp only [Value.insertStack, Value.isType, isType_insertStack i k a]
  | .match_ _ [], _ => rfl
  | .match_ _ (.mk _ _ r _ _ :: _), t => by
    simp only [Value.insertStack, Value.insertStackCases, Value.isType, Value.isTypeCases,
      isType_insertStack i k r]

theorem argsOk_congr : ∀ {t : Ty} {as bs : List Value}, as.length = bs.length →
    (∀ (i : Nat) (u : Ty), (as[i]?.map fun v => v.isType u) = (bs[i]?.map fun v => v.isType u)) →
    Value.argsOk t as = Value.argsOk t bs
  | t, [], [], _, _ => by cases t <;> rfl
  | t, a :: as, b :: bs, hl, h => by
    have h0 := fun u => h 0 u
    simp only [List.getElem?_cons_zero, Option.map_some, Option.some.injEq] at h0
    have ht := fun i u => h (i + 1) u
    simp only [List.getElem?_cons_succ] at ht
    have hl' : as.length = bs.length := by simpa using hl
    cases t with
    | fn us r =>
      cases us with
      | nil => rfl
      | cons u us =>
        simp only [Value.argsOk, h0, argsOk_congr hl' ht]
    | _ => rfl

theorem insertStackAll_get (i k : Nat) : ∀ (vs : List Value) (j : Nat),
    (Value.insertStackAll i k vs)[j]? = vs[j]?.map (·.insertStack i k)
  | [], j => by simp [Value.insertStackAll]
  | v :: vs, 0 => by simp [Value.insertStackAll]
  | v :: vs, j + 1 => by simp [Value.insertStackAll, insertStackAll_get i k vs j]

theorem argsOk_insertStack (i k : Nat) (t : Ty) (as : List Value) :
    Value.argsOk t (Value.insertStackAll i k as) = Value.argsOk t as := by
  apply argsOk_congr (insertStackAll_length i k as)
  intro j u
  rw [insertStackAll_get, Option.map_map]
  congr 1
  funext v
  exact isType_insertStack i k v u

mutual

theorem validate_insertStack (A Δ : List Ty) : ∀ (v : Value) (B : List Ty),
    (v.insertStack A.length Δ.length).validate (A ++ Δ ++ B) = v.validate (A ++ B)
  | .var i t, B => by
    simp only [Value.insertStack]
    split
    · rename_i h
      simp only [Value.validate]
      rw [List.append_assoc, List.getElem?_append_left h, List.getElem?_append_left h]
    · rename_i h
      simp only [Value.validate]
      rw [List.getElem?_append_right (by simp; omega), List.getElem?_append_right (by omega)]
      congr 2
      simp
      omega
  | .const _ _ _, _ => rfl
  | .app f as, B => by
    simp only [Value.insertStack, Value.validate, getType_insertStack, validate_insertStack A Δ f B,
      validate_insertStackAll A Δ as B, argsOk_insertStack]
  | .tapp f ns ts, B => by simp only [Value.insertStack, Value.validate, validate_insertStack A Δ f B]
  | .lam ts b, B => by
    have := validate_insertStack A Δ b (B ++ ts)
    simp only [Value.insertStack, Value.validate, List.append_assoc] at this ⊢
    exact this
  | .all ts b, B => by
    have := validate_insertStack A Δ b (B ++ ts)
    simp only [Value.insertStack, Value.validate, List.append_assoc] at this ⊢
    exact this
  | .ex ts b, B => by
    have := validate_insertStack A Δ b (B ++ ts)
    simp only [Value.insertStack, Value.validate, List.append_assoc] at this ⊢
    exact this
  | .bin _ a b, B => by
    simp only [Value.insertStack, Value.validate, validate_insertStack A Δ a B, validate_insertStack A Δ b B]
  | .not a, B => by simp only [Value.insertStack, Value.validate, validate_insertStack A Δ a B]
  | .try_ a _, B => by simp only [Value.insertStack, Value.validate, validate_insertStack A Δ a B]
  | .group a, B => by simp only [Value.insertStack, Value.validate, validate_insertStack A Δ a B]
  | .bool _, _ => rfl
  | .ite c a b, B => by
    simp only [Value.insertStack, Value.validate, validate_insertStack A Δ a B, validate_insertStack A Δ b B,
      validate_insertStack A Δ c B]
  | .match_ s cs, B => by
    simp only [Value.insertStack, Value.validate, validate_insertStack A Δ s B,
      validate_insertStackCases A Δ cs B]

theorem validate_insertStackAll (A Δ : List Ty) : ∀ (vs : List Value) (B : List Ty),
    Value.validateAll (A ++ Δ ++ B) (Value.insertStackAll A.length Δ.length vs) = Value.validateAll (A ++ B) vs
  | [], _ => rfl
  | v :: vs, B => by
    simp only [Value.insertStackAll, Value.validateAll, validate_insertStack A Δ v B,
      validate_insertStackAll A Δ vs B]

theorem validate_insertStackCases (A Δ : List Ty) : ∀ (cs : List Case) (B : List Ty),
    Value.validateCases (A ++ Δ ++ B) (Value.insertStackCases A.length Δ.length cs) =
      Value.validateCases (A ++ B) cs
  | [], _ => rfl
  | .mk ts p r _ _ :: cs, B => by
    have hp := validate_insertStack A Δ p (B ++ ts)
    have hr := validate_insertStack A Δ r (B ++ ts)
    have hc := validate_insertStackCases A Δ cs B
    simp only [Value.insertStackCases, Value.validateCases, List.append_assoc] at hp hr hc ⊢
    rw [hp, hr, hc]

end

/-! ### A type that is answered is the type -/

theorem getType_of_isType : ∀ (v : Value) (t : Ty), NormalTy t → v.isType t = true → v.getType = some t
  | .var _ u, t, _, h => by rw [(same_iff u t).1 h]; rfl
  | .const _ _ u, t, _, h => by
    have : u = t := (same_iff u t).1 h
    rw [this]; rfl
  | .app f as, t, _, h => (typeIs_iff _ _).1 h
  | .tapp f ns ts, t, _, h => (typeIs_iff _ _).1 h
  | .lam ts b, t, ht, h => by
    cases t with
    | fn us r =>
      simp only [Value.isType, Bool.and_eq_true, sameAll_iff] at h
      obtain ⟨rfl, hb⟩ := h
      simp only [Value.getType, getType_of_isType b r ht.2.2.1 hb, Option.map_some]
      rw [functional_notFn ht.1 ht.2.2.2]
    | _ => simp [Value.isType] at h
  | .bin _ _ _, t, _, h => by rw [(same_iff t .bool).1 h]; rfl
  | .not _, t, _, h => by rw [(same_iff t .bool).1 h]; rfl
  | .try_ _ u, t, _, h => by
    have : u = t := (same_iff u t).1 h
    rw [this]; rfl
  | .all _ _, t, _, h => by rw [(same_iff t .bool).1 h]; rfl
  | .ex _ _, t, _, h => by rw [(same_iff t .bool).1 h]; rfl
  | .group a, t, ht, h => getType_of_isType a t ht h
  | .bool _, t, _, h => by rw [(same_iff t .bool).1 h]; rfl
  | .ite _ a _, t, ht, h => getType_of_isType a t ht h
  | .match_ _ [], t, _, h => by simp [Value.isType, Value.isTypeCases] at h
  | .match_ _ (.mk _ _ r _ _ :: _), t, ht, h => getType_of_isType r t ht h

/-! ### Values for variables -/

section bind
variable {A us : List Ty} {vals : List Value}

theorem bindValuesAll_length (i k : Nat) (vals : List Value) : ∀ vs : List Value,
    (Value.bindValuesAll i k vals vs).length = vs.length
  | [] => rfl
  | _ :: vs => by simp [Value.bindValuesAll, bindValuesAll_length i k vals vs]

theorem bindValuesAll_get (i k : Nat) (vals : List Value) : ∀ (vs : List Value) (j : Nat),
    (Value.bindValuesAll i k vals vs)[j]? = vs[j]?.map (·.bindValues i k vals)
  | [], j => by simp [Value.bindValuesAll]
  | v :: vs, 0 => by simp [Value.bindValuesAll]
  | v :: vs, j + 1 => by simp [Value.bindValuesAll, bindValuesAll_get i k vals vs j]

/-- The values have the types of the levels they stand for. -/
structure Supplies (A us : List Ty) (vals : List Value) : Prop where
  length : vals.length = us.length
  normal : NormalTys us
  isType : ∀ (i : Nat) (h : i < vals.length) (h' : i < us.length), vals[i].isType us[i] = true
  valid : ∀ v ∈ vals, v.validate A = true

/-- The types that a value answers are unchanged. -/
def SameTypes (v w : Value) : Prop :=
  w.getType = v.getType ∧ ∀ t, NormalTy t → v.isType t = true → w.isType t = true

theorem argsOk_mono : ∀ {t : Ty} {as bs : List Value}, NormalTy t → as.length = bs.length →
    (∀ (i : Nat) (h : i < as.length) (h' : i < bs.length), SameTypes as[i] bs[i]) →
    Value.argsOk t as = true → Value.argsOk t bs = true
  | t, [], [], _, _, _, _ => by cases t <;> rfl
  | t, a :: as, b :: bs, ht, hl, h, e => by
    have hl' : as.length = bs.length := by simpa using hl
    cases t with
    | fn us r =>
      cases us with
      | nil => simp [Value.argsOk] at e
      | cons u us =>
        simp only [Value.argsOk, Bool.and_eq_true] at e ⊢
        refine ⟨(h 0 (by simp) (by simp)).2 u ht.2.1.1 e.1, ?_⟩
        refine argsOk_mono (normal_applied ht rfl) hl' (fun i hi hi' => ?_) e.2
        exact h (i + 1) (by simpa using hi) (by simpa using hi')
    | _ => simp [Value.argsOk] at e

mutual

theorem normal_getType : ∀ (v : Value) (t : Ty), NormalIn v → v.getType = some t → NormalTy t
  | .var _ u, t, h, e => by cases e; exact h
  | .const _ _ u, t, h, e => by cases e; exact h.2
  | .app f as, t, h, e => by
    obtain ⟨w, hw, e'⟩ := Option.bind_eq_some_iff.1 (show f.getType.bind _ = _ from e)
    exact normal_appliedN (normal_getType f w h.1 hw) e'
  | .tapp f ns ts, t, h, e => by
    obtain ⟨w, hw, rfl⟩ := Option.map_eq_some_iff.1 (show f.getType.map _ = _ from e)
    refine normal_instantiate (fun p hp => ?_) w (normal_getType f w h.1 hw)
    exact normalTys_mem h.2 (List.of_mem_zip (show (p.1, p.2) ∈ _ from hp)).2
  | .lam ts b, t, h, e => by
    obtain ⟨w, hw, rfl⟩ := Option.map_eq_some_iff.1 (show b.getType.map _ = _ from e)
    exact normal_functional h.2.1 (normal_getType b w h.2.2 hw)
  | .bin _ _ _, t, _, e => by cases e; exact True.intro
  | .not _, t, _, e => by cases e; exact True.intro
  | .try_ _ u, t, h, e => by cases e; exact h.2
  | .all _ _, t, _, e => by cases e; exact True.intro
  | .ex _ _, t, _, e => by cases e; exact True.intro
  | .group a, t, h, e => normal_getType a t h e
  | .bool _, t, _, e => by cases e; exact True.intro
  | .ite _ a _, t, h, e => normal_getType a t h.2.1 e
  | .match_ _ cs, t, h, e => normal_getTypeCases cs t h.2 e

theorem normal_getTypeCases : ∀ (cs : List Case) (t : Ty), NormalInCases cs →
    Value.getTypeCases cs = some t → NormalTy t
  | [], _, _, e => by simp [Value.getTypeCases] at e
  | .mk _ _ r _ _ :: _, t, h, e => normal_getType r t h.2.2.1 e

end

mutual

theorem validate_bindValues (hs : Supplies A us vals) : ∀ (v : Value) (B : List Ty), NormalIn v →
    v.validate (A ++ us ++ B) = true →
    SameTypes v (v.bindValues A.length (A.length + B.length) vals) ∧
      (v.bindValues A.length (A.length + B.length) vals).validate (A ++ B) = true
  | .var i t, B, hn, h => by
    have h0 := (typeIs_iff _ _).1 h
    simp only [Value.bindValues]
    split
    · rename_i hi
      refine ⟨⟨rfl, fun _ _ e => e⟩, ?_⟩
      simp only [Value.validate]
      rw [List.append_assoc, List.getElem?_append_left hi] at h0
      rw [List.getElem?_append_left hi]
      exact (typeIs_iff _ _).2 h0
    · rename_i hi
      split
      · rename_i hv
        have hu : i - A.length < us.length := hs.length ▸ hv
        rw [List.append_assoc, List.getElem?_append_right (by omega), List.getElem?_append_left hu,
          List.getElem?_eq_getElem hu] at h0
        have h1 := hs.isType _ hv hu
        rw [Option.some.inj h0] at h1
        have h2 := getType_of_isType _ t hn h1
        refine ⟨⟨?_, fun u hu' e => ?_⟩, ?_⟩
        · rw [getType_insertStack, h2]; rfl
        · rw [isType_insertStack]
          have : t = u := (same_iff t u).1 e
          exact this ▸ h1
        · have h3 := hs.valid _ (List.getElem_mem hv)
          have h4 := validate_insertStack A B vals[i - A.length] []
          simp only [List.append_nil] at h4
          rw [show A.length + B.length - A.length = B.length by omega, h4, h3]
      · rename_i hv
        refine ⟨⟨rfl, fun _ _ e => e⟩, ?_⟩
        simp only [Value.validate]
        have hle := hs.length
        rw [List.getElem?_append_right (by simp; omega)] at h0
        rw [List.getElem?_append_right (by omega)]
        refine (typeIs_iff _ _).2 (h0 ▸ ?_)
        congr 1
        simp
        omega
  | .const _ _ _, _, _, _ => ⟨⟨rfl, fun _ _ e => e⟩, rfl⟩
  | .app f as, B, hn, h => by
    simp only [Value.validate, Bool.and_eq_true] at h
    obtain ⟨⟨h1, h2⟩, h3⟩ := h
    obtain ⟨hf, hf'⟩ := validate_bindValues hs f B hn.1 h2
    obtain ⟨ha, ha'⟩ := validate_bindValuesAll hs as B hn.2 h3
    have hg : (Value.app (f.bindValues A.length (A.length + B.length) vals)
        (Value.bindValuesAll A.length (A.length + B.length) vals as)).getType = (Value.app f as).getType := by
      simp only [Value.getType, hf.1, bindValuesAll_length]
    refine ⟨⟨hg, fun t _ e => ?_⟩, ?_⟩
    · simp only [Value.bindValues, Value.isType, hg] at e ⊢
      exact e
    · simp only [Value.bindValues, Value.validate, Bool.and_eq_true, hf.1]
      refine ⟨⟨?_, hf'⟩, ha'⟩
      cases ht : f.getType with
      | none => rw [ht] at h1; exact h1
      | some t =>
        rw [ht] at h1
        exact argsOk_mono (normal_getType f t hn.1 ht) (bindValuesAll_length ..).symm ha h1
  | .tapp f ns ts, B, hn, h => by
    simp only [Value.validate, Bool.and_eq_true] at h
    obtain ⟨hf, hf'⟩ := validate_bindValues hs f B hn.1 h.2
    have hg : (Value.tapp (f.bindValues A.length (A.length + B.length) vals) ns ts).getType =
        (Value.tapp f ns ts).getType := by
      simp only [Value.getType, hf.1]
    refine ⟨⟨hg, fun t _ e => ?_⟩, ?_⟩
    · simp only [Value.bindValues, Value.isType, hg] at e ⊢
      exact e
    · simp only [Value.bindValues, Value.validate, Bool.and_eq_true]
      exact ⟨h.1, hf'⟩
  | .lam ts b, B, hn, h => by
    simp only [Value.validate] at h
    rw [List.append_assoc] at h
    obtain ⟨hb, hb'⟩ := validate_bindValues hs b (B ++ ts) hn.2.2 h
    rw [List.length_append, ← Nat.add_assoc] at hb hb'
    refine ⟨⟨?_, fun t ht e => ?_⟩, ?_⟩
    · simp only [Value.bindValues, Value.getType, hb.1]
    · cases t with
      | fn us r =>
        simp only [Value.bindValues, Value.isType, Bool.and_eq_true] at e ⊢
        exact ⟨e.1, hb.2 r ht.2.2.1 e.2⟩
      | _ => simp [Value.isType] at e
    · simp only [Value.bindValues, Value.validate, List.append_assoc]
      exact hb'
  | .all ts b, B, hn, h => by
    simp only [Value.validate] at h
    rw [List.append_assoc] at h
    obtain ⟨hb, hb'⟩ := validate_bindValues hs b (B ++ ts) hn.2 h
    rw [List.length_append, ← Nat.add_assoc] at hb hb'
    refine ⟨⟨rfl, fun _ _ e => e⟩, ?_⟩
    simp only [Value.bindValues, Value.validate, List.append_assoc]
    exact hb'
  | .ex ts b, B, hn, h => by
    simp only [Value.validate] at h
    rw [List.append_assoc] at h
    obtain ⟨hb, hb'⟩ := validate_bindValues hs b (B ++ ts) hn.2 h
    rw [List.length_append, ← Nat.add_assoc] at hb hb'
    refine ⟨⟨rfl, fun _ _ e => e⟩, ?_⟩
    simp only [Value.bindValues, Value.validate, List.append_assoc]
    exact hb'
  | .bin _ a b, B, hn, h => by
    simp only [Value.validate, Bool.and_eq_true] at h
    refine ⟨⟨rfl, fun _ _ e => e⟩, ?_⟩
    simp only [Value.bindValues, Value.validate, Bool.and_eq_true]
    exact ⟨(validate_bindValues hs a B hn.1 h.1).2, (validate_bindValues hs b B hn.2 h.2).2⟩
  | .not a, B, hn, h => ⟨⟨rfl, fun _ _ e => e⟩, (validate_bindValues hs a B hn h).2⟩
  | .try_ a _, B, hn, h => ⟨⟨rfl, fun _ _ e => e⟩, (validate_bindValues hs a B hn.1 h).2⟩
  | .group a, B, hn, h => validate_bindValues hs a B hn h
  | .bool _, _, _, _ => ⟨⟨rfl, fun _ _ e => e⟩, rfl⟩
  | .ite c a b, B, hn, h => by
    simp only [Value.validate, Bool.and_eq_true] at h
    obtain ⟨ha, ha'⟩ := validate_bindValues hs a B hn.2.1 h.1.2
    refine ⟨⟨ha.1, ha.2⟩, ?_⟩
    simp only [Value.bindValues, Value.validate, Bool.and_eq_true]
    exact ⟨⟨(validate_bindValues hs c B hn.1 h.1.1).2, ha'⟩, (validate_bindValues hs b B hn.2.2 h.2).2⟩
  | .match_ s cs, B, hn, h => by
    simp only [Value.validate, Bool.and_eq_true] at h
    obtain ⟨hc, hc', hc''⟩ := validate_bindValuesCases hs cs B hn.2 h.2
    refine ⟨⟨hc, hc'⟩, ?_⟩
    simp only [Value.bindValues, Value.validate, Bool.and_eq_true]
    exact ⟨(validate_bindValues hs s B hn.1 h.1).2, hc''⟩

theorem validate_bindValuesAll (hs : Supplies A us vals) : ∀ (vs : List Value) (B : List Ty), NormalInAll vs →
    Value.validateAll (A ++ us ++ B) vs = true →
    (∀ (i : Nat) (h : i < vs.length)
      (h' : i < (Value.bindValuesAll A.length (A.length + B.length) vals vs).length),
      SameTypes vs[i] (Value.bindValuesAll A.length (A.length + B.length) vals vs)[i]) ∧
      Value.validateAll (A ++ B) (Value.bindValuesAll A.length (A.length + B.length) vals vs) = true
  | [], _, _, _ => ⟨fun i h => absurd h (by simp), rfl⟩
  | v :: vs, B, hn, h => by
    simp only [Value.validateAll, Bool.and_eq_true] at h
    obtain ⟨hv, hv'⟩ := validate_bindValues hs v B hn.1 h.1
    obtain ⟨hw, hw'⟩ := validate_bindValuesAll hs vs B hn.2 h.2
    refine ⟨fun i hi hi' => ?_, ?_⟩
    · cases i with
      | zero => exact hv
      | succ i => exact hw i (by simpa using hi) (by simpa [Value.bindValuesAll] using hi')
    · simp only [Value.bindValuesAll, Value.validateAll, Bool.and_eq_true]
      exact ⟨hv', hw'⟩

theorem validate_bindValuesCases (hs : Supplies A us vals) : ∀ (cs : List Case) (B : List Ty),
    NormalInCases cs → Value.validateCases (A ++ us ++ B) cs = true →
    Value.getTypeCases (Value.bindValuesCases A.length (A.length + B.length) vals cs) =
        Value.getTypeCases cs ∧
      (∀ t, NormalTy t → Value.isTypeCases cs t = true →
        Value.isTypeCases (Value.bindValuesCases A.length (A.length + B.length) vals cs) t = true) ∧
      Value.validateCases (A ++ B) (Value.bindValuesCases A.length (A.length + B.length) vals cs) = true
  | [], _, _, _ => ⟨rfl, fun _ _ e => e, rfl⟩
  | .mk ts p r _ _ :: cs, B, hn, h => by
    simp only [Value.validateCases, Bool.and_eq_true] at h
    have hp0 := h.1.1
    have hr0 := h.1.2
    rw [List.append_assoc] at hp0 hr0
    obtain ⟨_, hp'⟩ := validate_bindValues hs p (B ++ ts) hn.2.1 hp0
    obtain ⟨hr, hr'⟩ := validate_bindValues hs r (B ++ ts) hn.2.2.1 hr0
    rw [List.length_append, ← Nat.add_assoc] at hp' hr hr'
    obtain ⟨_, _, hc⟩ := validate_bindValuesCases hs cs B hn.2.2.2 h.2
    refine ⟨hr.1, hr.2, ?_⟩
    simp only [Value.bindValuesCases, Value.validateCases, Bool.and_eq_true, List.append_assoc]
    exact ⟨⟨hp', hr'⟩, hc⟩

end

end bind

/-! ### Fixed type parameters -/

theorem hasGenericAny_append : ∀ as bs : List Ty,
    Ty.hasGenericAny (as ++ bs) = (Ty.hasGenericAny as || Ty.hasGenericAny bs)
  | [], _ => rfl
  | a :: as, bs => by simp [Ty.hasGenericAny, hasGenericAny_append as bs, Bool.or_assoc]

theorem hasGeneric_functional (as : List Ty) (r : Ty) :
    (Ty.functional as r).hasGeneric = (Ty.hasGenericAny as || r.hasGeneric) := by
  cases as with
  | nil => simp [Ty.functional, Ty.hasGenericAny]
  | cons a as =>
    cases r with
    | fn bs q =>
      show (Ty.hasGenericAny (a :: as ++ bs) || q.hasGeneric) = _
      rw [hasGenericAny_append, Bool.or_assoc]; rfl
    | _ => rfl

mutual

theorem toArbitrary_ty_generic : ∀ t : Ty, t.toArbitrary.hasGeneric = false
  | .bool => rfl
  | .data _ as => toArbitraryAll_ty_generic as
  | .fn as r => by
    show (Ty.functional _ _).hasGeneric = false
    rw [hasGeneric_functional, toArbitraryAll_ty_generic as, toArbitrary_ty_generic r]; rfl
  | .tvar _ => rfl
  | .arb _ => rfl
  | .type0 => rfl
  | .constraint _ => rfl

theorem toArbitraryAll_ty_generic : ∀ ts : List Ty, Ty.hasGenericAny (Ty.toArbitraryAll ts) = false
  | [] => rfl
  | t :: ts => by
    simp only [Ty.toArbitraryAll, Ty.hasGenericAny, toArbitrary_ty_generic t, toArbitraryAll_ty_generic ts]; rfl

end

mutual

theorem toArbitrary_generic : ∀ v : Value, v.toArbitrary.hasGeneric = false
  | .var _ t => toArbitrary_ty_generic t
  | .const _ ps t => by
    simp only [Value.toArbitrary, Value.hasGeneric, toArbitrary_ty_generic, toArbitraryAll_ty_generic]; rfl
  | .app f as => by
    simp only [Value.toArbitrary, Value.hasGeneric, toArbitrary_generic f, toArbitrary_genericAll as]; rfl
  | .tapp f _ ts => by
    simp only [Value.toArbitrary, Value.hasGeneric, toArbitrary_generic f, toArbitraryAll_ty_generic]; rfl
  | .lam ts b => by
    simp only [Value.toArbitrary, Value.hasGeneric, toArbitrary_generic b, toArbitraryAll_ty_generic]; rfl
  | .bin _ a b => by
    simp only [Value.toArbitrary, Value.hasGeneric, toArbitrary_generic a, toArbitrary_generic b]; rfl
  | .not a => toArbitrary_generic a
  | .try_ a t => by
    simp only [Value.toArbitrary, Value.hasGeneric, toArbitrary_generic a, toArbitrary_ty_generic]; rfl
  | .all ts b => by
    simp only [Value.toArbitrary, Value.hasGeneric, toArbitrary_generic b, toArbitraryAll_ty_generic]; rfl
  | .ex ts b => by
    simp only [Value.toArbitrary, Value.hasGeneric, toArbitrary_generic b, toArbitraryAll_ty_generic]; rfl
  | .group a => toArbitrary_generic a
  | .bool _ => rfl
  | .ite c a b => by
    simp only [Value.toArbitrary, Value.hasGeneric, toArbitrary_generic a, toArbitrary_generic b,
      toArbitrary_generic c]; rfl
  | .match_ s cs => by
    simp only [Value.toArbitrary, Value.hasGeneric, toArbitrary_generic s, toArbitrary_genericCases cs]; rfl

theorem toArbitrary_genericAll : ∀ vs : List Value, Value.hasGenericAny (Value.toArbitraryAll vs) = false
  | [] => rfl
  | v :: vs => by
    simp only [Value.toArbitraryAll, Value.hasGenericAny, toArbitrary_generic v, toArbitrary_genericAll vs]; rfl

theorem toArbitrary_genericCases : ∀ cs : List Case, Value.hasGenericCases (Value.toArbitraryCases cs) = false
  | [] => rfl
  | .mk _ p r _ _ :: cs => by
    simp only [Value.toArbitraryCases, Value.hasGenericCases, toArbitrary_generic p, toArbitrary_generic r,
      toArbitrary_genericCases cs]; rfl

end

/-! ### Valid values have a type -/

mutual

theorem getType_of_valid : ∀ (v : Value) (Γ : List Ty), CasesGiven v → v.validate Γ = true →
    ∃ t, v.getType = some t
  | .var _ t, _, _, _ => ⟨t, rfl⟩
  | .const _ _ t, _, _, _ => ⟨t, rfl⟩
  | .app f as, Γ, _, h => by
    simp only [Value.validate, Bool.and_eq_true] at h
    cases hf : f.getType with
    | none => rw [hf] at h; exact absurd h.1.1 (by simp)
    | some t =>
      rw [hf] at h
      have key : ∀ (as : List Value) (t : Ty), Value.argsOk t as = true → ∃ u, t.appliedN as.length = some u := by
        intro as
        induction as with
        | nil => exact fun t _ => ⟨t, rfl⟩
        | cons a as ih =>
          intro t e
          cases t with
          | fn us r =>
            cases us with
            | nil => simp [Value.argsOk] at e
            | cons u us =>
              simp only [Value.argsOk, Bool.and_eq_true] at e
              exact ih _ e.2
          | _ => simp [Value.argsOk] at e
      obtain ⟨u, hu⟩ := key as t h.1.1
      refine ⟨u, ?_⟩
      show f.getType.bind _ = _
      rw [hf]; exact hu
  | .tapp f ns ts, Γ, hc, h => by
    simp only [Value.validate, Bool.and_eq_true] at h
    obtain ⟨t, ht⟩ := getType_of_valid f Γ hc h.2
    exact ⟨_, show f.getType.map _ = some _ by rw [ht]; rfl⟩
  | .lam ts b, Γ, hc, h => by
    obtain ⟨t, ht⟩ := getType_of_valid b (Γ ++ ts) hc h
    exact ⟨_, show b.getType.map _ = some _ by rw [ht]; rfl⟩
  | .bin _ _ _, _, _, _ => ⟨_, rfl⟩
  | .not _, _, _, _ => ⟨_, rfl⟩
  | .try_ _ t, _, _, _ => ⟨t, rfl⟩
  | .all _ _, _, _, _ => ⟨_, rfl⟩
  | .ex _ _, _, _, _ => ⟨_, rfl⟩
  | .group a, Γ, hc, h => getType_of_valid a Γ hc h
  | .bool _, _, _, _ => ⟨_, rfl⟩
  | .ite _ a _, Γ, hc, h => by
    simp only [Value.validate, Bool.and_eq_true] at h
    exact getType_of_valid a Γ hc.2.1 h.1.2
  | .match_ _ cs, Γ, hc, h => by
    simp only [Value.validate, Bool.and_eq_true] at h
    exact getType_of_validCases cs Γ hc.2.1 hc.2.2 h.2

theorem getType_of_validCases : ∀ (cs : List Case) (Γ : List Ty), cs ≠ [] → CasesGivenCases cs →
    Value.validateCases Γ cs = true → ∃ t, Value.getTypeCases cs = some t
  | [], _, h, _, _ => absurd rfl h
  | .mk ts _ r _ _ :: _, Γ, _, hc, h => by
    simp only [Value.validateCases, Bool.and_eq_true] at h
    exact getType_of_valid r (Γ ++ ts) hc.2.1 h.1.2

end

end Elab
end Acorn
