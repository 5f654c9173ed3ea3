/-
Types of values when type parameters are replaced.
-/
import Verif.Lemmas.ValueTypes
import Verif.Lemmas.ValueSubst
namespace Acorn
namespace Elab

open Spec

/-- Names that are bound by an explicit type application do not meet the parameters. -/
def ApartFrom (ps : List (String × Ty)) (ns : List String) : Prop :=
  ∀ n ∈ ns, n ∉ ps.map (·.1) ∧ n ∉ tysNames (ps.map (·.2))

theorem ApartFrom.left {ps : List (String × Ty)} {as bs : List String} (h : ApartFrom ps (as ++ bs)) :
    ApartFrom ps as := fun n hn => h n (List.mem_append_left _ hn)

theorem ApartFrom.right {ps : List (String × Ty)} {as bs : List String} (h : ApartFrom ps (as ++ bs)) :
    ApartFrom ps bs := fun n hn => h n (List.mem_append_right _ hn)

mutual

/-- Parameters that do not occur change nothing, for types whose functions are in normal form. -/
theorem instantiate_none {ps : List (String × Ty)} : ∀ t : Ty, NormalTy t →
    (∀ n ∈ tyNames t, ps.lookup n = none) → t.instantiate ps = t
  | .bool, _, _ => rfl
  | .data d as, hn, h => by
    show Ty.data d (Ty.instantiateAll ps as) = _
    rw [instantiateAll_none as hn h]
  | .fn as r, hn, h => by
    show Ty.functional (Ty.instantiateAll ps as) (r.instantiate ps) = _
    rw [instantiateAll_none as hn.2.1 fun n hm => h n (List.mem_append_left _ hm),
      instantiate_none r hn.2.2.1 fun n hm => h n (List.mem_append_right _ hm)]
    exact functional_notFn hn.1 hn.2.2.2
  | .tvar n, _, h => by
    show (ps.lookup n).getD _ = _
    rw [h n (by simp [tyNames])]; rfl
  | .arb n, _, h => by
    show (ps.lookup n).getD _ = _
    rw [h n (by simp [tyNames])]; rfl
  | .type0, _, _ => rfl
  | .constraint _, _, _ => rfl

theorem instantiateAll_none {ps : List (String × Ty)} : ∀ ts : List Ty, NormalTys ts →
    (∀ n ∈ tysNames ts, ps.lookup n = none) → Ty.instantiateAll ps ts = ts
  | [], _, _ => rfl
  | t :: ts, hn, h => by
    show t.instantiate ps :: Ty.instantiateAll ps ts = _
    rw [instantiate_none t hn.1 fun n hm => h n (List.mem_append_left _ hm),
      instantiateAll_none ts hn.2 fun n hm => h n (List.mem_append_right _ hm)]

end

theorem names_of_lookup {ps : List (String × Ty)} {n m : String} {t : Ty} (e : ps.lookup n = some t)
    (h : m ∈ tyNames t) : m ∈ tysNames (ps.map (·.2)) := by
  induction ps with
  | nil => simp at e
  | cons p ps ih =>
    obtain ⟨k, u⟩ := p
    simp only [List.lookup_cons] at e
    show m ∈ tyNames u ++ tysNames (ps.map (·.2))
    by_cases hk : n == k
    · simp only [hk] at e
      cases e
      exact List.mem_append_left _ h
    · simp only [hk] at e
      exact List.mem_append_right _ (ih e)

theorem lookup_zip_map {ps : List (String × Ty)} {n : String} : ∀ (ns : List String) (ts : List Ty),
    (ns.zip (Ty.instantiateAll ps ts)).lookup n = ((ns.zip ts).lookup n).map (Ty.instantiate ps)
  | [], ts => by cases ts <;> rfl
  | k :: ns, [] => rfl
  | k :: ns, t :: ts => by
    simp only [Ty.instantiateAll, List.zip_cons_cons, List.lookup_cons]
    cases n == k with
    | true => rfl
    | false => exact lookup_zip_map ns ts

theorem compose_param {ps : List (String × Ty)} (hp : ∀ p ∈ ps, NormalTy p.2) {ns : List String}
    (ts : List Ty) (h : ApartFrom ps ns) (n : String) (d : Ty) (hd : ∀ qs, d.instantiate qs = (qs.lookup n).getD d) :
    (((ns.zip ts).lookup n).getD d).instantiate ps =
      ((ps.lookup n).getD d).instantiate (ns.zip (Ty.instantiateAll ps ts)) := by
  by_cases hn : n ∈ ns
  · have h1 : ps.lookup n = none := lookup_none_of (h n hn).1
    rw [h1, Option.getD_none, hd, lookup_zip_map]
    cases (ns.zip ts).lookup n with
    | none => rw [Option.getD_none, hd, h1]; rfl
    | some t => rfl
  · rw [lookup_zip_none hn, Option.getD_none, hd]
    cases e : ps.lookup n with
    | none => rw [Option.getD_none, hd, lookup_zip_none hn]; rfl
    | some t =>
      refine (instantiate_none t (normal_lookup hp e) fun m hm => ?_).symm
      exact lookup_zip_none fun hm' => (h m hm').2 (names_of_lookup e hm)

mutual

theorem instantiate_compose {ps : List (String × Ty)} (hp : ∀ p ∈ ps, NormalTy p.2) {ns : List String}
    (ts : List Ty) (h : ApartFrom ps ns) : ∀ t : Ty,
    (t.instantiate (ns.zip ts)).instantiate ps =
      (t.instantiate ps).instantiate (ns.zip (Ty.instantiateAll ps ts))
  | .bool => rfl
  | .data d as => by
    show Ty.data d _ = Ty.data d _
    rw [instantiate_composeAll hp ts h as]
  | .fn as r => by
    show (Ty.functional _ _).instantiate ps = (Ty.functional _ _).instantiate _
    rw [instantiate_functional, instantiate_functional, instantiate_composeAll hp ts h as,
      instantiate_compose hp ts h r]
  | .tvar n => compose_param hp ts h n (.tvar n) fun _ => rfl
  | .arb n => compose_param hp ts h n (.arb n) fun _ => rfl
  | .type0 => rfl
  | .constraint _ => rfl

theorem instantiate_composeAll {ps : List (String × Ty)} (hp : ∀ p ∈ ps, NormalTy p.2) {ns : List String}
    (ts : List Ty) (h : ApartFrom ps ns) : ∀ us : List Ty,
    Ty.instantiateAll ps (Ty.instantiateAll (ns.zip ts) us) =
      Ty.instantiateAll (ns.zip (Ty.instantiateAll ps ts)) (Ty.instantiateAll ps us)
  | [] => rfl
  | u :: us => by
    show _ :: _ = _ :: _
    rw [instantiate_compose hp ts h u, instantiate_composeAll hp ts h us]

end

theorem instantiateAll_length_values (ps : List (String × Ty)) : ∀ vs : List Value,
    (Value.instantiateAll ps vs).length = vs.length
  | [] => rfl
  | _ :: vs => by simp [Value.instantiateAll, instantiateAll_length_values ps vs]

theorem getType_instantiate {ps : List (String × Ty)} (hp : ∀ p ∈ ps, NormalTy p.2) :
    ∀ (v : Value) (t : Ty), NormalIn v → ApartFrom ps (boundNames v) → v.getType = some t →
      (v.instantiate ps).getType = some (t.instantiate ps)
  | .var _ u, t, _, _, e => by cases e; rfl
  | .const _ _ u, t, _, _, e => by cases e; rfl
  | .app f as, t, hn, ha, e => by
    obtain ⟨w, hw, e'⟩ := Option.bind_eq_some_iff.1 (show f.getType.bind _ = _ from e)
    show ((f.instantiate ps).getType).bind _ = _
    rw [getType_instantiate hp f w hn.1 ha.left hw, instantiateAll_length_values]
    exact appliedN_instantiate hp (normal_getType f w hn.1 hw) e'
  | .tapp f ns ts, t, hn, ha, e => by
    obtain ⟨w, hw, rfl⟩ := Option.map_eq_some_iff.1 (show f.getType.map _ = _ from e)
    show ((f.instantiate ps).getType).map _ = _
    rw [getType_instantiate hp f w hn.1 ha.right hw, Option.map_some,
      instantiate_compose hp ts ha.left w]
  | .lam ts b, t, hn, ha, e => by
    obtain ⟨w, hw, rfl⟩ := Option.map_eq_some_iff.1 (show b.getType.map _ = _ from e)
    show ((b.instantiate ps).getType).map _ = _
    rw [getType_instantiate hp b w hn.2.2 ha hw, instantiate_functional]
    rfl
  | .bin _ _ _, t, _, _, e => by cases e; rfl
  | .not _, t, _, _, e => by cases e; rfl
  | .try_ _ u, t, _, _, e => by cases e; rfl
  | .all _ _, t, _, _, e => by cases e; rfl
  | .ex _ _, t, _, _, e => by cases e; rfl
  | .group a, t, hn, ha, e => getType_instantiate hp a t hn ha e
  | .bool _, t, _, _, e => by cases e; rfl
  | .ite _ a _, t, hn, ha, e => getType_instantiate hp a t hn.2.1 ha.right.left e
  | .match_ _ [], t, _, _, e => by simp [Value.getType, Value.getTypeCases] at e
  | .match_ _ (.mk _ _ r _ _ :: _), t, hn, ha, e =>
    getType_instantiate hp r t hn.2.2.2.1 ha.right.right.left e

/-- No type parameter is replaced by a function type. -/
def NoFnParams (ps : List (String × Ty)) : Prop := ∀ p ∈ ps, NotFn p.2

theorem notFn_lookup {ps : List (String × Ty)} (h : NoFnParams ps) {n : String} {t : Ty}
    (e : ps.lookup n = some t) : NotFn t := by
  induction ps with
  | nil => simp at e
  | cons p ps ih =>
    obtain ⟨k, u⟩ := p
    simp only [List.lookup_cons] at e
    by_cases hk : n == k
    · simp only [hk] at e
      cases e
      exact h _ (List.mem_cons_self ..)
    · simp only [hk] at e
      exact ih (fun p hp => h p (List.mem_cons_of_mem _ hp)) e

theorem notFn_instantiate {ps : List (String × Ty)} (h : NoFnParams ps) {t : Ty} (ht : NotFn t) :
    NotFn (t.instantiate ps) := by
  cases t with
  | fn as r => exact absurd rfl (ht as r)
  | tvar n =>
    show NotFn ((ps.lookup n).getD _)
    cases e : ps.lookup n with
    | none => exact ht
    | some t => exact notFn_lookup h e
  | arb n =>
    show NotFn ((ps.lookup n).getD _)
    cases e : ps.lookup n with
    | none => exact ht
    | some t => exact notFn_lookup h e
  | _ => intro _ _ e; cases e

theorem instantiate_fn {ps : List (String × Ty)} (h : NoFnParams ps) {as : List Ty} {r : Ty}
    (ht : NormalTy (.fn as r)) : (Ty.fn as r).instantiate ps =
      .fn (Ty.instantiateAll ps as) (r.instantiate ps) :=
  functional_notFn (instantiateAll_ne ht.1) (notFn_instantiate h ht.2.2.2)

theorem isType_instantiate {ps : List (String × Ty)} (hp : ∀ p ∈ ps, NormalTy p.2) (hf : NoFnParams ps) :
    ∀ (v : Value) (t : Ty), NormalIn v → NormalTy t → ApartFrom ps (boundNames v) → v.isType t = true →
      (v.instantiate ps).isType (t.instantiate ps) = true
  | .var _ u, t, _, _, _, e => by
    have : u = t := (same_iff u t).1 e
    exact this ▸ same_refl _
  | .const _ _ u, t, _, _, _, e => by
    have : u = t := (same_iff u t).1 e
    exact this ▸ same_refl _
  | .app f as, t, hn, _, ha, e =>
    (typeIs_iff _ _).2 (getType_instantiate hp (.app f as) t hn ha ((typeIs_iff _ _).1 e))
  | .tapp f ns ts, t, hn, _, ha, e =>
    (typeIs_iff _ _).2 (getType_instantiate hp (.tapp f ns ts) t hn ha ((typeIs_iff _ _).1 e))
  | .lam ts b, t, hn, ht, ha, e => by
    cases t with
    | fn us r =>
      simp only [Value.isType, Bool.and_eq_true, sameAll_iff] at e
      obtain ⟨rfl, eb⟩ := e
      rw [instantiate_fn hf ht]
      simp only [Value.instantiate, Value.isType, Bool.and_eq_true, sameAll_iff, true_and]
      exact isType_instantiate hp hf b r hn.2.2 ht.2.2.1 ha eb
    | _ => simp [Value.isType] at e
  | .bin _ _ _, t, _, _, _, e => by rw [(same_iff t .bool).1 e]; rfl
  | .not _, t, _, _, _, e => by rw [(same_iff t .bool).1 e]; rfl
  | .try_ _ u, t, _, _, _, e => by
    have : u = t := (same_iff u t).1 e
    exact this ▸ same_refl _
  | .all _ _, t, _, _, _, e => by rw [(same_iff t .bool).1 e]; rfl
  | .ex _ _, t, _, _, _, e => by rw [(same_iff t .bool).1 e]; rfl
  | .group a, t, hn, ht, ha, e => isType_instantiate hp hf a t hn ht ha e
  | .bool _, t, _, _, _, e => by rw [(same_iff t .bool).1 e]; rfl
  | .ite _ a _, t, hn, ht, ha, e => isType_instantiate hp hf a t hn.2.1 ht ha.right.left e
  | .match_ _ [], t, _, _, _, e => by simp [Value.isType, Value.isTypeCases] at e
  | .match_ _ (.mk _ _ r _ _ :: _), t, hn, ht, ha, e =>
    isType_instantiate hp hf r t hn.2.2.2.1 ht ha.right.right.left e

theorem argsOk_instantiate {ps : List (String × Ty)} (hp : ∀ p ∈ ps, NormalTy p.2) (hf : NoFnParams ps) :
    ∀ (as : List Value) (t : Ty), NormalInAll as → NormalTy t → ApartFrom ps (boundNamesAll as) →
      Value.argsOk t as = true → Value.argsOk (t.instantiate ps) (Value.instantiateAll ps as) = true
  | [], t, _, _, _, _ => by
    show Value.argsOk _ [] = true
    cases t.instantiate ps <;> rfl
  | a :: as, t, hn, ht, ha, e => by
    cases t with
    | fn us r =>
      cases us with
      | nil => simp [Value.argsOk] at e
      | cons u us =>
        rw [instantiate_fn hf ht]
        simp only [Value.argsOk, Bool.and_eq_true] at e
        show (_ && _) = true
        rw [Bool.and_eq_true]
        refine ⟨isType_instantiate hp hf a u hn.1 ht.2.1.1 ha.left e.1, ?_⟩
        have hx := normal_applied ht rfl
        have := argsOk_instantiate hp hf as _ hn.2 hx ha.right e.2
        cases us with
        | nil => exact this
        | cons w ws =>
          have hy : NormalTy (.fn (w :: ws) r) := hx
          have h2 : Value.argsOk ((Ty.fn (w :: ws) r).instantiate ps) (Value.instantiateAll ps as) = true := this
          rw [instantiate_fn hf hy] at h2
          exact h2
    | _ => simp [Value.argsOk] at e

mutual

theorem validate_instantiate {ps : List (String × Ty)} (hp : ∀ p ∈ ps, NormalTy p.2) (hf : NoFnParams ps) :
    ∀ (v : Value) (Γ : List Ty), NormalIn v → ApartFrom ps (boundNames v) → v.validate Γ = true →
      (v.instantiate ps).validate (Ty.instantiateAll ps Γ) = true
  | .var i t, Γ, _, _, e => by
    have h := (typeIs_iff _ _).1 e
    refine (typeIs_iff _ _).2 ?_
    rw [instantiateAll_get, h]; rfl
  | .const _ _ _, _, _, _, _ => rfl
  | .app f as, Γ, hn, ha, e => by
    simp only [Value.validate, Bool.and_eq_true] at e
    obtain ⟨⟨h1, h2⟩, h3⟩ := e
    simp only [Value.instantiate, Value.validate, Bool.and_eq_true]
    refine ⟨⟨?_, validate_instantiate hp hf f Γ hn.1 ha.left h2⟩, validate_instantiateAll hp hf as Γ hn.2 ha.right h3⟩
    cases ht : f.getType with
    | none => rw [ht] at h1; exact absurd h1 (by simp)
    | some t =>
      rw [ht] at h1
      rw [getType_instantiate hp f t hn.1 ha.left ht]
      exact argsOk_instantiate hp hf as t hn.2 (normal_getType f t hn.1 ht) ha.right h1
  | .tapp f ns ts, Γ, hn, ha, e => by
    simp only [Value.validate, Bool.and_eq_true, beq_iff_eq] at e
    simp only [Value.instantiate, Value.validate, Bool.and_eq_true, instantiateAll_length, beq_iff_eq]
    exact ⟨e.1, validate_instantiate hp hf f Γ hn.1 ha.right e.2⟩
  | .lam ts b, Γ, hn, ha, e => by
    have := validate_instantiate hp hf b (Γ ++ ts) hn.2.2 ha e
    rw [instantiateAll_append] at this
    exact this
  | .all ts b, Γ, hn, ha, e => by
    have := validate_instantiate hp hf b (Γ ++ ts) hn.2 ha e
    rw [instantiateAll_append] at this
    exact this
  | .ex ts b, Γ, hn, ha, e => by
    have := validate_instantiate hp hf b (Γ ++ ts) hn.2 ha e
    rw [instantiateAll_append] at this
    exact this
  | .bin _ a b, Γ, hn, ha, e => by
    simp only [Value.validate, Bool.and_eq_true] at e
    simp only [Value.instantiate, Value.validate, Bool.and_eq_true]
    exact ⟨validate_instantiate hp hf a Γ hn.1 ha.left e.1, validate_instantiate hp hf b Γ hn.2 ha.right e.2⟩
  | .not a, Γ, hn, ha, e => validate_instantiate hp hf a Γ hn ha e
  | .try_ a _, Γ, hn, ha, e => validate_instantiate hp hf a Γ hn.1 ha e
  | .group a, Γ, hn, ha, e => validate_instantiate hp hf a Γ hn ha e
  | .bool _, _, _, _, _ => rfl
  | .ite c a b, Γ, hn, ha, e => by
    simp only [Value.validate, Bool.and_eq_true] at e
    simp only [Value.instantiate, Value.validate, Bool.and_eq_true]
    exact ⟨⟨validate_instantiate hp hf c Γ hn.1 ha.left e.1.1,
      validate_instantiate hp hf a Γ hn.2.1 ha.right.left e.1.2⟩,
      validate_instantiate hp hf b Γ hn.2.2 ha.right.right e.2⟩
  | .match_ s cs, Γ, hn, ha, e => by
    simp only [Value.validate, Bool.and_eq_true] at e
    simp only [Value.instantiate, Value.validate, Bool.and_eq_true]
    exact ⟨validate_instantiate hp hf s Γ hn.1 ha.left e.1,
      validate_instantiateCases hp hf cs Γ hn.2 ha.right e.2⟩

theorem validate_instantiateAll {ps : List (String × Ty)} (hp : ∀ p ∈ ps, NormalTy p.2) (hf : NoFnParams ps) :
    ∀ (vs : List Value) (Γ : List Ty), NormalInAll vs → ApartFrom ps (boundNamesAll vs) →
      Value.validateAll Γ vs = true →
      Value.validateAll (Ty.instantiateAll ps Γ) (Value.instantiateAll ps vs) = true
  | [], _, _, _, _ => rfl
  | v :: vs, Γ, hn, ha, e => by
    simp only [Value.validateAll, Bool.and_eq_true] at e
    simp only [Value.instantiateAll, Value.validateAll, Bool.and_eq_true]
    exact ⟨validate_instantiate hp hf v Γ hn.1 ha.left e.1, validate_instantiateAll hp hf vs Γ hn.2 ha.right e.2⟩

theorem validate_instantiateCases {ps : List (String × Ty)} (hp : ∀ p ∈ ps, NormalTy p.2)
    (hf : NoFnParams ps) : ∀ (cs : List Case) (Γ : List Ty), NormalInCases cs →
      ApartFrom ps (boundNamesCases cs) → Value.validateCases Γ cs = true →
      Value.validateCases (Ty.instantiateAll ps Γ) (Value.instantiateCases ps cs) = true
  | [], _, _, _, _ => rfl
  | .mk ts p r _ _ :: cs, Γ, hn, ha, e => by
    simp only [Value.validateCases, Bool.and_eq_true] at e
    have h1 := validate_instantiate hp hf p (Γ ++ ts) hn.2.1 ha.left e.1.1
    have h2 := validate_instantiate hp hf r (Γ ++ ts) hn.2.2.1 ha.right.left e.1.2
    rw [instantiateAll_append] at h1 h2
    simp only [Value.instantiateCases, Value.validateCases, Bool.and_eq_true]
    exact ⟨⟨h1, h2⟩, validate_instantiateCases hp hf cs Γ hn.2.2.2 ha.right.right e.2⟩

end

end Elab
end Acorn
