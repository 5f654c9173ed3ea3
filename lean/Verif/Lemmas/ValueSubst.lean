/-
Binding values to stack variables, giving types to type parameters and replacing constants: what these
operations do to the meaning of a value.
-/
import Verif.Lemmas.ValueMeaning
namespace Acorn
namespace Elab

open Spec Classical

universe u

variable {F : Frame.{u}} {C : String → List F.T → F.D}

/-! ### Only the type parameters that occur matter -/

mutual

theorem ty_congr {θ θ' : String → F.T} : ∀ t : Ty, (∀ n ∈ tyNames t, θ n = θ' n) → F.ty θ t = F.ty θ' t
  | .bool, _ => rfl
  | .data d as, h => by simp only [Frame.ty, tys_congr as (by simpa only [tyNames] using h)]
  | .fn as r, h => by
    simp only [tyNames, List.mem_append] at h
    simp only [Frame.ty, tys_congr as fun n hn => h n (.inl hn), ty_congr r fun n hn => h n (.inr hn)]
  | .tvar n, h => h n (by simp [tyNames])
  | .arb n, h => h n (by simp [tyNames])
  | .type0, _ => rfl
  | .constraint _, _ => rfl

theorem tys_congr {θ θ' : String → F.T} : ∀ ts : List Ty, (∀ n ∈ tysNames ts, θ n = θ' n) →
    F.tys θ ts = F.tys θ' ts
  | [], _ => rfl
  | t :: ts, h => by
    simp only [tysNames, List.mem_append] at h
    simp only [Frame.tys, ty_congr t fun n hn => h n (.inl hn), tys_congr ts fun n hn => h n (.inr hn)]

end

mutual

theorem den_congr {θ θ' : String → F.T} (env : List F.D) : ∀ v : Value,
    (∀ n ∈ typeNames v, θ n = θ' n) → F.den C θ env v = F.den C θ' env v
  | .var _ _, _ => rfl
  | .const m ps _, h => by
    simp only [typeNames, List.mem_append] at h
    simp only [Frame.den, tys_congr ps fun n hn => h n (.inl hn)]
  | .app f as, h => by
    simp only [typeNames, List.mem_append] at h
    simp only [Frame.den, den_congr env f fun n hn => h n (.inl hn),
      denAll_congr env as fun n hn => h n (.inr hn)]
  | .tapp f ns ts, h => by
    simp only [typeNames, List.mem_append] at h
    simp only [Frame.den, tys_congr ts fun n hn => h n (.inr (.inr hn))]
    refine den_congr env f fun n hn => ?_
    simp only [Frame.with_, h n (.inl hn)]
  | .lam ts b, h => by
    simp only [typeNames, List.mem_append] at h
    simp only [Frame.den, tys_congr ts fun n hn => h n (.inl hn)]
    congr 1
    funext xs
    exact den_congr _ b fun n hn => h n (.inr hn)
  | .bin op a b, h => by
    simp only [typeNames, List.mem_append] at h
    simp only [Frame.den, den_congr env a fun n hn => h n (.inl hn),
      den_congr env b fun n hn => h n (.inr hn)]
  | .not a, h => by simp only [Frame.den, den_congr env a (by simpa only [typeNames] using h)]
  | .try_ a t, h => by
    simp only [typeNames, List.mem_append] at h
    simp only [Frame.den, den_congr env a fun n hn => h n (.inl hn), ty_congr t fun n hn => h n (.inr hn)]
  | .all ts b, h => by
    simp only [typeNames, List.mem_append] at h
    simp only [Frame.den, tys_congr ts fun n hn => h n (.inl hn)]
    refine ofProp_congr (forall_congr' fun xs => ?_)
    rw [den_congr _ b fun n hn => h n (.inr hn)]
  | .ex ts b, h => by
    simp only [typeNames, List.mem_append] at h
    simp only [Frame.den, tys_congr ts fun n hn => h n (.inl hn)]
    refine ofProp_congr (exists_congr fun xs => ?_)
    rw [den_congr _ b fun n hn => h n (.inr hn)]
  | .group a, h => den_congr env a (by simpa only [typeNames] using h)
  | .bool _, _ => rfl
  | .ite c a b, h => by
    simp only [typeNames, List.mem_append] at h
    simp only [Frame.den, den_congr env c fun n hn => h n (.inl hn),
      den_congr env a fun n hn => h n (.inr (.inl hn)), den_congr env b fun n hn => h n (.inr (.inr hn))]
  | .match_ s cs, h => by
    simp only [typeNames, List.mem_append] at h
    simp only [Frame.den, den_congr env s fun n hn => h n (.inl hn)]
    exact denCases_congr env _ cs fun n hn => h n (.inr hn)

theorem denAll_congr {θ θ' : String → F.T} (env : List F.D) : ∀ vs : List Value,
    (∀ n ∈ typeNamesAll vs, θ n = θ' n) → F.denAll C θ env vs = F.denAll C θ' env vs
  | [], _ => rfl
  | v :: vs, h => by
    simp only [typeNamesAll, List.mem_append] at h
    simp only [Frame.denAll, den_congr env v fun n hn => h n (.inl hn),
      denAll_congr env vs fun n hn => h n (.inr hn)]

theorem denCases_congr {θ θ' : String → F.T} (env : List F.D) (d : F.D) : ∀ cs : List Case,
    (∀ n ∈ typeNamesCases cs, θ n = θ' n) → F.denCases C θ env d cs = F.denCases C θ' env d cs
  | [], _ => rfl
  | .mk ts p r _ _ :: cs, h => by
    simp only [typeNamesCases, List.mem_append] at h
    simp only [Frame.denCases, tys_congr ts fun n hn => h n (.inl hn)]
    refine pick_congr (fun xs => ?_) (fun xs _ => ?_) ?_
    · rw [den_congr _ p fun n hn => h n (.inr (.inl hn))]
    · exact den_congr _ r fun n hn => h n (.inr (.inr (.inl hn)))
    · exact denCases_congr env d cs fun n hn => h n (.inr (.inr (.inr hn)))

end

theorem lookup_zip_none {α : Type u} {n : String} : ∀ {ns : List String} {ts : List α}, n ∉ ns →
    (ns.zip ts).lookup n = none
  | [], _, _ => rfl
  | _ :: _, [], _ => rfl
  | m :: ns, t :: ts, h => by
    simp only [List.mem_cons, not_or] at h
    simp only [List.zip_cons_cons, List.lookup_cons]
    rw [beq_false_of_ne h.1]
    exact lookup_zip_none h.2

theorem with_zip_other (θ : String → F.T) {ns : List String} {ts : List F.T} {n : String} (h : n ∉ ns) :
    F.with_ θ (ns.zip ts) n = θ n := by
  simp only [Frame.with_, lookup_zip_none h, Option.getD_none]

/-! ### Binding values -/

mutual

theorem den_bindValues (θ : String → F.T) (pre rest : List F.D) (vals : List Value) : ∀ v : Value,
    (∀ n ∈ boundNames v, n ∉ typeNamesAll vals) →
    F.den C θ (pre ++ rest) (v.bindValues pre.length (pre.length + rest.length) vals) =
      F.den C θ (pre ++ (F.denAll C θ pre vals ++ rest)) v
  | .var i t, _ => by
    unfold Value.bindValues
    by_cases h : i < pre.length
    · rw [if_pos h]
      simp only [Frame.den, List.getD_eq_getElem?_getD, List.getElem?_append_left h]
    · rw [if_neg h]
      by_cases h' : i - pre.length < vals.length
      · rw [dif_pos h']
        have e := den_insertStack (C := C) θ pre rest [] vals[i - pre.length]
        rw [List.append_nil, List.append_nil] at e
        rw [show pre.length + rest.length - pre.length = rest.length by omega, e]
        simp only [Frame.den, List.getD_eq_getElem?_getD]
        rw [List.getElem?_append_right (by omega), List.getElem?_append_left
          (by rw [denAll_length]; exact h'), ← List.getD_eq_getElem?_getD, denAll_getD _ _ _ _ _ h']
      · rw [dif_neg h']
        simp only [Frame.den, List.getD_eq_getElem?_getD]
        rw [List.getElem?_append_right (by omega), List.getElem?_append_right (by omega),
          List.getElem?_append_right (by rw [denAll_length]; omega), denAll_length]
        congr 2
        omega
  | .const _ _ _, _ => rfl
  | .app f as, h => by
    simp only [boundNames, List.mem_append] at h
    simp only [Value.bindValues, Frame.den, den_bindValues θ pre rest vals f fun n hn => h n (.inl hn),
      den_bindValuesAll θ pre rest vals as fun n hn => h n (.inr hn)]
  | .tapp f ns ts, h => by
    simp only [boundNames, List.mem_append] at h
    simp only [Value.bindValues, Frame.den]
    rw [den_bindValues _ pre rest vals f fun n hn => h n (.inr hn)]
    have e : F.denAll C (F.with_ θ (ns.zip (F.tys θ ts))) pre vals = F.denAll C θ pre vals :=
      denAll_congr pre vals fun n hn => with_zip_other θ fun hm => h n (.inl hm) hn
    rw [e]
  | .lam ts b, h => by
    simp only [Value.bindValues, Frame.den, List.append_assoc]
    refine lamN_congr fun xs hxs => ?_
    have e := den_bindValues θ pre (rest ++ xs) vals b (by simpa only [boundNames] using h)
    rw [List.length_append, Fits.length hxs, tys_length, ← Nat.add_assoc] at e
    exact e
  | .bin op a b, h => by
    simp only [boundNames, List.mem_append] at h
    simp only [Value.bindValues, Frame.den, den_bindValues θ pre rest vals a fun n hn => h n (.inl hn),
      den_bindValues θ pre rest vals b fun n hn => h n (.inr hn)]
  | .not a, h => by
    simp only [Value.bindValues, Frame.den,
      den_bindValues θ pre rest vals a (by simpa only [boundNames] using h)]
  | .try_ a _, h => by
    simp only [Value.bindValues, Frame.den,
      den_bindValues θ pre rest vals a (by simpa only [boundNames] using h)]
  | .all ts b, h => by
    simp only [Value.bindValues, Frame.den, List.append_assoc]
    refine ofProp_congr (forall_congr' fun xs => ?_)
    refine imp_congr_right fun hxs => ?_
    have e := den_bindValues θ pre (rest ++ xs) vals b (by simpa only [boundNames] using h)
    rw [List.length_append, Fits.length hxs, tys_length, ← Nat.add_assoc] at e
    rw [e]
  | .ex ts b, h => by
    simp only [Value.bindValues, Frame.den, List.append_assoc]
    refine ofProp_congr (exists_congr fun xs => ?_)
    refine and_congr_right fun hxs => ?_
    have e := den_bindValues θ pre (rest ++ xs) vals b (by simpa only [boundNames] using h)
    rw [List.length_append, Fits.length hxs, tys_length, ← Nat.add_assoc] at e
    rw [e]
  | .group a, h => den_bindValues θ pre rest vals a (by simpa only [boundNames] using h)
  | .bool _, _ => rfl
  | .ite c a b, h => by
    simp only [boundNames, List.mem_append] at h
    simp only [Value.bindValues, Frame.den, den_bindValues θ pre rest vals c fun n hn => h n (.inl hn),
      den_bindValues θ pre rest vals a fun n hn => h n (.inr (.inl hn)),
      den_bindValues θ pre rest vals b fun n hn => h n (.inr (.inr hn))]
  | .match_ s cs, h => by
    simp only [boundNames, List.mem_append] at h
    simp only [Value.bindValues, Frame.den, den_bindValues θ pre rest vals s fun n hn => h n (.inl hn)]
    exact den_bindValuesCases θ pre rest vals _ cs fun n hn => h n (.inr hn)

theorem den_bindValuesAll (θ : String → F.T) (pre rest : List F.D) (vals : List Value) :
    ∀ vs : List Value, (∀ n ∈ boundNamesAll vs, n ∉ typeNamesAll vals) →
    F.denAll C θ (pre ++ rest) (Value.bindValuesAll pre.length (pre.length + rest.length) vals vs) =
      F.denAll C θ (pre ++ (F.denAll C θ pre vals ++ rest)) vs
  | [], _ => rfl
  | v :: vs, h => by
    simp only [boundNamesAll, List.mem_append] at h
    simp only [Value.bindValuesAll, Frame.denAll,
      den_bindValues θ pre rest vals v fun n hn => h n (.inl hn),
      den_bindValuesAll θ pre rest vals vs fun n hn => h n (.inr hn)]

theorem den_bindValuesCases (θ : String → F.T) (pre rest : List F.D) (vals : List Value) (d : F.D) :
    ∀ cs : List Case, (∀ n ∈ boundNamesCases cs, n ∉ typeNamesAll vals) →
    F.denCases C θ (pre ++ rest) d (Value.bindValuesCases pre.length (pre.length + rest.length) vals cs) =
      F.denCases C θ (pre ++ (F.denAll C θ pre vals ++ rest)) d cs
  | [], _ => rfl
  | .mk ts p r _ _ :: cs, h => by
    simp only [boundNamesCases, List.mem_append] at h
    simp only [Value.bindValuesCases, Frame.denCases, List.append_assoc]
    refine pick_congr (fun xs => ?_) (fun xs hxs => ?_) ?_
    · refine and_congr_right fun hxs => ?_
      have e := den_bindValues θ pre (rest ++ xs) vals p fun n hn => h n (.inl hn)
      rw [List.length_append, Fits.length hxs, tys_length, ← Nat.add_assoc] at e
      rw [e]
    · have e := den_bindValues θ pre (rest ++ xs) vals r fun n hn => h n (.inr (.inl hn))
      rw [List.length_append, Fits.length hxs.1, tys_length, ← Nat.add_assoc] at e
      exact e
    · exact den_bindValuesCases θ pre rest vals d cs fun n hn => h n (.inr (.inr hn))

end

/-! ### Type parameters -/

theorem ty_functional (θ : String → F.T) (as : List Ty) (r : Ty) :
    F.ty θ (Ty.functional as r) = F.fnN (F.tys θ as) (F.ty θ r) := by
  unfold Ty.functional
  split
  · rfl
  · split
    · simp only [Frame.ty, tys_append, fnN_append]
    · rfl

/-- The meanings of the types given to the parameters. -/
noncomputable def meanings (F : Frame.{u}) (θ : String → F.T) (ps : List (String × Ty)) :
    List (String × F.T) := ps.map fun p => (p.1, F.ty θ p.2)

theorem lookup_meanings (θ : String → F.T) (n : String) : ∀ ps : List (String × Ty),
    (meanings F θ ps).lookup n = (ps.lookup n).map (F.ty θ)
  | [] => rfl
  | (m, t) :: ps => by
    simp only [meanings, List.map_cons, List.lookup_cons]
    cases h : n == m
    · simpa only [meanings] using lookup_meanings θ n ps
    · rfl

mutual

theorem ty_instantiate (θ : String → F.T) (ps : List (String × Ty)) : ∀ t : Ty,
    F.ty θ (t.instantiate ps) = F.ty (F.with_ θ (meanings F θ ps)) t
  | .bool => rfl
  | .data d as => by simp only [Ty.instantiate, Frame.ty, tys_instantiate θ ps as]
  | .fn as r => by
    simp only [Ty.instantiate, ty_functional, Frame.ty, tys_instantiate θ ps as, ty_instantiate θ ps r]
  | .tvar n => by
    simp only [Ty.instantiate, Frame.ty, Frame.with_, lookup_meanings]
    cases ps.lookup n <;> rfl
  | .arb n => by
    simp only [Ty.instantiate, Frame.ty, Frame.with_, lookup_meanings]
    cases ps.lookup n <;> rfl
  | .type0 => rfl
  | .constraint _ => rfl

theorem tys_instantiate (θ : String → F.T) (ps : List (String × Ty)) : ∀ ts : List Ty,
    F.tys θ (Ty.instantiateAll ps ts) = F.tys (F.with_ θ (meanings F θ ps)) ts
  | [] => rfl
  | t :: ts => by
    simp only [Ty.instantiateAll, Frame.tys, ty_instantiate θ ps t, tys_instantiate θ ps ts]

end

mutual

theorem ty_toArbitrary (θ : String → F.T) : ∀ t : Ty, F.ty θ t.toArbitrary = F.ty θ t
  | .bool => rfl
  | .data d as => by simp only [Ty.toArbitrary, Frame.ty, tys_toArbitrary θ as]
  | .fn as r => by
    simp only [Ty.toArbitrary, ty_functional, Frame.ty, tys_toArbitrary θ as, ty_toArbitrary θ r]
  | .tvar n => rfl
  | .arb n => rfl
  | .type0 => rfl
  | .constraint _ => rfl

theorem tys_toArbitrary (θ : String → F.T) : ∀ ts : List Ty,
    F.tys θ (Ty.toArbitraryAll ts) = F.tys θ ts
  | [] => rfl
  | t :: ts => by simp only [Ty.toArbitraryAll, Frame.tys, ty_toArbitrary θ t, tys_toArbitrary θ ts]

end

mutual

theorem den_toArbitrary (θ : String → F.T) (env : List F.D) : ∀ v : Value,
    F.den C θ env v.toArbitrary = F.den C θ env v
  | .var _ _ => rfl
  | .const _ ps _ => by simp only [Value.toArbitrary, Frame.den, tys_toArbitrary]
  | .app f as => by
    simp only [Value.toArbitrary, Frame.den, den_toArbitrary θ env f, den_toArbitraryAll θ env as]
  | .tapp f _ ts => by simp only [Value.toArbitrary, Frame.den, tys_toArbitrary, den_toArbitrary _ env f]
  | .lam ts b => by simp only [Value.toArbitrary, Frame.den, tys_toArbitrary, den_toArbitrary θ _ b]
  | .bin op a b => by
    simp only [Value.toArbitrary, Frame.den, den_toArbitrary θ env a, den_toArbitrary θ env b]
  | .not a => by simp only [Value.toArbitrary, Frame.den, den_toArbitrary θ env a]
  | .try_ a t => by simp only [Value.toArbitrary, Frame.den, den_toArbitrary θ env a, ty_toArbitrary]
  | .all ts b => by simp only [Value.toArbitrary, Frame.den, tys_toArbitrary, den_toArbitrary θ _ b]
  | .ex ts b => by simp only [Value.toArbitrary, Frame.den, tys_toArbitrary, den_toArbitrary θ _ b]
  | .group a => den_toArbitrary θ env a
  | .bool _ => rfl
  | .ite c a b => by
    simp only [Value.toArbitrary, Frame.den, den_toArbitrary θ env a, den_toArbitrary θ env b,
      den_toArbitrary θ env c]
  | .match_ s cs => by
    simp only [Value.toArbitrary, Frame.den, den_toArbitrary θ env s]
    exact den_toArbitraryCases θ env _ cs

theorem den_toArbitraryAll (θ : String → F.T) (env : List F.D) : ∀ vs : List Value,
    F.denAll C θ env (Value.toArbitraryAll vs) = F.denAll C θ env vs
  | [] => rfl
  | v :: vs => by
    simp only [Value.toArbitraryAll, Frame.denAll, den_toArbitrary θ env v, den_toArbitraryAll θ env vs]

theorem den_toArbitraryCases (θ : String → F.T) (env : List F.D) (d : F.D) : ∀ cs : List Case,
    F.denCases C θ env d (Value.toArbitraryCases cs) = F.denCases C θ env d cs
  | [] => rfl
  | .mk ts p r _ _ :: cs => by
    simp only [Value.toArbitraryCases, Frame.denCases, den_toArbitrary θ _ p, den_toArbitrary θ _ r,
      den_toArbitraryCases θ env d cs]

end

theorem with_comm (θ : String → F.T) {P N : List (String × F.T)} (n : String)
    (h : P.lookup n = none ∨ N.lookup n = none) :
    F.with_ (F.with_ θ N) P n = F.with_ (F.with_ θ P) N n := by
  unfold Frame.with_
  rcases h with h | h
  · rw [h]
    rfl
  · rw [h]
    rfl

theorem lookup_none_of {α : Type u} {n : String} : ∀ {ps : List (String × α)}, n ∉ ps.map (·.1) →
    ps.lookup n = none
  | [], _ => rfl
  | (m, t) :: ps, h => by
    simp only [List.map_cons, List.mem_cons, not_or] at h
    simp only [List.lookup_cons]
    rw [beq_false_of_ne h.1]
    exact lookup_none_of h.2

theorem names_mem_tysNames {n : String} : ∀ {ps : List (String × Ty)} {p : String × Ty}, p ∈ ps →
    n ∈ tyNames p.2 → n ∈ tysNames (ps.map (·.2))
  | q :: ps, p, hp, hn => by
    simp only [List.map_cons, tysNames, List.mem_append]
    rcases List.mem_cons.1 hp with rfl | hp
    · exact .inl hn
    · exact .inr (names_mem_tysNames hp hn)

theorem meanings_congr {θ θ' : String → F.T} {ps : List (String × Ty)}
    (h : ∀ n ∈ tysNames (ps.map (·.2)), θ n = θ' n) : meanings F θ ps = meanings F θ' ps := by
  unfold meanings
  refine List.map_congr_left fun p hp => ?_
  rw [ty_congr p.2 fun n hn => h n (names_mem_tysNames hp hn)]

/-- The names bound in a value are apart from the parameters and from what they are given. -/
def Apart (ps : List (String × Ty)) (ns : List String) : Prop :=
  ∀ n ∈ ns, n ∉ ps.map (·.1) ∧ n ∉ tysNames (ps.map (·.2))

mutual

theorem den_instantiate (θ : String → F.T) (ps : List (String × Ty)) (env : List F.D) : ∀ v : Value,
    Apart ps (boundNames v) →
    F.den C θ env (v.instantiate ps) = F.den C (F.with_ θ (meanings F θ ps)) env v
  | .var _ _, _ => rfl
  | .const _ qs _, _ => by simp only [Value.instantiate, Frame.den, tys_instantiate]
  | .app f as, h => by
    simp only [Apart, boundNames, List.mem_append] at h
    simp only [Value.instantiate, Frame.den, den_instantiate θ ps env f fun n hn => h n (.inl hn),
      den_instantiateAll θ ps env as fun n hn => h n (.inr hn)]
  | .tapp f ns ts, h => by
    simp only [Apart, boundNames, List.mem_append] at h
    simp only [Value.instantiate, Frame.den, tys_instantiate]
    rw [den_instantiate _ ps env f fun n hn => h n (.inr hn)]
    have e : meanings F (F.with_ θ (ns.zip (F.tys (F.with_ θ (meanings F θ ps)) ts))) ps =
        meanings F θ ps := by
      refine meanings_congr fun n hn => with_zip_other θ fun hm => ?_
      exact (h n (.inl hm)).2 hn
    rw [e]
    congr 1
    funext n
    refine with_comm θ n ?_
    by_cases hn : n ∈ ns
    · refine .inl ?_
      rw [lookup_meanings, lookup_none_of (h n (.inl hn)).1]
      rfl
    · exact .inr (lookup_zip_none hn)
  | .lam ts b, h => by
    simp only [Value.instantiate, Frame.den, tys_instantiate]
    congr 1
    funext xs
    exact den_instantiate θ ps _ b (by simpa only [boundNames] using h)
  | .bin op a b, h => by
    simp only [Apart, boundNames, List.mem_append] at h
    simp only [Value.instantiate, Frame.den, den_instantiate θ ps env a fun n hn => h n (.inl hn),
      den_instantiate θ ps env b fun n hn => h n (.inr hn)]
  | .not a, h => by
    simp only [Value.instantiate, Frame.den,
      den_instantiate θ ps env a (by simpa only [boundNames] using h)]
  | .try_ a t, h => by
    simp only [Value.instantiate, Frame.den, ty_instantiate,
      den_instantiate θ ps env a (by simpa only [boundNames] using h)]
  | .all ts b, h => by
    simp only [Value.instantiate, Frame.den, tys_instantiate]
    refine ofProp_congr (forall_congr' fun xs => ?_)
    rw [den_instantiate θ ps _ b (by simpa only [boundNames] using h)]
  | .ex ts b, h => by
    simp only [Value.instantiate, Frame.den, tys_instantiate]
    refine ofProp_congr (exists_congr fun xs => ?_)
    rw [den_instantiate θ ps _ b (by simpa only [boundNames] using h)]
  | .group a, h => den_instantiate θ ps env a (by simpa only [boundNames] using h)
  | .bool _, _ => rfl
  | .ite c a b, h => by
    simp only [Apart, boundNames, List.mem_append] at h
    simp only [Value.instantiate, Frame.den, den_instantiate θ ps env c fun n hn => h n (.inl hn),
      den_instantiate θ ps env a fun n hn => h n (.inr (.inl hn)),
      den_instantiate θ ps env b fun n hn => h n (.inr (.inr hn))]
  | .match_ s cs, h => by
    simp only [Apart, boundNames, List.mem_append] at h
    simp only [Value.instantiate, Frame.den, den_instantiate θ ps env s fun n hn => h n (.inl hn)]
    exact den_instantiateCases θ ps env _ cs fun n hn => h n (.inr hn)

theorem den_instantiateAll (θ : String → F.T) (ps : List (String × Ty)) (env : List F.D) :
    ∀ vs : List Value, Apart ps (boundNamesAll vs) →
    F.denAll C θ env (Value.instantiateAll ps vs) = F.denAll C (F.with_ θ (meanings F θ ps)) env vs
  | [], _ => rfl
  | v :: vs, h => by
    simp only [Apart, boundNamesAll, List.mem_append] at h
    simp only [Value.instantiateAll, Frame.denAll, den_instantiate θ ps env v fun n hn => h n (.inl hn),
      den_instantiateAll θ ps env vs fun n hn => h n (.inr hn)]

theorem den_instantiateCases (θ : String → F.T) (ps : List (String × Ty)) (env : List F.D) (d : F.D) :
    ∀ cs : List Case, Apart ps (boundNamesCases cs) →
    F.denCases C θ env d (Value.instantiateCases ps cs) =
      F.denCases C (F.with_ θ (meanings F θ ps)) env d cs
  | [], _ => rfl
  | .mk ts p r _ _ :: cs, h => by
    simp only [Apart, boundNamesCases, List.mem_append] at h
    simp only [Value.instantiateCases, Frame.denCases, tys_instantiate]
    refine pick_congr (fun xs => ?_) (fun xs _ => ?_) ?_
    · rw [den_instantiate θ ps _ p fun n hn => h n (.inl hn)]
    · exact den_instantiate θ ps _ r fun n hn => h n (.inr (.inl hn))
    · exact den_instantiateCases θ ps env d cs fun n hn => h n (.inr (.inr hn))

end

end Elab
end Acorn
