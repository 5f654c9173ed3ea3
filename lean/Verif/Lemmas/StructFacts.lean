/-
The facts of structure declarations together.
-/
import Verif.Lemmas.DatatypeFacts
namespace Acorn
namespace Elab

open Spec

universe u

variable {F : Frame.{u}} {C : String → List F.T → F.D} {P : String → List Ty → Ty → Prop}

theorem mem_names_arb {p : String} : ∀ {ps : List String}, p ∈ ps → p ∈ tysNames (ps.map .arb)
  | q :: ps, h => by
    simp only [List.map_cons, tysNames, tyNames, List.mem_append, List.mem_singleton]
    rcases List.mem_cons.1 h with h | h
    · exact .inl h
    · exact .inr (mem_names_arb h)

theorem arb_generic {n : String} {params : List String} {t : Ty} (h : ∀ p, t.hasVar p = false) :
    SameGeneric F C params n (params.map .arb) t := fun θ =>
  constGeneric_meaning θ (.inl ⟨fun _ hp _ => mem_names_arb hp, fun _ p => h p⟩)

theorem self_generic {n name : String} {params : List String} {t : Ty} :
    SameGeneric F C params n [selfType name params] t := fun θ =>
  constGeneric_meaning θ (.inl ⟨fun _ hp _ => by
    simp only [selfType, tysNames, tyNames, List.append_nil]
    exact mem_names_arb hp, fun e => by cases e⟩)

theorem hasVarAny_false {p : String} : ∀ {ts : List Ty}, (∀ t ∈ ts, t.hasVar p = false) → Ty.hasVarAny p ts = false
  | [], _ => rfl
  | t :: ts, h => by
    rw [Ty.hasVarAny, h t List.mem_cons_self, hasVarAny_false fun t ht => h t (List.mem_cons_of_mem _ ht)]
    rfl

theorem selfType_noVar (name : String) (params : List String) (p : String) : (selfType name params).hasVar p = false := by
  rw [selfType, Ty.hasVar]
  refine hasVarAny_false fun t ht => ?_
  obtain ⟨q, _, rfl⟩ := List.mem_map.1 ht
  rfl

mutual

theorem each_insert (i k : Nat) : ∀ {v : Value}, EachConst P v → EachConst P (v.insertStack i k)
  | .var _ _, _ => by unfold Value.insertStack; split <;> trivial
  | .const _ _ _, h => h
  | .app f as, h => ⟨each_insert i k (v := f) h.1, each_insertAll i k (vs := as) h.2⟩
  | .tapp f _ _, h => each_insert i k (v := f) h
  | .lam _ b, h => each_insert i k (v := b) h
  | .bin _ a b, h => ⟨each_insert i k (v := a) h.1, each_insert i k (v := b) h.2⟩
  | .not a, h => each_insert i k (v := a) h
  | .try_ a _, h => each_insert i k (v := a) h
  | .all _ b, h => each_insert i k (v := b) h
  | .ex _ b, h => each_insert i k (v := b) h
  | .group a, h => each_insert i k (v := a) h
  | .bool _, _ => trivial
  | .ite c a b, h => ⟨each_insert i k (v := c) h.1, each_insert i k (v := a) h.2.1, each_insert i k (v := b) h.2.2⟩
  | .match_ s cs, h => ⟨each_insert i k (v := s) h.1, each_insertCases i k (cs := cs) h.2⟩

theorem each_insertAll (i k : Nat) : ∀ {vs : List Value}, EachConstAll P vs → EachConstAll P (Value.insertStackAll i k vs)
  | [], _ => trivial
  | v :: vs, h => ⟨each_insert i k (v := v) h.1, each_insertAll i k (vs := vs) h.2⟩

theorem each_insertCases (i k : Nat) : ∀ {cs : List Case}, EachConstCases P cs →
    EachConstCases P (Value.insertStackCases i k cs)
  | [], _ => trivial
  | .mk _ p r _ _ :: cs, h =>
    ⟨each_insert i k (v := p) h.1, each_insert i k (v := r) h.2.1, each_insertCases i k (cs := cs) h.2.2⟩

end

mutual

theorem bound_insert (i k : Nat) : ∀ v : Value, boundNames (v.insertStack i k) = boundNames v
  | .var _ _ => by unfold Value.insertStack; split <;> rfl
  | .const _ _ _ => rfl
  | .app f as => by simp only [Value.insertStack, boundNames, bound_insert i k f, bound_insertAll i k as]
  | .tapp f _ _ => by simp only [Value.insertStack, boundNames, bound_insert i k f]
  | .lam _ b => bound_insert i k b
  | .bin _ a b => by simp only [Value.insertStack, boundNames, bound_insert i k a, bound_insert i k b]
  | .not a => bound_insert i k a
  | .try_ a _ => bound_insert i k a
  | .all _ b => bound_insert i k b
  | .ex _ b => bound_insert i k b
  | .group a => bound_insert i k a
  | .bool _ => rfl
  | .ite c a b => by
    simp only [Value.insertStack, boundNames, bound_insert i k a, bound_insert i k b, bound_insert i k c]
  | .match_ s cs => by simp only [Value.insertStack, boundNames, bound_insert i k s, bound_insertCases i k cs]

theorem bound_insertAll (i k : Nat) : ∀ vs : List Value, boundNamesAll (Value.insertStackAll i k vs) = boundNamesAll vs
  | [] => rfl
  | v :: vs => by simp only [Value.insertStackAll, boundNamesAll, bound_insert i k v, bound_insertAll i k vs]

theorem bound_insertCases (i k : Nat) : ∀ cs : List Case, boundNamesCases (Value.insertStackCases i k cs) = boundNamesCases cs
  | [] => rfl
  | .mk _ p r _ _ :: cs => by
    simp only [Value.insertStackCases, boundNamesCases, bound_insert i k p, bound_insert i k r, bound_insertCases i k cs]

end

mutual

theorem each_bind (i : Nat) {vals : List Value} (hv : EachConstAll P vals) : ∀ (n : Nat) {v : Value}, EachConst P v →
    EachConst P (v.bindValues i n vals)
  | n, .var j _, _ => by
    unfold Value.bindValues
    split
    · trivial
    · split
      · next h => exact each_insert _ _ (eachAll_iff.1 hv _ (List.getElem_mem h))
      · trivial
  | _, .const _ _ _, h => h
  | n, .app f as, h => ⟨each_bind i hv n (v := f) h.1, each_bindAll i hv n (vs := as) h.2⟩
  | n, .tapp f _ _, h => each_bind i hv n (v := f) h
  | n, .lam _ b, h => each_bind i hv _ (v := b) h
  | n, .bin _ a b, h => ⟨each_bind i hv n (v := a) h.1, each_bind i hv n (v := b) h.2⟩
  | n, .not a, h => each_bind i hv n (v := a) h
  | n, .try_ a _, h => each_bind i hv n (v := a) h
  | n, .all _ b, h => each_bind i hv _ (v := b) h
  | n, .ex _ b, h => each_bind i hv _ (v := b) h
  | n, .group a, h => each_bind i hv n (v := a) h
  | _, .bool _, _ => trivial
  | n, .ite c a b, h =>
    ⟨each_bind i hv n (v := c) h.1, each_bind i hv n (v := a) h.2.1, each_bind i hv n (v := b) h.2.2⟩
  | n, .match_ s cs, h => ⟨each_bind i hv n (v := s) h.1, each_bindCases i hv n (cs := cs) h.2⟩

theorem each_bindAll (i : Nat) {vals : List Value} (hv : EachConstAll P vals) : ∀ (n : Nat) {vs : List Value},
    EachConstAll P vs → EachConstAll P (Value.bindValuesAll i n vals vs)
  | _, [], _ => trivial
  | n, v :: vs, h => ⟨each_bind i hv n (v := v) h.1, each_bindAll i hv n (vs := vs) h.2⟩

theorem each_bindCases (i : Nat) {vals : List Value} (hv : EachConstAll P vals) : ∀ (n : Nat) {cs : List Case},
    EachConstCases P cs → EachConstCases P (Value.bindValuesCases i n vals cs)
  | _, [], _ => trivial
  | n, .mk _ p r _ _ :: cs, h =>
    ⟨each_bind i hv _ (v := p) h.1, each_bind i hv _ (v := r) h.2.1, each_bindCases i hv n (cs := cs) h.2.2⟩

end

namespace Struct

variable {s : Struct} {params : List String}

theorem types_length (s : Struct) : s.types.length = s.fields.length := by rw [types, List.length_map]

/-- The functions of the fields. -/
def memberDs (F : Frame.{u}) (C : String → List F.T → F.D) (θ : String → F.T) (s : Struct) (params : List String) : List F.D :=
  s.fields.map fun f => C f.1 (params.map θ)

theorem den_member (θ : String → F.T) (env : List F.D) (T : Ty) (f : String × Ty) (x : Value) :
    F.den C θ env ((member T params f).apply [x]) = F.app (C f.1 (params.map θ)) (F.den C θ env x) := by
  rw [den_apply, member, Frame.den, tys_map_arb]
  rfl

theorem denAll_memberArgs (θ : String → F.T) (env : List F.D) (T : Ty) (x : Value) :
    F.denAll C θ env (s.memberArgs T params x) =
      (memberDs F C θ s params).map fun m => F.app m (F.den C θ env x) := by
  unfold memberArgs memberDs
  induction s.fields with
  | nil => rfl
  | cons f fs ih =>
    simp only [List.map_cons, Frame.denAll, den_member, ih]

theorem stackVars_get : ∀ (k : Nat) (ts : List Ty) (i : Nat) (x : Value),
    (stackVars k ts)[i]? = some x ↔ ∃ t, ts[i]? = some t ∧ x = .var (k + i) t
  | _, [], i, x => by simp [stackVars]
  | k, t :: ts, 0, x => by simp [stackVars, eq_comm]
  | k, t :: ts, i + 1, x => by
    simp only [stackVars, List.getElem?_cons_succ, stackVars_get (k + 1) ts i x]
    rw [show k + 1 + i = k + (i + 1) by omega]

theorem zip_forall {Q : Value → Prop} {g : String × Ty → Value → Value} :
    (∀ v ∈ List.zipWith g s.fields (stackVars 0 s.types), Q v) ↔
      ∀ (i : Nat) f, s.fields[i]? = some f → Q (g f (.var i f.2)) := by
  constructor
  · intro h i f hf
    have hx : (stackVars 0 s.types)[i]? = some (.var i f.2) :=
      (stackVars_get 0 _ i _).2 ⟨f.2, by rw [types, List.getElem?_map, hf]; rfl, by rw [Nat.zero_add]⟩
    refine h _ (List.mem_of_getElem? (i := i) ?_)
    rw [List.getElem?_zipWith, hf, hx]
  · intro h v hv
    obtain ⟨i, hi⟩ := List.getElem?_of_mem hv
    rw [List.getElem?_zipWith] at hi
    cases hf : s.fields[i]? with
    | none => rw [hf] at hi; simp at hi
    | some f =>
      cases hx : (stackVars 0 s.types)[i]? with
      | none => rw [hf, hx] at hi; simp at hi
      | some x =>
        rw [hf, hx] at hi
        simp only [Option.some.injEq] at hi
        obtain ⟨t, ht, e⟩ := (stackVars_get 0 _ i _).1 hx
        rw [types, List.getElem?_map, hf] at ht
        cases ht
        rw [← hi, e, Nat.zero_add]
        exact h i f hf

theorem members_eq (θ : String → F.T) {xs : List F.D} (hx : xs.length = s.fields.length) (d : F.D) :
    ((memberDs F C θ s params).map fun m => F.app m d) = xs ↔
      ∀ (i : Nat) f, s.fields[i]? = some f → F.app (C f.1 (params.map θ)) d = xs.getD i F.undef := by
  constructor
  · rintro rfl i f hf
    rw [List.getD_eq_getElem?_getD, List.getElem?_map, memberDs, List.getElem?_map, hf]
    rfl
  · intro h
    refine List.ext_getElem? fun i => ?_
    rw [List.getElem?_map, memberDs, List.getElem?_map]
    cases hf : s.fields[i]? with
    | none =>
      rw [List.getElem?_eq_none_iff] at hf
      rw [List.getElem?_eq_none_iff.2 (by omega)]
      rfl
    | some f =>
      have hi : i < xs.length := by rw [hx]; exact (List.getElem?_eq_some_iff.1 hf).1
      have := h i f hf
      rw [List.getD_eq_getElem?_getD, List.getElem?_eq_getElem hi] at this
      rw [List.getElem?_eq_getElem hi]
      simp only [Option.map_some, this]
      rfl

theorem den_newApp (θ : String → F.T) {t : Ty} {n : String} {xs rest : List F.D} (hx : xs.length = s.types.length) :
    F.den C θ ([] ++ (xs ++ rest)) ((Value.const n (params.map .arb) t).apply (stackVars 0 s.types)) =
      F.appN (C n (params.map θ)) xs := by
  rw [den_apply, Frame.den, tys_map_arb, show (0 : Nat) = ([] : List F.D).length from rfl, denAll_stackVars θ _ _ _ _ hx]

theorem holds_eta (θ : String → F.T) :
    F.Holds C θ [] (.all [selfType s.name params] (.bin .equals ((s.newFn (selfType s.name params) params).apply
      (s.memberArgs (selfType s.name params) params (.var 0 (selfType s.name params)))) (.var 0 (selfType s.name params)))) ↔
    ∀ d, F.mem d (F.data s.name (params.map θ)) →
      F.appN (C s.new (params.map θ)) ((memberDs F C θ s params).map fun m => F.app m d) = d := by
  rw [holds_all]
  simp only [Frame.tys, ty_selfType]
  have key : ∀ d, F.Holds C θ ([] ++ [d]) (.bin .equals ((s.newFn (selfType s.name params) params).apply
      (s.memberArgs (selfType s.name params) params (.var 0 (selfType s.name params)))) (.var 0 (selfType s.name params))) ↔
      F.appN (C s.new (params.map θ)) ((memberDs F C θ s params).map fun m => F.app m d) = d := by
    intro d
    rw [holds_equals, den_apply, denAll_memberArgs, newFn]
    simp only [Frame.den, tys_map_arb]
    rfl
  constructor
  · intro h d hd
    exact (key d).1 (h [d] (fits_single.2 ⟨d, rfl, hd⟩))
  · intro h zs hz
    obtain ⟨d, rfl, hd⟩ := fits_single.1 hz
    exact (key d).2 (h d hd)

theorem holds_fields (θ : String → F.T) :
    (∀ v ∈ List.zipWith (fun f x => Value.all s.types (.bin .equals ((member (selfType s.name params) params f).apply
      [(s.newFn (selfType s.name params) params).apply (stackVars 0 s.types)]) x)) s.fields (stackVars 0 s.types),
      F.Holds C θ [] v) ↔
    ∀ xs, F.Fits xs (F.tys θ s.types) →
      (memberDs F C θ s params).map (fun m => F.app m (F.appN (C s.new (params.map θ)) xs)) = xs := by
  rw [zip_forall]
  simp only [holds_all, holds_equals, den_member]
  have key : ∀ xs, F.Fits xs (F.tys θ s.types) →
      F.den C θ ([] ++ xs) ((s.newFn (selfType s.name params) params).apply (stackVars 0 s.types)) =
        F.appN (C s.new (params.map θ)) xs := by
    intro xs hx
    have := den_newApp (C := C) (s := s) (params := params) (n := s.new) (t := Ty.functional s.types (selfType s.name params))
      (rest := []) θ (fits_tysLength hx)
    rw [List.append_nil] at this
    exact this
  constructor
  · intro h xs hx
    refine (members_eq θ (by rw [fits_tysLength hx, types_length]) _).2 fun i f hf => ?_
    have := h i f hf xs hx
    rw [key xs hx] at this
    exact this
  · intro h i f hf xs hx
    rw [key xs hx]
    exact (members_eq θ (by rw [fits_tysLength hx, types_length]) _).1 (h xs hx) i f hf

theorem each_member {T x} {f : String × Ty} (h : P f.1 (params.map .arb) (Ty.functional [T] f.2)) (hx : EachConst P x) :
    EachConst P ((member T params f).apply [x]) := each_apply h ⟨hx, trivial⟩

theorem each_memberArgs {T x} (h : ∀ f ∈ s.fields, P f.1 (params.map .arb) (Ty.functional [T] f.2)) (hx : EachConst P x) :
    EachConstAll P (s.memberArgs T params x) := by
  refine eachAll_iff.2 fun v hv => ?_
  obtain ⟨f, hf, rfl⟩ := List.mem_map.1 hv
  exact each_member (h f hf) hx

theorem noVar_types (h : ∀ f ∈ s.fields, ∀ p, f.2.hasVar p = false) (p : String) : Ty.hasVarAny p s.types = false := by
  refine hasVarAny_false fun t ht => ?_
  obtain ⟨f, hf, rfl⟩ := List.mem_map.1 ht
  exact h f hf p

theorem member_generic (h : ∀ f ∈ s.fields, ∀ p, f.2.hasVar p = false) : ∀ f ∈ s.fields,
    SameGeneric F C params f.1 (params.map .arb) (Ty.functional [selfType s.name params] f.2) := by
  intro f hf
  refine arb_generic fun p => ?_
  rw [hasVar_functional, Ty.hasVarAny, selfType_noVar, Ty.hasVarAny, h f hf p]
  rfl

theorem new_generic (h : ∀ f ∈ s.fields, ∀ p, f.2.hasVar p = false) {n : String} {t : Ty} (ht : ∀ p, t.hasVar p = false) :
    SameGeneric F C params n (params.map .arb) (Ty.functional s.types t) := by
  refine arb_generic fun p => ?_
  rw [hasVar_functional, noVar_types h p, ht p]
  rfl

/-- The facts of a structure without a constraint hold exactly when its objects are the tuples. -/
theorem plainFacts_iff (θ : String → F.T) (hv : ∀ f ∈ s.fields, ∀ p, f.2.hasVar p = false) :
    (∀ f ∈ s.plainFacts params, F.Holds C θ [] f) ↔
      Tuples F (F.data s.name (params.map θ)) (F.tys θ s.types) (C s.new (params.map θ)) (memberDs F C θ s params) := by
  have hm := member_generic (F := F) (C := C) (params := params) hv
  have hn := new_generic (F := F) (C := C) (params := params) (n := s.new) hv (selfType_noVar s.name params)
  have gen : ∀ v, EachConst (SameGeneric F C params) v → (F.Holds C θ [] (v.genericize params) ↔ F.Holds C θ [] v) :=
    fun v hv => by rw [Frame.Holds, den_genericize θ [] v hv, Frame.Holds]
  have e : (∀ f ∈ s.plainFacts params, F.Holds C θ [] f) ↔ ∀ f ∈ s.facts params, F.Holds C θ [] f := by
    rw [plainFacts]
    simp only [List.forall_mem_map]
    refine forall_congr' fun v => imp_congr_right fun hv => gen v ?_
    simp only [facts, List.mem_cons] at hv
    rcases hv with rfl | hv
    · exact ⟨each_apply hn (each_memberArgs hm trivial), trivial⟩
    · revert v
      refine zip_forall.2 fun i f hf => ?_
      exact ⟨each_member (hm f (List.mem_of_getElem? hf)) (each_apply hn (each_stackVars _ _)), trivial⟩
  rw [e, facts]
  simp only [List.mem_cons, forall_eq_or_imp]
  rw [holds_eta, holds_fields]
  exact ⟨fun h => ⟨h.2, h.1⟩, fun h => ⟨h.eta, h.fields⟩⟩

/-! ### Constraints -/

theorem holds_constraintDef (θ : String → F.T) (c : Value) :
    F.Holds C θ [] (s.constraintDef params c) ↔ ∀ xs, F.Fits xs (F.tys θ s.types) →
      F.appN (C s.constraintFn (params.map θ)) xs = F.den C θ xs c := by
  rw [constraintDef, holds_all]
  refine forall_congr' fun xs => imp_congr_right fun hx => ?_
  have := den_newApp (C := C) (s := s) (params := params) (n := s.constraintFn) (t := Ty.functional s.types .bool)
    (rest := []) θ (fits_tysLength hx)
  rw [List.append_nil] at this
  rw [holds_equals, constraintValue, this]
  rfl

theorem memberArgs_names {T x : _} (n : String) : n ∈ typeNamesAll (s.memberArgs T params x) →
    n ∈ params ∨ n ∈ tyNames T ∨ (∃ f ∈ s.fields, n ∈ tyNames f.2) ∨ n ∈ typeNames x := by
  unfold memberArgs
  induction s.fields with
  | nil => intro h; cases h
  | cons f fs ih =>
    intro h
    simp only [List.map_cons, typeNamesAll, List.mem_append] at h
    rcases h with h | h
    · have e : (member T params f).apply [x] = .app (member T params f) [x] := rfl
      rw [e] at h
      simp only [typeNames, member, typeNamesAll, List.mem_append, List.append_nil, tyNames_functional, tysNames] at h
      rcases h with (h | h | h) | h
      · left
        have : ∀ ps : List String, n ∈ tysNames (ps.map .arb) → n ∈ ps := by
          intro ps
          induction ps with
          | nil => intro h; cases h
          | cons q ps ih =>
            intro h
            simp only [List.map_cons, tysNames, tyNames, List.mem_append, List.mem_singleton] at h
            rcases h with h | h
            · exact h ▸ List.mem_cons_self
            · exact List.mem_cons_of_mem _ (ih h)
        exact this params h
      · exact .inr (.inl h)
      · exact .inr (.inr (.inl ⟨f, List.mem_cons_self, h⟩))
      · exact .inr (.inr (.inr h))
    · rcases ih h with h | h | ⟨g, hg, h⟩ | h
      · exact .inl h
      · exact .inr (.inl h)
      · exact .inr (.inr (.inl ⟨g, List.mem_cons_of_mem _ hg, h⟩))
      · exact .inr (.inr (.inr h))

theorem names_selfType {n name : String} : n ∈ tyNames (selfType name params) → n ∈ params := by
  rw [selfType, tyNames]
  have : ∀ ps : List String, n ∈ tysNames (ps.map .arb) → n ∈ ps := by
    intro ps
    induction ps with
    | nil => intro h; cases h
    | cons q ps ih =>
      intro h
      simp only [List.map_cons, tysNames, tyNames, List.mem_append, List.mem_singleton] at h
      rcases h with h | h
      · exact h ▸ List.mem_cons_self
      · exact List.mem_cons_of_mem _ (ih h)
  exact this params

theorem holds_constraintFact (θ : String → F.T) (c : Value)
    (hb : ∀ n ∈ boundNames c, n ∉ params ∧ ∀ f ∈ s.fields, n ∉ tyNames f.2) :
    F.Holds C θ [] (s.constraintFact params c) ↔ ∀ d, F.mem d (F.data s.name (params.map θ)) →
      F.Holds C θ ((memberDs F C θ s params).map fun m => F.app m d) c := by
  rw [constraintFact, holds_all]
  simp only [Frame.tys, ty_selfType]
  have key : ∀ d, F.Holds C θ ([] ++ [d]) ((c.insertStack 0 1).bindValues 1 1
      (s.memberArgs (selfType s.name params) params (.var 0 (selfType s.name params)))) ↔
      F.Holds C θ ((memberDs F C θ s params).map fun m => F.app m d) c := by
    intro d
    have h1 := den_bindValues (C := C) θ [d] [] (s.memberArgs (selfType s.name params) params (.var 0 (selfType s.name params)))
      (c.insertStack 0 1) (by
        intro n hn h
        rw [bound_insert] at hn
        have := hb n hn
        rcases memberArgs_names n h with h | h | ⟨f, hf, h⟩ | h
        · exact this.1 h
        · exact this.1 (names_selfType h)
        · exact this.2 f hf h
        · exact this.1 (names_selfType h))
    simp only [List.append_nil, List.length_singleton, List.length_nil, Nat.add_zero] at h1
    have h2 := den_insertStack (C := C) θ [] [d] (F.denAll C θ [d] (s.memberArgs (selfType s.name params) params
      (.var 0 (selfType s.name params)))) c
    simp only [List.nil_append, List.length_singleton, List.length_nil] at h2
    rw [Frame.Holds, List.nil_append, h1, h2, denAll_memberArgs, Frame.den]
    rfl
  constructor
  · intro h d hd
    exact (key d).1 (h [d] (fits_single.2 ⟨d, rfl, hd⟩))
  · intro h zs hz
    obtain ⟨d, rfl, hd⟩ := fits_single.1 hz
    exact (key d).2 (h d hd)

/-- What the facts about `new` say one by one. -/
def OptionFacts (F : Frame.{u}) (t : F.T) (ts : List F.T) (members : List F.D) (constr new some_ none_ : F.D) : Prop :=
  (∀ xs, F.Fits xs ts → F.appN constr xs = F.tt → ∃ d, F.mem d t ∧ F.appN new xs = F.app some_ d) ∧
  (∀ xs d, F.Fits xs ts → F.mem d t → F.appN new xs = F.app some_ d → (members.map fun m => F.app m d) = xs) ∧
  (∀ xs, F.Fits xs ts → F.appN constr xs ≠ F.tt → F.appN new xs = none_) ∧
  ∀ d, F.mem d t → F.appN new (members.map fun m => F.app m d) = F.app some_ d

theorem holds_optionFacts (θ : String → F.T) (o sm nn : String) :
    (∀ v ∈ s.optionFacts params o sm nn, F.Holds C θ [] v) ↔
      OptionFacts F (F.data s.name (params.map θ)) (F.tys θ s.types) (memberDs F C θ s params)
        (C s.constraintFn (params.map θ)) (C s.new (params.map θ)) (C sm [F.data s.name (params.map θ)])
        (C nn [F.data s.name (params.map θ)]) := by
  have hnew : ∀ xs rest, F.Fits xs (F.tys θ s.types) →
      F.den C θ (xs ++ rest) ((s.newOption (selfType s.name params) params o).apply (stackVars 0 s.types)) =
        F.appN (C s.new (params.map θ)) xs := fun xs rest hx =>
    den_newApp (C := C) (s := s) (params := params) (n := s.new) (rest := rest) θ (fits_tysLength hx)
  have hcon : ∀ xs rest, F.Fits xs (F.tys θ s.types) →
      F.den C θ (xs ++ rest) ((s.constraintValue params).apply (stackVars 0 s.types)) =
        F.appN (C s.constraintFn (params.map θ)) xs := fun xs rest hx =>
    den_newApp (C := C) (s := s) (params := params) (n := s.constraintFn) (rest := rest) θ (fits_tysLength hx)
  have hconst : ∀ n t env, F.den C θ env (.const n [selfType s.name params] t) = C n [F.data s.name (params.map θ)] := by
    intro n t env
    rw [Frame.den]
    simp only [Frame.tys, ty_selfType]
  have hsome : ∀ xs d t, F.Fits xs (F.tys θ s.types) →
      F.den C θ (xs ++ [d]) ((Value.const sm [selfType s.name params] t).apply [.var s.types.length (selfType s.name params)]) =
        F.app (C sm [F.data s.name (params.map θ)]) d := by
    intro xs d t hx
    rw [den_apply, hconst]
    simp only [Frame.denAll, Frame.den, ← fits_tysLength hx]
    simp [Frame.appN]
  unfold optionFacts
  simp only [List.cons_append, List.mem_cons, List.mem_append, List.not_mem_nil, or_false, or_imp, forall_and, forall_eq]
  unfold OptionFacts
  refine and_congr ?_ (and_congr ?_ (and_congr ?_ ?_))
  · rw [holds_all]
    refine forall_congr' fun xs => imp_congr_right fun hx => ?_
    rw [holds_implies, Frame.Holds]
    have h1 := hcon xs [] hx
    rw [List.append_nil] at h1
    rw [List.nil_append, h1]
    refine imp_congr_right fun _ => ?_
    rw [holds_ex]
    simp only [Frame.tys, ty_selfType]
    constructor
    · rintro ⟨zs, hz, h⟩
      obtain ⟨d, rfl, hd⟩ := fits_single.1 hz
      rw [holds_equals, hnew xs _ hx, hsome xs d _ hx] at h
      exact ⟨d, hd, h⟩
    · rintro ⟨d, hd, h⟩
      refine ⟨[d], fits_single.2 ⟨d, rfl, hd⟩, ?_⟩
      rw [holds_equals, hnew xs _ hx, hsome xs d _ hx]
      exact h
  · rw [zip_forall]
    simp only [holds_all, tys_append]
    have key : ∀ (i : Nat) f xs d, s.fields[i]? = some f → F.Fits xs (F.tys θ s.types) →
        (F.Holds C θ ([] ++ (xs ++ [d])) (.bin .implies (.bin .equals
          ((s.newOption (selfType s.name params) params o).apply (stackVars 0 s.types))
          ((Value.const sm [selfType s.name params] (Ty.functional [selfType s.name params]
            (.data o [selfType s.name params]))).apply [.var s.types.length (selfType s.name params)]))
          (.bin .equals ((member (selfType s.name params) params f).apply
            [.var s.types.length (selfType s.name params)]) (.var i f.2))) ↔
        (F.appN (C s.new (params.map θ)) xs = F.app (C sm [F.data s.name (params.map θ)]) d →
          F.app (C f.1 (params.map θ)) d = xs.getD i F.undef)) := by
      intro i f xs d hf hx
      rw [List.nil_append, holds_implies, holds_equals, hnew xs _ hx, hsome xs d _ hx, holds_equals, den_member]
      have hi : i < xs.length := by
        rw [fits_tysLength hx, types_length]
        exact (List.getElem?_eq_some_iff.1 hf).1
      simp only [Frame.den, ← fits_tysLength hx]
      simp only [List.getD_eq_getElem?_getD, List.getElem?_append_left hi,
        List.getElem?_append_right (Nat.le_refl _), Nat.sub_self, List.getElem?_cons_zero, Option.getD_some]
    constructor
    · intro h xs d hx hd e
      refine (members_eq θ (by rw [fits_tysLength hx, types_length]) _).2 fun i f hf => ?_
      refine (key i f xs d hf hx).1 (h i f hf _ (Fits.append hx ?_)) e
      simp only [Frame.tys, ty_selfType]
      exact fits_single.2 ⟨d, rfl, hd⟩
    · intro h i f hf zs hz
      obtain ⟨xs, ys, rfl, hx, hy⟩ := Fits.split hz
      simp only [Frame.tys, ty_selfType] at hy
      obtain ⟨d, rfl, hd⟩ := fits_single.1 hy
      exact (key i f xs d hf hx).2 fun e =>
        (members_eq θ (by rw [fits_tysLength hx, types_length]) _).1 (h xs d hx hd e) i f hf
  · rw [holds_all]
    refine forall_congr' fun xs => imp_congr_right fun hx => ?_
    have h1 := hcon xs [] hx
    have h2 := hnew xs [] hx
    rw [List.append_nil] at h1 h2
    rw [List.nil_append, holds_implies, holds_negate, Frame.Holds, h1, holds_equals, h2, hconst]
  · rw [holds_all]
    simp only [Frame.tys, ty_selfType]
    have key : ∀ d, F.Holds C θ ([] ++ [d]) (.bin .equals ((s.newOption (selfType s.name params) params o).apply
        (s.memberArgs (selfType s.name params) params (.var 0 (selfType s.name params))))
        ((Value.const sm [selfType s.name params] (Ty.functional [selfType s.name params]
            (.data o [selfType s.name params]))).apply [.var 0 (selfType s.name params)])) ↔
        F.appN (C s.new (params.map θ)) ((memberDs F C θ s params).map fun m => F.app m d) =
          F.app (C sm [F.data s.name (params.map θ)]) d := by
      intro d
      rw [holds_equals, den_apply, denAll_memberArgs, newOption, den_apply, hconst]
      simp only [Frame.den, tys_map_arb, Frame.denAll]
      rfl
    constructor
    · intro h d hd
      exact (key d).1 (h [d] (fits_single.2 ⟨d, rfl, hd⟩))
    · intro h zs hz
      obtain ⟨d, rfl, hd⟩ := fits_single.1 hz
      exact (key d).2 (h d hd)

theorem negate_apply_const (n : String) (ps : List Ty) (t : Ty) (as : List Value) :
    ((Value.const n ps t).apply as).negate = .not ((Value.const n ps t).apply as) := by
  cases as <;> rfl

/-- The facts of a structure with a constraint, when there is an option type: the constraint function is
what it is defined to be, and the objects are the tuples that meet the constraint. -/
theorem constrainedFacts_iff (θ : String → F.T) (hv : ∀ f ∈ s.fields, ∀ p, f.2.hasVar p = false) (c : Value)
    (hc : EachConst (fun _ ps t => FullyApplied params ps t) c)
    (hb : ∀ n ∈ boundNames c, n ∉ params ∧ ∀ f ∈ s.fields, n ∉ tyNames f.2) (o sm nn : String)
    (hinj : ∀ d e, F.mem d (F.data s.name (params.map θ)) → F.mem e (F.data s.name (params.map θ)) →
      F.app (C sm [F.data s.name (params.map θ)]) d = F.app (C sm [F.data s.name (params.map θ)]) e → d = e)
    (hne : ∀ d, F.mem d (F.data s.name (params.map θ)) →
      F.app (C sm [F.data s.name (params.map θ)]) d ≠ C nn [F.data s.name (params.map θ)]) :
    (∀ f ∈ s.constrainedFacts params c (some (o, sm, nn)), F.Holds C θ [] f) ↔
      (∀ xs, F.Fits xs (F.tys θ s.types) → F.appN (C s.constraintFn (params.map θ)) xs = F.den C θ xs c) ∧
      TuplesWith F (F.data s.name (params.map θ)) (F.tys θ s.types) (memberDs F C θ s params)
        (fun xs => F.Holds C θ xs c) (C s.new (params.map θ)) (C sm [F.data s.name (params.map θ)])
        (C nn [F.data s.name (params.map θ)]) := by
  have hm := member_generic (F := F) (C := C) (params := params) hv
  have hn := new_generic (F := F) (C := C) (params := params) (n := s.new) (t := .data o [selfType s.name params]) hv (by
    intro p
    rw [Ty.hasVar, Ty.hasVarAny, selfType_noVar]
    rfl)
  have hk := new_generic (F := F) (C := C) (params := params) (n := s.constraintFn) (t := .bool) hv fun _ => rfl
  have hc' : EachConst (SameGeneric F C params) c := EachConst.mono (fun n ps t h θ => constGeneric_meaning θ (.inl h)) hc
  have gen : ∀ v, EachConst (SameGeneric F C params) v → (F.Holds C θ [] (v.genericize params) ↔ F.Holds C θ [] v) :=
    fun v hv => by rw [Frame.Holds, den_genericize θ [] v hv, Frame.Holds]
  rw [constrainedFacts]
  simp only [List.forall_mem_map, List.mem_cons, or_imp, forall_and, forall_eq]
  have hnewv : EachConst (SameGeneric F C params) ((s.newOption (selfType s.name params) params o).apply (stackVars 0 s.types)) :=
    each_apply hn (each_stackVars _ _)
  have hconv : EachConst (SameGeneric F C params) ((s.constraintValue params).apply (stackVars 0 s.types)) :=
    each_apply hk (each_stackVars _ _)
  have hsomev : ∀ (x : Value) t, EachConst (SameGeneric F C params) x →
      EachConst (SameGeneric F C params) ((Value.const sm [selfType s.name params] t).apply [x]) :=
    fun x t hx => each_apply self_generic ⟨hx, trivial⟩
  have e : (∀ v ∈ s.optionFacts params o sm nn, F.Holds C θ [] (v.genericize params)) ↔
      ∀ v ∈ s.optionFacts params o sm nn, F.Holds C θ [] v := by
    refine forall_congr' fun v => imp_congr_right fun hv => gen v ?_
    simp only [optionFacts, List.cons_append, List.mem_cons, List.mem_append, List.not_mem_nil, or_false] at hv
    rcases hv with rfl | hv | rfl | rfl
    · exact ⟨hconv, hnewv, hsomev _ _ trivial⟩
    · revert v
      refine zip_forall.2 fun i f hf => ?_
      exact ⟨⟨hnewv, hsomev _ _ trivial⟩, each_member (hm f (List.mem_of_getElem? hf)) trivial, trivial⟩
    · refine ⟨?_, hnewv, self_generic⟩
      rw [constraintValue, negate_apply_const]
      exact hconv
    · exact ⟨each_apply hn (each_memberArgs hm trivial), hsomev _ _ trivial⟩
  have hfact : EachConst (SameGeneric F C params) (s.constraintFact params c) :=
    each_bind 1 (each_memberArgs (x := .var 0 (selfType s.name params)) hm trivial) 1 (v := c.insertStack 0 1)
      (each_insert _ _ hc')
  rw [e, gen (s.constraintDef params c) ⟨hconv, hc'⟩, gen (s.constraintFact params c) hfact,
    holds_constraintDef, holds_constraintFact θ c hb, holds_optionFacts]
  constructor
  · rintro ⟨h1, h2, h3, h4, h5, h6⟩
    refine ⟨h1, h2, fun xs hx hp => ?_, fun d e hd he hde => ?_, h6, fun xs hx hp => h5 xs hx ?_⟩
    · obtain ⟨d, hd, k⟩ := h3 xs hx (by rw [h1 xs hx]; exact hp)
      exact ⟨d, hd, h4 xs d hx hd k⟩
    · exact hinj d e hd he (by rw [← h6 d hd, ← h6 e he, hde])
    · rw [h1 xs hx]; exact hp
  · rintro ⟨h1, h⟩
    refine ⟨h1, h.meets, fun xs hx hp => ?_, fun xs d hx hd k => ?_, fun xs hx hp => h.none_new xs hx ?_, h.some_new⟩
    · rw [h1 xs hx] at hp
      obtain ⟨d, hd, k⟩ := h.all xs hx hp
      exact ⟨d, hd, by rw [← h.some_new d hd, k]⟩
    · by_cases hp : F.Holds C θ xs c
      · obtain ⟨e, he, ke⟩ := h.all xs hx hp
        have := h.some_new e he
        rw [ke, k] at this
        rw [hinj d e hd he this]
        exact ke
      · rw [h.none_new xs hx hp] at k
        exact absurd k.symm (hne d hd)
    · rw [h1 xs hx] at hp; exact hp

end Struct
end Elab
end Acorn
