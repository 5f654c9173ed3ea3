/-
Declarations of structures, with and without a constraint, have a model.
-/
import Verif.Lemmas.SetDatatypes
import Verif.Lemmas.StructFacts
namespace Acorn
namespace Elab

open Spec ZFSet
open Spec.SetModel (S U)

noncomputable section

/-! ### What does not mention the declared type keeps its meaning -/

section
variable {data data' : String → List S → S} {C C' : String → List S → S} {name : String} {ns : List String}

theorem ofProp_any {d : String → List S → S} {p q : Prop} (h : p ↔ q) : (setTypes d).ofProp p = (setTypes data).ofProp q := by
  rw [propext h]; rfl

mutual

theorem den_free (h : ∀ d, d ≠ name → data' d = data d) (hC : ∀ n, n ∉ ns → C' n = C n) :
    ∀ (θ : String → S) (env : List S) {v : Value}, ValueFree name ns v → (setTypes data').den C' θ env v = (setTypes data).den C θ env v
  | _, _, .var _ _, _ => rfl
  | θ, env, .const n ps _, k => by
    rw [Frame.den, Frame.den, tys_free h θ k.2, hC n k.1]
  | θ, env, .app f as, k => by
    rw [Frame.den, Frame.den, den_free h hC θ env k.1, denAll_free h hC θ env k.2]
    rfl
  | θ, env, .tapp f xs ts, k => by
    rw [Frame.den, Frame.den, tys_free h θ k.2]
    exact den_free h hC _ env k.1
  | θ, env, .lam ts b, k => by
    rw [Frame.den, Frame.den, tys_free h θ k.1, lamN_any, lamN_any data]
    congr 1; funext xs; exact den_free h hC θ _ k.2
  | θ, env, .bin op a b, k => by
    rw [Frame.den, Frame.den, den_free h hC θ env k.1, den_free h hC θ env k.2]
    cases op <;> rfl
  | θ, env, .not a, k => by
    rw [Frame.den, Frame.den, den_free h hC θ env (v := a) k]
    rfl
  | θ, env, .try_ a t, k => by
    rw [Frame.den, Frame.den]
  | θ, env, .all ts b, k => by
    rw [Frame.den, Frame.den, tys_free h θ k.1]
    refine ofProp_any (forall_congr' fun xs => imp_congr ?_ ?_)
    · rw [fits_any, fits_any data]
    · rw [den_free h hC θ _ k.2]
  | θ, env, .ex ts b, k => by
    rw [Frame.den, Frame.den, tys_free h θ k.1]
    refine ofProp_any (exists_congr fun xs => and_congr ?_ ?_)
    · rw [fits_any, fits_any data]
    · rw [den_free h hC θ _ k.2]
  | θ, env, .group a, k => by
    rw [Frame.den, Frame.den]; exact den_free h hC θ env (v := a) k
  | _, _, .bool _, _ => rfl
  | θ, env, .ite c a b, k => by
    rw [Frame.den, Frame.den, den_free h hC θ env k.1, den_free h hC θ env k.2.1, den_free h hC θ env k.2.2]
  | θ, env, .match_ s cs, k => by
    rw [Frame.den, Frame.den, den_free h hC θ env k.1, denCases_free h hC θ env _ k.2]

theorem denAll_free (h : ∀ d, d ≠ name → data' d = data d) (hC : ∀ n, n ∉ ns → C' n = C n) :
    ∀ (θ : String → S) (env : List S) {vs : List Value}, ValuesFree name ns vs →
      (setTypes data').denAll C' θ env vs = (setTypes data).denAll C θ env vs
  | _, _, [], _ => rfl
  | θ, env, v :: vs, k => by
    rw [Frame.denAll, Frame.denAll, den_free h hC θ env k.1, denAll_free h hC θ env k.2]

theorem denCases_free (h : ∀ d, d ≠ name → data' d = data d) (hC : ∀ n, n ∉ ns → C' n = C n) :
    ∀ (θ : String → S) (env : List S) (x : S) {cs : List Case}, CasesFree name ns cs →
      (setTypes data').denCases C' θ env x cs = (setTypes data).denCases C θ env x cs
  | _, _, _, [], _ => rfl
  | θ, env, x, .mk ts p r i n :: cs, k => by
    rw [Frame.denCases, Frame.denCases, tys_free h θ k.1, denCases_free h hC θ env x k.2.2.2]
    have e1 : (fun xs => (setTypes data').Fits xs ((setTypes data).tys θ ts) ∧ (setTypes data').den C' θ (env ++ xs) p = x) =
        (fun xs => (setTypes data).Fits xs ((setTypes data).tys θ ts) ∧ (setTypes data).den C θ (env ++ xs) p = x) := by
      funext xs
      rw [den_free h hC θ _ k.2.1]
      refine propext (and_congr_left fun _ => ?_)
      rw [fits_any, fits_any data]
    have e2 : (fun xs => (setTypes data').den C' θ (env ++ xs) r) = fun xs => (setTypes data).den C θ (env ++ xs) r := by
      funext xs
      exact den_free h hC θ _ k.2.2.1
    rw [e1, e2]
    rfl

end
end

/-! ### Sets of tuples -/

/-- The tuples of elements of these sets. -/
def prodAll : List S → S
  | [] => {∅}
  | t :: ts => ZFSet.prod t (prodAll ts)

theorem mem_prodAll : ∀ {ts : List S} {d : S}, d ∈ prodAll ts ↔ ∃ xs, E0.Fits xs ts ∧ d = SetModel.tuple xs
  | [], d => by
    rw [prodAll, mem_singleton]
    constructor
    · rintro rfl; exact ⟨[], trivial, rfl⟩
    · rintro ⟨xs, hx, rfl⟩
      match xs, hx with
      | [], _ => rfl
  | t :: ts, d => by
    rw [prodAll, mem_prod]
    constructor
    · rintro ⟨a, ha, b, hb, rfl⟩
      obtain ⟨xs, hx, rfl⟩ := mem_prodAll.1 hb
      exact ⟨a :: xs, ⟨ha, hx⟩, rfl⟩
    · rintro ⟨xs, hx, rfl⟩
      match xs, hx with
      | x :: xs, hx => exact ⟨x, hx.1, _, mem_prodAll.2 ⟨xs, hx.2, rfl⟩, rfl⟩

theorem prodAll_small : ∀ {ts : List S}, (∀ t ∈ ts, t ∈ U) → prodAll ts ∈ U
  | [], _ => SetModel.U_subset (SetModel.U_powerset SetModel.U_empty) (by
      intro x hx
      rw [mem_powerset, mem_singleton.1 hx])
  | t :: _, h => SetModel.U_prod (h t (List.mem_cons_self ..)) (prodAll_small fun u hu => h u (List.mem_cons_of_mem _ hu))

open Classical in
/-- The list of a tuple. -/
def untuple (d : S) : List S := if h : ∃ xs, d = SetModel.tuple xs then choose h else []

theorem untuple_tuple (xs : List S) : untuple (SetModel.tuple xs) = xs := by
  have h : ∃ ys, SetModel.tuple xs = SetModel.tuple ys := ⟨xs, rfl⟩
  rw [untuple, dif_pos h]
  exact (SetModel.tuple_inj (Classical.choose_spec h)).symm

/-! ### The model of a structure -/

namespace Struct

variable (data : String → List S → S) (C : String → List S → S) (s : Struct) (params : List String)
  (P : List S → List S → Prop) (new con : List S → S)

/-- The datatypes, with the declared one as the set of the tuples with `P`. -/
def declData : String → List S → S := fun d ts =>
  open Classical in
  if d = s.name then ZFSet.sep (fun x => ∃ xs, x = SetModel.tuple xs ∧ P ts xs)
    (prodAll ((setTypes data).tys (paramsAre params ts) s.types))
  else data d ts

open Classical in
/-- The constants, with those of the structure. -/
def declConst : String → List S → S := fun n ts =>
  if n = s.new then new ts
  else if n = s.constraintFn then con ts
  else if h : ∃ (i : Nat) (f : String × Ty), s.fields[i]? = some f ∧ f.1 = n then
    SetModel.lam (declData data s params P s.name ts) fun d => (untuple d).getD (choose h) ∅
  else C n ts

/-- The names of the constants a structure declares. -/
def names (s : Struct) : List String := s.new :: s.constraintFn :: s.fields.map (·.1)

variable {data C s params P new con}

theorem declData_other {d : String} (h : d ≠ s.name) : declData data s params P d = data d := by
  funext ts
  rw [declData, if_neg h]

theorem declConst_other {n : String} (h : n ∉ names s) : declConst data C s params P new con n = C n := by
  funext ts
  simp only [names, List.mem_cons, List.mem_map, not_or] at h
  rw [declConst, if_neg h.1, if_neg h.2.1, dif_neg]
  rintro ⟨i, f, hf, rfl⟩
  exact h.2.2 ⟨f, List.mem_of_getElem? hf, rfl⟩

variable (ho : ∀ f ∈ s.fields, TyOver params f.2) (hf : ∀ f ∈ s.fields, TyFree s.name f.2)

include ho in
theorem over_types : TyOverAll params s.types := overAll_iff.2 fun t ht => by
  obtain ⟨f, h, rfl⟩ := List.mem_map.1 ht
  exact ho f h

theorem freeAll_iff {name : String} : ∀ {ts : List Ty}, TyFreeAll name ts ↔ ∀ t ∈ ts, TyFree name t
  | [] => ⟨fun _ _ h => (by cases h), fun _ => trivial⟩
  | t :: ts => by
    rw [TyFreeAll, freeAll_iff (ts := ts), List.forall_mem_cons]

include hf in
theorem free_types : TyFreeAll s.name s.types := freeAll_iff.2 fun t ht => by
  obtain ⟨f, h, rfl⟩ := List.mem_map.1 ht
  exact hf f h

include ho in
theorem declData_small (hs : SmallData data) : SmallData (declData data s params P) := by
  intro d ts ht
  unfold declData
  split
  · exact SetModel.U_subset (prodAll_small (tys_small hs (fun p _ => paramsAre_small ht p) (over_types ho)))
      fun x hx => (mem_sep.1 hx).1
  · exact hs d ts ht

include ho hf in
theorem tys_decl (θ : String → S) : (setTypes (declData data s params P)).tys θ s.types =
    (setTypes data).tys (paramsAre params (params.map θ)) s.types := by
  rw [tys_free (fun d hd => declData_other hd) θ (free_types hf)]
  exact tys_over (F := setTypes data) (fun p hp => (paramsAre_map θ hp).symm) (over_types ho)

include ho hf in
theorem mem_decl (θ : String → S) {d : S} : d ∈ declData data s params P s.name (params.map θ) ↔
    ∃ xs, d = SetModel.tuple xs ∧ E0.Fits xs ((setTypes (declData data s params P)).tys θ s.types) ∧ P (params.map θ) xs := by
  rw [tys_decl ho hf θ, declData, if_pos rfl, mem_sep, mem_prodAll]
  constructor
  · rintro ⟨⟨xs, hx, rfl⟩, ys, e, hp⟩
    cases SetModel.tuple_inj e
    exact ⟨xs, rfl, hx, hp⟩
  · rintro ⟨xs, rfl, hx, hp⟩
    exact ⟨⟨xs, hx, rfl⟩, xs, rfl, hp⟩

theorem declConst_field (hn : (names s).Nodup) {i : Nat} {f : String × Ty} (hi : s.fields[i]? = some f) (ts : List S) :
    declConst data C s params P new con f.1 ts =
      SetModel.lam (declData data s params P s.name ts) fun d => (untuple d).getD i ∅ := by
  have h : ∃ (j : Nat) (g : String × Ty), s.fields[j]? = some g ∧ g.1 = f.1 := ⟨i, f, hi, rfl⟩
  simp only [names, List.nodup_cons, List.mem_cons, List.mem_map, not_or] at hn
  have h1 : f.1 ≠ s.new := fun e => hn.1.2 ⟨f, List.mem_of_getElem? hi, e⟩
  have h2 : f.1 ≠ s.constraintFn := fun e => hn.2.1 ⟨f, List.mem_of_getElem? hi, e⟩
  rw [declConst, if_neg h1, if_neg h2, dif_pos h]
  obtain ⟨g, h3, h4⟩ := Classical.choose_spec h
  revert h3
  generalize Classical.choose h = k
  intro h3
  have e : k = i := by
    refine (List.getElem?_inj (l := s.fields.map (·.1)) ?_ hn.2.2).1 ?_
    · rw [List.length_map]; exact (List.getElem?_eq_some_iff.1 h3).1
    · rw [List.getElem?_map, List.getElem?_map, h3, hi]
      simp only [Option.map_some, h4]
  rw [e]

include ho hf in
theorem members_tuple (hn : (names s).Nodup) (θ : String → S) {xs : List S}
    (hx : E0.Fits xs ((setTypes (declData data s params P)).tys θ s.types)) (hp : P (params.map θ) xs) :
    (memberDs (setTypes (declData data s params P)) (declConst data C s params P new con) θ s params).map
      (fun m => SetModel.app m (SetModel.tuple xs)) = xs := by
  have hl : xs.length = s.fields.length := by
    rw [(fits_iff.1 hx).1, tys_length, types, List.length_map]
  refine (members_eq (F := setTypes _) θ hl _).2 fun i f hi => ?_
  rw [declConst_field hn hi]
  show SetModel.app _ _ = _
  rw [SetModel.app_lam ((mem_decl ho hf θ).2 ⟨xs, rfl, hx, hp⟩), untuple_tuple]

include ho hf in
/-- The functions of the fields have their types. -/
theorem member_typed (hn : (names s).Nodup) (θ : String → S) : ∀ f ∈ s.fields,
    declConst data C s params P new con f.1 (params.map θ) ∈
      SetModel.pi (declData data s params P s.name (params.map θ)) fun _ => (setTypes (declData data s params P)).ty θ f.2 := by
  intro f hfs
  obtain ⟨i, hi⟩ := List.getElem?_of_mem hfs
  rw [declConst_field hn hi]
  refine SetModel.lam_mem_pi fun d hd => ?_
  obtain ⟨xs, rfl, hx, hp⟩ := (mem_decl ho hf θ).1 hd
  rw [untuple_tuple]
  have hlt : i < xs.length := by
    rw [(fits_iff.1 hx).1, tys_length, types, List.length_map]
    exact (List.getElem?_eq_some_iff.1 hi).1
  rw [List.getD_eq_getElem?_getD, List.getElem?_eq_getElem hlt]
  refine (fits_iff.1 hx).2 i _ _ ?_ (List.getElem?_eq_getElem hlt)
  rw [tys_getElem, types, List.getElem?_map, hi]
  rfl

/-! Without a constraint -/

include ho hf in
theorem plain_model (hn : (names s).Nodup) (θ : String → S)
    (hnew : ∀ xs, E0.Fits xs ((setTypes (declData data s params P)).tys θ s.types) →
      E0.appN (new (params.map θ)) xs = SetModel.tuple xs) (hP : ∀ ts xs, P ts xs) :
    Tuples (setTypes (declData data s params P)) (declData data s params P s.name (params.map θ))
      ((setTypes (declData data s params P)).tys θ s.types) (declConst data C s params P new con s.new (params.map θ))
      (memberDs (setTypes (declData data s params P)) (declConst data C s params P new con) θ s params) := by
  have hc : declConst data C s params P new con s.new (params.map θ) = new (params.map θ) := by
    rw [declConst, if_pos rfl]
  rw [hc]
  constructor
  · intro xs hx
    rw [fits_any] at hx
    have := members_tuple (C := C) (new := new) (con := con) ho hf hn θ hx (hP _ _)
    rw [← hnew xs hx] at this
    exact this
  · intro d hd
    obtain ⟨xs, rfl, hx, hp⟩ := (mem_decl ho hf θ).1 hd
    show E0.appN _ ((memberDs (setTypes (declData data s params P)) (declConst data C s params P new con) θ s params).map fun m => SetModel.app m (SetModel.tuple xs)) = _
    rw [members_tuple ho hf hn θ hx hp]
    exact hnew xs hx

/-! With a constraint -/

include ho hf in
theorem constrained_model (hn : (names s).Nodup) (θ : String → S) (sm nn : S)
    (hnew : ∀ xs, E0.Fits xs ((setTypes (declData data s params P)).tys θ s.types) →
      (P (params.map θ) xs → E0.appN (new (params.map θ)) xs = SetModel.app sm (SetModel.tuple xs)) ∧
      (¬ P (params.map θ) xs → E0.appN (new (params.map θ)) xs = nn)) :
    TuplesWith (setTypes (declData data s params P)) (declData data s params P s.name (params.map θ))
      ((setTypes (declData data s params P)).tys θ s.types)
      (memberDs (setTypes (declData data s params P)) (declConst data C s params P new con) θ s params)
      (P (params.map θ)) (declConst data C s params P new con s.new (params.map θ)) sm nn := by
  have hc : declConst data C s params P new con s.new (params.map θ) = new (params.map θ) := by
    rw [declConst, if_pos rfl]
  rw [hc]
  have key : ∀ d, d ∈ declData data s params P s.name (params.map θ) → ∃ xs, d = SetModel.tuple xs ∧
      E0.Fits xs ((setTypes (declData data s params P)).tys θ s.types) ∧ P (params.map θ) xs ∧
      (memberDs (setTypes (declData data s params P)) (declConst data C s params P new con) θ s params).map
        (fun m => SetModel.app m d) = xs := by
    intro d hd
    obtain ⟨xs, rfl, hx, hp⟩ := (mem_decl ho hf θ).1 hd
    exact ⟨xs, rfl, hx, hp, members_tuple ho hf hn θ hx hp⟩
  refine ⟨?_, ?_, ?_, ?_, ?_⟩
  · intro d hd
    obtain ⟨xs, rfl, hx, hp, e⟩ := key d hd
    show P _ ((memberDs (setTypes (declData data s params P)) (declConst data C s params P new con) θ s params).map fun m => SetModel.app m (SetModel.tuple xs))
    rw [e]; exact hp
  · intro xs hx hp
    rw [fits_any] at hx
    exact ⟨SetModel.tuple xs, (mem_decl ho hf θ).2 ⟨xs, rfl, hx, hp⟩, members_tuple ho hf hn θ hx hp⟩
  · intro d e hd he h
    obtain ⟨xs, rfl, hx, hp, e1⟩ := key d hd
    obtain ⟨ys, rfl, hy, hq, e2⟩ := key e he
    have h : (memberDs (setTypes (declData data s params P)) (declConst data C s params P new con) θ s params).map
        (fun m => SetModel.app m (SetModel.tuple xs)) = (memberDs (setTypes (declData data s params P))
        (declConst data C s params P new con) θ s params).map (fun m => SetModel.app m (SetModel.tuple ys)) := h
    rw [e1, e2] at h
    rw [h]
  · intro d hd
    obtain ⟨xs, rfl, hx, hp, e⟩ := key d hd
    show E0.appN _ ((memberDs (setTypes (declData data s params P)) (declConst data C s params P new con) θ s params).map fun m => SetModel.app m (SetModel.tuple xs)) = _
    rw [e]
    exact (hnew xs hx).1 hp
  · intro xs hx hp
    rw [fits_any] at hx
    exact (hnew xs hx).2 hp

end Struct

end
end Elab
end Acorn
