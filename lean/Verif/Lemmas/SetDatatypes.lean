/-
Accepted declarations of inductive types whose type occurs only directly have a model.
-/
import Verif.Lemmas.SetBuilt
import Verif.Lemmas.DatatypeFacts
namespace Acorn
namespace Elab

open Spec
open Spec.SetModel (S U)

noncomputable section

/-! ### Types in frames of sets -/

mutual

theorem ty_free {data data' : String → List S → S} {name : String} (h : ∀ d, d ≠ name → data' d = data d) (θ : String → S) :
    ∀ {t : Ty}, TyFree name t → (setTypes data').ty θ t = (setTypes data).ty θ t
  | .bool, _ => rfl
  | .data d as, k => by
    rw [Frame.ty, Frame.ty, tys_free h θ k.2]
    show data' d _ = data d _
    rw [h d k.1]
  | .fn as r, k => by
    rw [Frame.ty, Frame.ty, tys_free h θ k.1, ty_free h θ k.2, fnN_any, fnN_any data]
  | .tvar _, _ => rfl
  | .arb _, _ => rfl
  | .type0, _ => rfl
  | .constraint _, _ => rfl

theorem tys_free {data data' : String → List S → S} {name : String} (h : ∀ d, d ≠ name → data' d = data d) (θ : String → S) :
    ∀ {ts : List Ty}, TyFreeAll name ts → (setTypes data').tys θ ts = (setTypes data).tys θ ts
  | [], _ => rfl
  | t :: ts, k => by
    rw [Frame.tys, Frame.tys, ty_free h θ k.1, tys_free h θ k.2]

end

mutual

theorem ty_over {F : Frame} {θ θ' : String → F.T} {params : List String} (h : ∀ p ∈ params, θ p = θ' p) :
    ∀ {t : Ty}, TyOver params t → F.ty θ t = F.ty θ' t
  | .bool, _ => rfl
  | .data d as, k => by rw [Frame.ty, Frame.ty, tys_over h k]
  | .fn as r, k => by rw [Frame.ty, Frame.ty, tys_over h k.1, ty_over h k.2]
  | .arb n, k => h n k

theorem tys_over {F : Frame} {θ θ' : String → F.T} {params : List String} (h : ∀ p ∈ params, θ p = θ' p) :
    ∀ {ts : List Ty}, TyOverAll params ts → F.tys θ ts = F.tys θ' ts
  | [], _ => rfl
  | t :: ts, k => by rw [Frame.tys, Frame.tys, ty_over h k.1, tys_over h k.2]

end

theorem fnN_small : ∀ {ts : List S} {r : S}, (∀ t ∈ ts, t ∈ U) → r ∈ U → E0.fnN ts r ∈ U
  | [], _, _, hr => hr
  | t :: _, _, h, hr => SetModel.U_pi (h t (List.mem_cons_self ..)) fun _ _ =>
      fnN_small (fun u hu => h u (List.mem_cons_of_mem _ hu)) hr

mutual

theorem ty_small {data : String → List S → S} (hs : SmallData data) {θ : String → S} {params : List String}
    (h : ∀ p ∈ params, θ p ∈ U) : ∀ {t : Ty}, TyOver params t → (setTypes data).ty θ t ∈ U
  | .bool, _ => SetModel.U_bool
  | .data d as, k => by rw [Frame.ty]; exact hs d _ (tys_small hs h k)
  | .fn as r, k => by
    rw [Frame.ty, fnN_any]
    exact fnN_small (tys_small hs h k.1) (ty_small hs h k.2)
  | .arb n, k => h n k

theorem tys_small {data : String → List S → S} (hs : SmallData data) {θ : String → S} {params : List String}
    (h : ∀ p ∈ params, θ p ∈ U) : ∀ {ts : List Ty}, TyOverAll params ts → ∀ t ∈ (setTypes data).tys θ ts, t ∈ U
  | [], _, _, ht => by cases ht
  | t :: ts, k, u, hu => by
    rw [Frame.tys] at hu
    rcases List.mem_cons.1 hu with rfl | hu
    · exact ty_small hs h k.1
    · exact tys_small hs h k.2 u hu

end

mutual

theorem free_of_not_contains {name : String} {bs : List Ty} : ∀ {t : Ty}, Ty.containsInd (.data name bs) t = false → TyFree name t
  | .data d as, h => by
    simp only [Ty.containsInd, Bool.or_eq_false_iff, beq_eq_false_iff_ne] at h
    exact ⟨h.1.2, free_of_not_containsAny h.2⟩
  | .fn as r, h => by
    simp only [Ty.containsInd, Bool.or_eq_false_iff] at h
    exact ⟨free_of_not_containsAny h.1.2, free_of_not_contains h.2⟩
  | .bool, _ => trivial
  | .tvar _, _ => trivial
  | .arb _, _ => trivial
  | .type0, _ => trivial
  | .constraint _, _ => trivial

theorem free_of_not_containsAny {name : String} {bs : List Ty} : ∀ {ts : List Ty},
    Ty.containsIndAny (.data name bs) ts = false → TyFreeAll name ts
  | [], _ => trivial
  | t :: ts, h => by
    simp only [Ty.containsIndAny, Bool.or_eq_false_iff] at h
    exact ⟨free_of_not_contains h.1, free_of_not_containsAny h.2⟩

end

/-! ### The signature of a declaration -/

variable (data : String → List S → S) (name : String)

/-- The type of an argument of a constructor. -/
def argOf (θ : String → S) : Ty → SetArg
  | .data d as => if d = name then .self [] else .other ((setTypes data).ty θ (.data d as))
  | .fn as r =>
    match argOf θ r with
    | .self Bs => .self ((setTypes data).tys θ as ++ Bs)
    | .other A => .other (E0.fnN ((setTypes data).tys θ as) A)
  | t => .other ((setTypes data).ty θ t)

variable {data name}

theorem argOf_set {data' : String → List S → S} (h : ∀ d, d ≠ name → data' d = data d) {θ : String → S} {params : List String}
    {lookup : String → Option (List Variance)} : ∀ {t : Ty}, TyDirect name (params.map .arb) t →
      Ty.strictlyPositive lookup (selfType name params) t = true →
      (argOf data name θ t).set (data' name (params.map θ)) = (setTypes data').ty θ t
  | .data d as, k, _ => by
    rw [argOf]
    rcases k with ⟨rfl, rfl⟩ | ⟨hd, hf⟩
    · rw [if_pos rfl]
      show data' d _ = _
      rw [Frame.ty, tys_map_arb]
    · rw [if_neg hd]
      exact (ty_free h θ (t := .data d as) ⟨hd, hf⟩).symm
  | .fn as r, k, hp => by
    simp only [Ty.strictlyPositive, Bool.and_eq_true, Bool.not_eq_true'] at hp
    have ih := argOf_set h (θ := θ) k.2 hp.2
    rw [argOf, Frame.ty, fnN_any, tys_free h θ (free_of_not_containsAny hp.1), ← ih]
    cases argOf data name θ r with
    | self Bs => exact fnN_append (F := E0) _ _ _
    | other A => rfl
  | .bool, _, _ => rfl
  | .tvar _, _, _ => rfl
  | .arb _, _, _ => rfl
  | .type0, _, _ => rfl
  | .constraint _, _, _ => rfl

theorem argOf_over {θ θ' : String → S} {params : List String} (h : ∀ p ∈ params, θ p = θ' p) :
    ∀ {t : Ty}, TyOver params t → argOf data name θ t = argOf data name θ' t
  | .data d as, k => by
    rw [argOf, argOf, ty_over (F := setTypes data) h k]
  | .fn as r, k => by
    rw [argOf, argOf, argOf_over h k.2, tys_over (F := setTypes data) h k.1]
  | .bool, _ => rfl
  | .arb n, k => by rw [argOf, argOf, ty_over (F := setTypes data) h k] <;> simp

theorem argOf_small (hs : SmallData data) {θ : String → S} {params : List String} (h : ∀ p ∈ params, θ p ∈ U) :
    ∀ {t : Ty}, TyOver params t → ∀ A ∈ (argOf data name θ t).parts, A ∈ U
  | .data d as, k, A, hA => by
    rw [argOf] at hA
    split at hA
    · cases hA
    · rw [List.mem_singleton.1 hA]
      exact ty_small hs h (t := .data d as) k
  | .fn as r, k, A, hA => by
    have ih := argOf_small hs h (t := r) k.2
    rw [argOf] at hA
    revert ih hA
    cases argOf data name θ r with
    | self Bs =>
      intro hA ih
      rcases List.mem_append.1 hA with hA | hA
      · exact tys_small hs h k.1 A hA
      · exact ih A hA
    | other B =>
      intro hA ih
      rw [List.mem_singleton.1 hA]
      exact fnN_small (tys_small hs h k.1) (ih B (List.mem_singleton.2 rfl))
  | .bool, _, A, hA => by
    rw [List.mem_singleton.1 hA]; exact SetModel.U_bool
  | .arb n, k, A, hA => by
    rw [List.mem_singleton.1 hA]; exact h n k

/-- The type parameters with the given meanings. -/
def paramsAre (params : List String) (ts : List S) : String → S := fun n => ((params.zip ts).lookup n).getD ∅

theorem paramsAre_map (θ : String → S) : ∀ {params : List String} {p : String}, p ∈ params →
    paramsAre params (params.map θ) p = θ p
  | q :: params, p, h => by
    unfold paramsAre
    simp only [List.map_cons, List.zip_cons_cons, List.lookup_cons]
    by_cases e : p = q
    · subst e; simp
    · rw [show (p == q) = false from beq_eq_false_iff_ne.2 e]
      exact paramsAre_map θ ((List.mem_cons.1 h).resolve_left e)

theorem paramsAre_small : ∀ {params : List String} {ts : List S}, (∀ t ∈ ts, t ∈ U) → ∀ p, paramsAre params ts p ∈ U
  | [], _, _, _ => SetModel.U_empty
  | _ :: _, [], _, _ => SetModel.U_empty
  | q :: params, t :: ts, h, p => by
    unfold paramsAre
    simp only [List.zip_cons_cons, List.lookup_cons]
    cases p == q with
    | true => exact h t (List.mem_cons_self ..)
    | false => exact paramsAre_small (fun u hu => h u (List.mem_cons_of_mem _ hu)) p

variable (data name) (params : List String) (cs : List Con)

/-- The constructors' arguments. -/
def sigOf (ts : List S) : List (List SetArg) :=
  cs.map fun c => c.args.map (argOf data name (paramsAre params ts))

open Classical in
/-- The datatypes, with the declared one as the set of the built values. -/
def declData : String → List S → S := fun d ts =>
  if d = name then
    if h : ∃ D ∈ U, ∀ x, x ∈ D ↔ Built (sigOf data name params cs ts) x then choose h else ∅
  else data d ts

open Classical in
/-- The constants, with the constructors of the declared type. -/
def declConst (C : String → List S → S) : String → List S → S := fun n ts =>
  if h : ∃ (i : Nat) (c : Con), cs[i]? = some c ∧ c.name = n then
    E0.lamN ((setTypes (declData data name params cs)).tys (paramsAre params ts) (choose (choose_spec h)).args)
      (SetModel.code (choose h))
  else C n ts

variable {data name params cs}

theorem declData_other {d : String} (h : d ≠ name) : declData data name params cs d = data d := by
  funext ts
  rw [declData, if_neg h]

theorem declData_small (hs : SmallData data) : SmallData (declData data name params cs) := by
  intro d ts ht
  unfold declData
  split
  · split
    · next h => exact (Classical.choose_spec h).1
    · exact SetModel.U_empty
  · exact hs d ts ht

theorem overAll_iff {params : List String} : ∀ {ts : List Ty}, TyOverAll params ts ↔ ∀ t ∈ ts, TyOver params t
  | [] => ⟨fun _ _ h => (by cases h), fun _ => trivial⟩
  | t :: ts => by
    rw [TyOverAll, overAll_iff (ts := ts), List.forall_mem_cons]

theorem declData_mem (hs : SmallData data) (ho : ∀ c ∈ cs, ∀ t ∈ c.args, TyOver params t) {ts : List S}
    (ht : ∀ t ∈ ts, t ∈ U) (x : S) :
    x ∈ declData data name params cs name ts ↔ Built (sigOf data name params cs ts) x := by
  have h : ∃ D ∈ U, ∀ x, x ∈ D ↔ Built (sigOf data name params cs ts) x := by
    refine built_set _ fun as has a ha A hA => ?_
    obtain ⟨c, hc, rfl⟩ := List.mem_map.1 has
    obtain ⟨t, htc, rfl⟩ := List.mem_map.1 ha
    exact argOf_small hs (fun p _ => paramsAre_small ht p) (ho c hc t htc) A hA
  unfold declData
  rw [if_pos rfl, dif_pos h]
  exact (Classical.choose_spec h).2 x

theorem declConst_con {C : String → List S → S} (hn : (cs.map (·.name)).Nodup) {i : Nat} {c : Con} (hi : cs[i]? = some c)
    (ts : List S) : declConst data name params cs C c.name ts =
      E0.lamN ((setTypes (declData data name params cs)).tys (paramsAre params ts) c.args) (SetModel.code i) := by
  have h : ∃ (i : Nat) (d : Con), cs[i]? = some d ∧ d.name = c.name := ⟨i, c, hi, rfl⟩
  rw [declConst, dif_pos h]
  obtain ⟨h1, h2⟩ := Classical.choose_spec (Classical.choose_spec h)
  revert h1 h2
  generalize Classical.choose (Classical.choose_spec h) = d
  generalize Classical.choose h = k
  intro h1 h2
  have e : k = i := by
    refine (List.getElem?_inj (l := cs.map (·.name)) ?_ hn).1 ?_
    · rw [List.length_map]; exact (List.getElem?_eq_some_iff.1 h1).1
    · rw [List.getElem?_map, List.getElem?_map, h1, hi]
      simp only [Option.map_some, h2]
  subst e
  rw [hi] at h1
  rw [← Option.some.inj h1]

mutual

theorem noVar_of_over {params : List String} (p : String) : ∀ {t : Ty}, TyOver params t → t.hasVar p = false
  | .bool, _ => rfl
  | .data _ as, k => by rw [Ty.hasVar]; exact noVarAny_of_over p k
  | .fn as r, k => by rw [Ty.hasVar, noVarAny_of_over p k.1, noVar_of_over p k.2]; rfl
  | .arb _, _ => rfl

theorem noVarAny_of_over {params : List String} (p : String) : ∀ {ts : List Ty}, TyOverAll params ts → Ty.hasVarAny p ts = false
  | [], _ => rfl
  | t :: ts, k => by rw [Ty.hasVarAny, noVar_of_over p k.1, noVarAny_of_over p k.2]; rfl

end

theorem accepted_model {C : String → List S → S} {lookup : String → Option (List Variance)} (hs : SmallData data)
    (ha : acceptsInductive lookup name params cs = true)
    (ho : ∀ c ∈ cs, ∀ t ∈ c.args, TyOver params t) (hd : ∀ c ∈ cs, ∀ t ∈ c.args, TyDirect name (params.map .arb) t)
    (hn : (cs.map (·.name)).Nodup) (θ : String → S) (hθ : ∀ p ∈ params, θ p ∈ U) :
    ConsTyped (setTypes (declData data name params cs)) (declConst data name params cs C) θ name params cs ∧
    Freely (setTypes (declData data name params cs)) (declData data name params cs name (params.map θ))
      (cs.map (conIn (setTypes (declData data name params cs)) (declConst data name params cs C) θ name params)) := by
  have hts : ∀ t ∈ params.map θ, t ∈ U := by
    intro t ht
    obtain ⟨p, hp, rfl⟩ := List.mem_map.1 ht
    exact hθ p hp
  have hD := declData_mem (name := name) hs ho hts
  have hagree : ∀ p ∈ params, θ p = paramsAre params (params.map θ) p := fun p hp => (paramsAre_map θ hp).symm
  simp only [acceptsInductive, Bool.and_eq_true, List.all_eq_true] at ha
  have htys : ∀ {i : Nat} {c : Con}, cs[i]? = some c →
      (setTypes (declData data name params cs)).tys θ c.args =
        (c.args.map (argOf data name (paramsAre params (params.map θ)))).map
          (SetArg.set (declData data name params cs name (params.map θ))) := by
    intro i c hi
    have hc := List.mem_of_getElem? hi
    have h1 := ho c hc
    have h2 := hd c hc
    have h3 := ha.2 c hc
    revert h1 h2 h3
    generalize c.args = as
    intro h1 h2 h3
    induction as with
    | nil => rfl
    | cons a as ih =>
      rw [Frame.tys, ih (fun t ht => h1 t (List.mem_cons_of_mem _ ht)) (fun t ht => h2 t (List.mem_cons_of_mem _ ht))
        (fun t ht => h3 t (List.mem_cons_of_mem _ ht)), List.map_cons, List.map_cons]
      congr 1
      rw [← argOf_over hagree (h1 a (List.mem_cons_self ..))]
      exact (argOf_set (fun d hd => declData_other hd) (h2 a (List.mem_cons_self ..)) (h3 a (List.mem_cons_self ..))).symm
  have hfn : ∀ {i : Nat} {c : Con}, cs[i]? = some c → declConst data name params cs C c.name (params.map θ) =
      E0.lamN ((setTypes (declData data name params cs)).tys θ c.args) (SetModel.code i) := by
    intro i c hi
    rw [declConst_con hn hi, tys_over (F := setTypes _) hagree (overAll_iff.2 (ho c (List.mem_of_getElem? hi)))]
  have hsig : ∀ {i : Nat} {c : Con}, cs[i]? = some c → (sigOf data name params cs (params.map θ))[i]? =
      some (c.args.map (argOf data name (paramsAre params (params.map θ)))) := by
    intro i c hi
    rw [sigOf, List.getElem?_map, hi]
    rfl
  constructor
  · intro c hc
    obtain ⟨i, hi⟩ := List.getElem?_of_mem hc
    rw [hfn hi, ← lamN_any (declData data name params cs)]
    refine mem_lamN (F := setTypes _) fun xs hx => ?_
    rw [fits_any, htys hi] at hx
    exact built_code hD (hsig hi) hx
  · refine freely_built _ hD _ (by simp [sigOf]) ?_
    intro i c as hc has
    rw [List.getElem?_map, Option.map_eq_some_iff] at hc
    obtain ⟨c, hi, rfl⟩ := hc
    rw [hsig hi] at has
    cases has
    refine ⟨htys hi, fun xs hx => ?_, ?_⟩
    · show E0.appN (declConst data name params cs C c.name (params.map θ)) xs = _
      rw [hfn hi]
      exact appN_lamN (F := E0) hx
    · rintro j ⟨hj, hself⟩
      simp only [conIn, List.getElem_map, List.length_map] at hj hself
      rw [List.getElem?_map, List.getElem?_eq_getElem hj, hself]
      simp [selfType, argOf]

end
end Elab
end Acorn
