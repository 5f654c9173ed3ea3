/-
The registered type of a match eliminator at its instances.
-/
import Verif.Model.MatchEliminator
import Verif.Lemmas.ValueTypes
import Verif.Lemmas.LoweringTypes
import Verif.Spec.MatchEliminator
namespace Acorn
namespace Elab

open Spec

theorem repr_injective {a b : Nat} (e : toString a = toString b) : a = b := by
  have h : Nat.toDigits 10 a = Nat.toDigits 10 b := by
    rw [← Nat.toList_repr, ← Nat.toList_repr]
    exact congrArg String.toList e
  have := congrArg (fun l => Nat.ofDigitChars 10 l 0) h
  simpa only [Nat.ofDigitChars_ten_toDigits] using this

theorem eliminatorParams_length (k : Nat) : (eliminatorParams k).length = k := by simp [eliminatorParams]

theorem eliminatorNames_nodup (k : Nat) : (eliminatorNames k).Nodup := by
  unfold eliminatorNames eliminatorParams
  rw [List.nodup_append]
  refine ⟨?_, by simp, ?_⟩
  · refine List.pairwise_map.2 (List.Pairwise.imp ?_ (List.nodup_range (n := k)))
    intro i j hne e
    exact hne (repr_injective ((String.append_right_inj _).1 e))
  · intro a ha b hb e
    simp only [List.mem_map, List.mem_range, List.mem_singleton] at ha hb
    obtain ⟨i, _, rfl⟩ := ha
    subst hb
    have := congrArg String.toList e
    simp at this

theorem findTypeArg_some : ∀ {as : List Ty} {ns : List String} {t : Ty} {n : String},
    findTypeArg as ns t = some n → ∃ i : Nat, ns[i]? = some n ∧ as[i]? = some t
  | [], _, _, _, e => by simp [findTypeArg] at e
  | _ :: _, [], _, _, e => by simp [findTypeArg] at e
  | a :: as, m :: ns, t, n, e => by
    simp only [findTypeArg] at e
    split at e
    · rename_i hs
      cases e
      rw [(same_iff _ _).1 hs]
      exact ⟨0, rfl, rfl⟩
    · obtain ⟨i, h1, h2⟩ := findTypeArg_some e
      exact ⟨i + 1, h1, h2⟩

theorem findTypeArg_none : ∀ {as : List Ty} {ns : List String} {t : Ty}, as.length = ns.length →
    findTypeArg as ns t = none → t ∉ as
  | [], _, _, _, _ => by simp
  | _ :: _, [], _, hl, _ => by simp at hl
  | a :: as, m :: ns, t, hl, e => by
    simp only [findTypeArg] at e
    split at e
    · cases e
    · rename_i hs
      intro hm
      rcases List.mem_cons.1 hm with rfl | hm
      · exact hs (same_refl t)
      · exact findTypeArg_none (by simpa using hl) e hm

theorem replace_none {as : List Ty} {ns : List String} {t : Ty} (e : findTypeArg as ns t = none) :
    replaceTypeArgs as ns t = match t with
      | .fn bs r => Ty.functional (replaceTypeArgsAll as ns bs) (replaceTypeArgs as ns r)
      | .data d bs => .data d (replaceTypeArgsAll as ns bs)
      | t => t := by
  cases t <;> simp only [replaceTypeArgs, e]

theorem replace_some {as : List Ty} {ns : List String} {t : Ty} {n : String} (e : findTypeArg as ns t = some n) :
    replaceTypeArgs as ns t = .tvar n := by
  cases t <;> simp only [replaceTypeArgs, e]

section back

variable {as : List Ty} {ns : List String} {ps : List (String × Ty)}
  (hp : ∀ (i : Nat) n a, ns[i]? = some n → as[i]? = some a → ps.lookup n = some a)

include hp

mutual

/-- Putting the arguments back for the parameters. -/
theorem replace_back : ∀ t : Ty, NormalTy t → (∀ n ∈ tyNames t, ps.lookup n = none) →
    (replaceTypeArgs as ns t).instantiate ps = t
  | t, hn, hf => by
    cases e : findTypeArg as ns t with
    | some n =>
      obtain ⟨i, h1, h2⟩ := findTypeArg_some e
      rw [replace_some e]
      simp only [Ty.instantiate, hp i n t h1 h2, Option.getD_some]
    | none =>
      rw [replace_none e]
      match t, hn, hf with
      | .fn bs r, hn, hf =>
        simp only [tyNames, List.mem_append] at hf
        show Ty.instantiate ps (Ty.functional _ _) = _
        rw [instantiate_functional, replace_backAll bs hn.2.1 fun n h => hf n (.inl h),
          replace_back r hn.2.2.1 fun n h => hf n (.inr h), functional_notFn hn.1 hn.2.2.2]
      | .data d bs, hn, hf =>
        simp only [Ty.instantiate]
        rw [replace_backAll bs hn hf]
      | .bool, _, _ => rfl
      | .tvar n, _, hf => simp only [Ty.instantiate, hf n (by simp [tyNames]), Option.getD_none]
      | .arb n, _, hf => simp only [Ty.instantiate, hf n (by simp [tyNames]), Option.getD_none]
      | .type0, _, _ => rfl
      | .constraint _, _, _ => rfl
  termination_by t => sizeOf t

theorem replace_backAll : ∀ ts : List Ty, NormalTys ts → (∀ n ∈ tysNames ts, ps.lookup n = none) →
    Ty.instantiateAll ps (replaceTypeArgsAll as ns ts) = ts
  | [], _, _ => rfl
  | t :: ts, hn, hf => by
    simp only [tysNames, List.mem_append] at hf
    simp only [replaceTypeArgsAll, Ty.instantiateAll]
    rw [replace_back t hn.1 fun n h => hf n (.inl h), replace_backAll ts hn.2 fun n h => hf n (.inr h)]
  termination_by ts => sizeOf ts

end
end back

theorem findTypeArg_at : ∀ {as : List Ty} {ns : List String} {i : Nat} {a : Ty} {n : String}, as.Nodup →
    as[i]? = some a → ns[i]? = some n → findTypeArg as ns a = some n
  | [], _, _, _, _, _, h, _ => by simp at h
  | _ :: _, [], _, _, _, _, _, h => by simp at h
  | b :: as, m :: ns, 0, a, n, _, ha, hn => by
    cases ha
    cases hn
    simp only [findTypeArg, same_refl, if_true]
  | b :: as, m :: ns, i + 1, a, n, hd, ha, hn => by
    rw [List.nodup_cons] at hd
    simp only [List.getElem?_cons_succ] at ha hn
    have hne : ¬ (a.same b = true) := fun e => by
      rw [same_iff] at e
      exact hd.1 (e ▸ List.mem_of_getElem? ha)
    simp only [findTypeArg, if_neg hne]
    exact findTypeArg_at hd.2 ha hn

theorem findTypeArg_other {as : List Ty} {ns : List String} {t : Ty} (ha : ∀ a ∈ as, IsTypeParam a)
    (ht : ¬ IsTypeParam t) : findTypeArg as ns t = none := by
  cases e : findTypeArg as ns t with
  | none => rfl
  | some n =>
    obtain ⟨i, _, h2⟩ := findTypeArg_some e
    exact absurd (ha t (List.mem_of_getElem? h2)) ht

theorem lookup_zip_index {α : Type} : ∀ {As : List String} {as : List α} {n : String}, n ∈ As →
    As.length = as.length → ∃ (i : Nat) (a : α), As[i]? = some n ∧ as[i]? = some a ∧ ∀ {β : Type} (bs : List β),
      (As.zip bs).lookup n = bs[i]?
  | [], _, _, h, _ => by simp at h
  | _ :: _, [], _, _, h => by simp at h
  | A :: As, a :: as, n, h, hl => by
    by_cases e : n = A
    · subst e
      refine ⟨0, a, rfl, rfl, fun bs => ?_⟩
      cases bs <;> simp [List.lookup_cons]
    · have hm : n ∈ As := (List.mem_cons.1 h).resolve_left e
      obtain ⟨i, b, h1, h2, h3⟩ := lookup_zip_index (as := as) hm (by simpa using hl)
      refine ⟨i + 1, b, h1, h2, fun bs => ?_⟩
      cases bs with
      | nil => simp
      | cons c cs =>
        have : (n == A) = false := by simpa using e
        simp only [List.zip_cons_cons, List.lookup_cons, this, List.getElem?_cons_succ]
        exact h3 cs

section general

variable {As ns : List String} {as bs : List Ty} {ps : List (String × Ty)}
  (hnd : as.Nodup) (hpar : ∀ a ∈ as, IsTypeParam a) (hla : As.length = as.length) (hln : ns.length = as.length)
  (hlb : bs.length = as.length)
  (hp : ∀ (i : Nat) n b, ns[i]? = some n → bs[i]? = some b → ps.lookup n = some b)

include hnd hpar hla hln hlb hp

theorem replace_param {n : String} (hn : n ∈ As) :
    (replaceTypeArgs as ns (((As.zip as).lookup n).getD (.tvar n))).instantiate ps =
      ((As.zip bs).lookup n).getD (.tvar n) ∧
    (replaceTypeArgs as ns (((As.zip as).lookup n).getD (.arb n))).instantiate ps =
      ((As.zip bs).lookup n).getD (.arb n) ∧ IsTypeParam (((As.zip as).lookup n).getD (.arb n)) := by
  obtain ⟨i, a, _, h2, h3⟩ := lookup_zip_index hn hla
  have hi : i < as.length := (List.getElem?_eq_some_iff.1 h2).1
  have hni : ns[i]? = some ns[i] := List.getElem?_eq_getElem (by omega)
  have hbi : bs[i]? = some bs[i] := List.getElem?_eq_getElem (by omega)
  have hpi := hp i _ _ hni hbi
  rw [h3 as, h3 bs, h2, hbi]
  simp only [Option.getD_some]
  rw [replace_some (findTypeArg_at hnd h2 hni)]
  refine ⟨?_, ?_, hpar a (List.mem_of_getElem? h2)⟩ <;> simp only [Ty.instantiate, hpi, Option.getD_some]

mutual

theorem replace_general : ∀ g : Ty, NormalTy g → (∀ n ∈ tyNames g, n ∈ As) →
    (replaceTypeArgs as ns (g.instantiate (As.zip as))).instantiate ps = g.instantiate (As.zip bs)
  | .bool, _, _ => by
    rw [show Ty.instantiate (As.zip as) .bool = .bool from rfl,
      replace_none (findTypeArg_other hpar (by rintro (⟨n, e⟩ | ⟨n, e⟩) <;> cases e))]
    rfl
  | .type0, _, _ => by
    rw [show Ty.instantiate (As.zip as) .type0 = .type0 from rfl,
      replace_none (findTypeArg_other hpar (by rintro (⟨n, e⟩ | ⟨n, e⟩) <;> cases e))]
    rfl
  | .constraint c, _, _ => by
    rw [show Ty.instantiate (As.zip as) (.constraint c) = .constraint c from rfl,
      replace_none (findTypeArg_other hpar (by rintro (⟨n, e⟩ | ⟨n, e⟩) <;> cases e))]
    rfl
  | .tvar n, _, hf => by
    simp only [Ty.instantiate]
    exact (replace_param hnd hpar hla hln hlb hp (hf n (by simp [tyNames]))).1
  | .arb n, _, hf => by
    simp only [Ty.instantiate]
    exact (replace_param hnd hpar hla hln hlb hp (hf n (by simp [tyNames]))).2.1
  | .data d ts, hn, hf => by
    simp only [Ty.instantiate]
    rw [replace_none (findTypeArg_other hpar (by rintro (⟨n, e⟩ | ⟨n, e⟩) <;> cases e))]
    simp only [Ty.instantiate]
    rw [replace_generalAll ts hn hf]
  | .fn ts r, hn, hf => by
    simp only [tyNames, List.mem_append] at hf
    have hr : NotFn (r.instantiate (As.zip as)) := by
      have hx := hn.2.2.2
      have hf' : ∀ n ∈ tyNames r, n ∈ As := fun n h => hf n (.inr h)
      clear hn hf
      intro p q e
      match r, hx, hf' with
      | .fn us u, hx, _ => exact hx us u rfl
      | .bool, _, _ => cases e
      | .type0, _, _ => cases e
      | .constraint _, _, _ => cases e
      | .data _ _, _, _ => cases e
      | .tvar n, _, hf =>
        obtain ⟨i, a, _, h2, h3⟩ := lookup_zip_index (hf n (by simp [tyNames])) hla
        simp only [Ty.instantiate, h3 as, h2, Option.getD_some] at e
        rcases hpar a (List.mem_of_getElem? h2) with ⟨m, rfl⟩ | ⟨m, rfl⟩ <;> cases e
      | .arb n, _, hf =>
        obtain ⟨i, a, _, h2, h3⟩ := lookup_zip_index (hf n (by simp [tyNames])) hla
        simp only [Ty.instantiate, h3 as, h2, Option.getD_some] at e
        rcases hpar a (List.mem_of_getElem? h2) with ⟨m, rfl⟩ | ⟨m, rfl⟩ <;> cases e
    have hne : Ty.instantiateAll (As.zip as) ts ≠ [] := by
      have := hn.1
      cases ts with
      | nil => exact absurd rfl this
      | cons => simp [Ty.instantiateAll]
    simp only [Ty.instantiate]
    rw [functional_notFn hne hr,
      replace_none (findTypeArg_other hpar (by rintro (⟨n, e⟩ | ⟨n, e⟩) <;> cases e))]
    show Ty.instantiate ps (Ty.functional _ _) = _
    rw [instantiate_functional, replace_generalAll ts hn.2.1 fun n h => hf n (.inl h),
      replace_general r hn.2.2.1 fun n h => hf n (.inr h)]

theorem replace_generalAll : ∀ gs : List Ty, NormalTys gs → (∀ n ∈ tysNames gs, n ∈ As) →
    Ty.instantiateAll ps (replaceTypeArgsAll as ns (Ty.instantiateAll (As.zip as) gs)) =
      Ty.instantiateAll (As.zip bs) gs
  | [], _, _ => rfl
  | g :: gs, hn, hf => by
    simp only [tysNames, List.mem_append] at hf
    simp only [replaceTypeArgsAll, Ty.instantiateAll]
    rw [replace_general g hn.1 fun n h => hf n (.inl h), replace_generalAll gs hn.2 fun n h => hf n (.inr h)]

end
end general

/-! ### The whole type -/

theorem lookup_names {bs : List Ty} {r : Ty} :
    ((eliminatorNames bs.length).zip (bs ++ [r])).lookup "R" = some r ∧
    ∀ (i : Nat) n b, (eliminatorParams bs.length)[i]? = some n → bs[i]? = some b →
      ((eliminatorNames bs.length).zip (bs ++ [r])).lookup n = some b := by
  have hnd := eliminatorNames_nodup bs.length
  have key : ∀ {ns : List String} {ts : List Ty} {i : Nat} {n : String} {t : Ty}, ns.Nodup → ns[i]? = some n →
      ts[i]? = some t → (ns.zip ts).lookup n = some t := by
    intro ns ts i n t hd h1 h2
    induction ns generalizing ts i with
    | nil => simp at h1
    | cons m ns ih =>
      cases ts with
      | nil => simp at h2
      | cons u ts =>
        cases i with
        | zero => cases h1; cases h2; simp [List.lookup_cons]
        | succ i =>
          rw [List.nodup_cons] at hd
          have : (n == m) = false := by
            simp only [beq_eq_false_iff_ne, ne_eq]
            rintro rfl
            exact hd.1 (List.mem_of_getElem? h1)
          simp only [List.zip_cons_cons, List.lookup_cons, this]
          exact ih hd.2 h1 h2
  have hl := eliminatorParams_length bs.length
  refine ⟨key (i := bs.length) hnd ?_ ?_, fun i n b h1 h2 => key (i := i) hnd ?_ ?_⟩
  · simp [eliminatorNames, List.getElem?_append_right, hl]
  · simp
  · have : i < (eliminatorParams bs.length).length := (List.getElem?_eq_some_iff.1 h1).1
    rw [eliminatorNames, List.getElem?_append_left this, h1]
  · have : i < bs.length := (List.getElem?_eq_some_iff.1 h2).1
    rw [List.getElem?_append_left this, h2]

theorem instantiate_params (bs : List Ty) (r : Ty) :
    Ty.instantiateAll ((eliminatorNames bs.length).zip (bs ++ [r])) ((eliminatorParams bs.length).map .tvar) = bs := by
  have h := (lookup_names (bs := bs) (r := r)).2
  have hl := eliminatorParams_length bs.length
  have : ∀ (ps : List (String × Ty)) (ns : List String), Ty.instantiateAll ps (ns.map .tvar) =
      ns.map fun n => (ps.lookup n).getD (.tvar n) := by
    intro ps ns
    induction ns with
    | nil => rfl
    | cons n ns ih => simp only [List.map_cons, Ty.instantiateAll, Ty.instantiate, ih]
  rw [this]
  refine List.ext_getElem (by simp [hl]) fun i h1 h2 => ?_
  rw [List.getElem_map, h i _ bs[i] (List.getElem?_eq_getElem _) (List.getElem?_eq_getElem _), Option.getD_some]

theorem instantiate_eliminator (d : String) (as bs : List Ty) (css : List (List Ty)) (r : Ty)
    (hl : as.length = bs.length) (fields : List (List Ty))
    (hf : css.map (fun ts => Ty.instantiateAll ((eliminatorNames bs.length).zip (bs ++ [r]))
      (replaceTypeArgsAll as (eliminatorParams bs.length) ts)) = fields) :
    (eliminatorType d as css).instantiate ((eliminatorNames bs.length).zip (bs ++ [r])) =
      Ty.functional (.data d bs :: fields.map fun ts => Ty.functional ts r) r := by
  have hR : Ty.instantiate ((eliminatorNames bs.length).zip (bs ++ [r])) (.tvar "R") = r := by
    simp only [Ty.instantiate, lookup_names.1, Option.getD_some]
  unfold eliminatorType
  rw [instantiate_functional, hl, hR]
  congr 1
  simp only [Ty.instantiateAll, Ty.instantiate]
  rw [instantiate_params bs r]
  congr 1
  subst hf
  clear hl
  induction css with
  | nil => rfl
  | cons ts css ih => simp only [List.map_cons, Ty.instantiateAll, instantiate_functional, hR, ih]

end Elab
end Acorn
