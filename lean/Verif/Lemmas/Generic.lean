/-
The generic form of types and values: meaning and names.
-/
import Verif.Spec.Datatypes
import Verif.Lemmas.ValueSubst
import Verif.Lemmas.TypeInference
namespace Acorn
namespace Elab

open Spec

universe u

variable {F : Frame.{u}} {C : String → List F.T → F.D}

mutual

theorem ty_genericize (θ : String → F.T) (ps : List String) : ∀ t : Ty, F.ty θ (t.genericize ps) = F.ty θ t
  | .arb n => by
    unfold Ty.genericize
    split <;> rfl
  | .fn as r => by
    rw [Ty.genericize, ty_functional, tys_genericizeAll θ ps as, ty_genericize θ ps r, Frame.ty]
  | .data d as => by
    rw [Ty.genericize, Frame.ty, tys_genericizeAll θ ps as, Frame.ty]
  | .tvar _ => rfl
  | .bool => rfl
  | .type0 => rfl
  | .constraint _ => rfl

theorem tys_genericizeAll (θ : String → F.T) (ps : List String) : ∀ ts : List Ty,
    F.tys θ (Ty.genericizeAll ps ts) = F.tys θ ts
  | [] => rfl
  | t :: ts => by
    rw [Ty.genericizeAll, Frame.tys, ty_genericize θ ps t, tys_genericizeAll θ ps ts, Frame.tys]

end

mutual

theorem names_genericize (ps : List String) (p : String) : ∀ t : Ty, p ∈ tyNames (t.genericize ps) ↔ p ∈ tyNames t
  | .arb n => by
    unfold Ty.genericize
    split <;> rfl
  | .fn as r => by
    rw [Ty.genericize, tyNames_functional, names_genericizeAll ps p as, names_genericize ps p r, tyNames,
      List.mem_append]
  | .data d as => by
    rw [Ty.genericize, tyNames, names_genericizeAll ps p as, tyNames]
  | .tvar _ => Iff.rfl
  | .bool => Iff.rfl
  | .type0 => Iff.rfl
  | .constraint _ => Iff.rfl

theorem names_genericizeAll (ps : List String) (p : String) : ∀ ts : List Ty,
    p ∈ tysNames (Ty.genericizeAll ps ts) ↔ p ∈ tysNames ts
  | [] => Iff.rfl
  | t :: ts => by
    rw [Ty.genericizeAll, tysNames, tysNames, List.mem_append, List.mem_append, names_genericize ps p t,
      names_genericizeAll ps p ts]

end

mutual

theorem containsVar_iff (p : String) : ∀ t : Ty, t.containsVar p = true ↔ p ∈ tyNames t
  | .arb n => by
    simp only [Ty.containsVar, tyNames, List.mem_singleton, beq_iff_eq]
    exact eq_comm
  | .tvar n => by
    simp only [Ty.containsVar, tyNames, List.mem_singleton, beq_iff_eq]
    exact eq_comm
  | .fn as r => by
    simp only [Ty.containsVar, tyNames, Bool.or_eq_true, List.mem_append, containsVarAny_iff p as,
      containsVar_iff p r]
  | .data d as => by simp only [Ty.containsVar, tyNames, containsVarAny_iff p as]
  | .bool => by simp [Ty.containsVar, tyNames]
  | .type0 => by simp [Ty.containsVar, tyNames]
  | .constraint _ => by simp [Ty.containsVar, tyNames]

theorem containsVarAny_iff (p : String) : ∀ ts : List Ty, Ty.containsVarAny p ts = true ↔ p ∈ tysNames ts
  | [] => by simp [Ty.containsVarAny, tysNames]
  | t :: ts => by
    simp only [Ty.containsVarAny, tysNames, Bool.or_eq_true, List.mem_append, containsVarAny_iff p ts,
      containsVar_iff p t]

end

mutual

theorem hasArb_names {p : String} : ∀ {t : Ty}, t.hasArb p = true → p ∈ tyNames t
  | .arb n, h => by
    simp only [Ty.hasArb, beq_iff_eq] at h
    simp only [tyNames, List.mem_singleton]
    exact h.symm
  | .fn as r, h => by
    simp only [Ty.hasArb, Bool.or_eq_true] at h
    simp only [tyNames, List.mem_append]
    exact h.imp hasArbAny_names hasArb_names
  | .data d as, h => hasArbAny_names (ts := as) h

theorem hasArbAny_names {p : String} : ∀ {ts : List Ty}, Ty.hasArbAny p ts = true → p ∈ tysNames ts
  | t :: ts, h => by
    simp only [Ty.hasArbAny, Bool.or_eq_true] at h
    simp only [tysNames, List.mem_append]
    exact h.imp hasArb_names hasArbAny_names

end

mutual

theorem hasGeneric_genericize {ps : List String} : ∀ {t : Ty}, (t.genericize ps).hasGeneric = true →
    (∃ p ∈ ps, p ∈ tyNames t) ∨ ∃ p, t.hasVar p = true
  | .arb n, h => by
    unfold Ty.genericize at h
    split at h
    · next h' => exact .inl ⟨n, by simpa using h', by simp [tyNames]⟩
    · cases h
  | .fn as r, h => by
    rw [Ty.genericize, hasGeneric_functional, Bool.or_eq_true] at h
    simp only [tyNames, List.mem_append, Ty.hasVar, Bool.or_eq_true]
    rcases h with h | h
    · rcases hasGenericAny_genericize h with ⟨p, hp, h⟩ | ⟨p, h⟩
      · exact .inl ⟨p, hp, .inl h⟩
      · exact .inr ⟨p, .inl h⟩
    · rcases hasGeneric_genericize h with ⟨p, hp, h⟩ | ⟨p, h⟩
      · exact .inl ⟨p, hp, .inr h⟩
      · exact .inr ⟨p, .inr h⟩
  | .data d as, h => hasGenericAny_genericize (ts := as) h
  | .tvar n, _ => .inr ⟨n, by simp [Ty.hasVar]⟩

theorem hasGenericAny_genericize {ps : List String} : ∀ {ts : List Ty},
    Ty.hasGenericAny (Ty.genericizeAll ps ts) = true →
    (∃ p ∈ ps, p ∈ tysNames ts) ∨ ∃ p, Ty.hasVarAny p ts = true
  | t :: ts, h => by
    rw [Ty.genericizeAll, Ty.hasGenericAny, Bool.or_eq_true] at h
    simp only [tysNames, List.mem_append, Ty.hasVarAny, Bool.or_eq_true]
    rcases h with h | h
    · rcases hasGeneric_genericize h with ⟨p, hp, h⟩ | ⟨p, h⟩
      · exact .inl ⟨p, hp, .inl h⟩
      · exact .inr ⟨p, .inl h⟩
    · rcases hasGenericAny_genericize h with ⟨p, hp, h⟩ | ⟨p, h⟩
      · exact .inl ⟨p, hp, .inr h⟩
      · exact .inr ⟨p, .inr h⟩

end

theorem addParams_eq (t : Ty) (res : List Ty) : ∀ ps : List String,
    (∀ p ∈ ps, p ∈ tyNames t → p ∈ tysNames res) → addParams t res ps = res
  | [], _ => rfl
  | p :: ps, h => by
    unfold addParams
    rw [if_neg, addParams_eq t res ps fun q hq => h q (List.mem_cons_of_mem _ hq)]
    intro h'
    simp only [Bool.and_eq_true, Bool.not_eq_true'] at h'
    have := (containsVarAny_iff p res).2 (h p List.mem_cons_self (hasArb_names h'.1))
    rw [this] at h'
    cases h'.2

theorem tys_map_tvar (θ : String → F.T) : ∀ ps : List String, F.tys θ (ps.map .tvar) = ps.map θ
  | [] => rfl
  | p :: ps => by
    simp only [List.map_cons, Frame.tys, Frame.ty, tys_map_tvar θ ps]

theorem tys_map_arb (θ : String → F.T) : ∀ ps : List String, F.tys θ (ps.map .arb) = ps.map θ
  | [] => rfl
  | p :: ps => by
    simp only [List.map_cons, Frame.tys, Frame.ty, tys_map_arb θ ps]

/-- The type arguments of a constant in generic form have the same meaning. -/
theorem constGeneric_meaning (θ : String → F.T) {n : String} {params : List String} {ps : List Ty} {t : Ty}
    (h : FullyApplied params ps t ∨ (ps = [] ∧ C n (params.map θ) = C n [])) :
    C n (F.tys θ (constGeneric params ps t)) = C n (F.tys θ ps) := by
  unfold constGeneric
  split
  · next h1 =>
    simp only [Bool.and_eq_true, List.isEmpty_iff] at h1
    rcases h with h | ⟨h, e⟩
    · rcases hasGeneric_genericize h1.1 with ⟨p, hp, h2⟩ | ⟨p, h2⟩
      · have := h.1 p hp h2
        rw [h1.2] at this
        cases this
      · rw [h.2 h1.2 p] at h2; cases h2
    · rw [tys_map_tvar, h]; exact e
  · split
    · next h1 h2 =>
      simp only [Bool.and_eq_true, Bool.not_eq_true', List.isEmpty_eq_false_iff] at h2
      rcases h with h | ⟨h, e⟩
      · rw [addParams_eq, tys_genericizeAll]
        intro p hp hpt
        exact (names_genericizeAll params p ps).2 (h.1 p hp hpt)
      · exact absurd h h2.1
    · rw [tys_genericizeAll]

/-- A constant of a value has the same meaning in generic form. -/
def SameGeneric (F : Frame.{u}) (C : String → List F.T → F.D) (params : List String) (n : String) (ps : List Ty) (t : Ty) : Prop :=
  ∀ θ, C n (F.tys θ (constGeneric params ps t)) = C n (F.tys θ ps)

mutual

/-- The generic form of a value has the same meaning. -/
theorem den_genericize {params : List String} : ∀ (θ : String → F.T) (env : List F.D) (v : Value),
    EachConst (SameGeneric F C params) v → F.den C θ env (v.genericize params) = F.den C θ env v
  | _, _, .var _ _, _ => rfl
  | θ, env, .const n ps t, h => by
    rw [Value.genericize, Frame.den, Frame.den]
    exact h θ
  | θ, env, .app f as, h => by
    rw [Value.genericize, Frame.den, den_genericize θ env f h.1, den_genericizeAll θ env as h.2, Frame.den]
  | θ, env, .tapp f ns ts, h => by
    rw [Value.genericize, Frame.den, tys_genericizeAll, den_genericize _ env f h, Frame.den]
  | θ, env, .lam ts b, h => by
    rw [Value.genericize, Frame.den, tys_genericizeAll, Frame.den]
    congr 1; funext xs; exact den_genericize θ _ b h
  | θ, env, .bin op a b, h => by
    rw [Value.genericize, Frame.den, den_genericize θ env a h.1, den_genericize θ env b h.2, Frame.den]
  | θ, env, .not a, h => by
    rw [Value.genericize, Frame.den, den_genericize θ env a h, Frame.den]
  | θ, env, .try_ a t, h => by
    rw [Value.genericize, Frame.den, ty_genericize, den_genericize θ env a h, Frame.den]
  | θ, env, .all ts b, h => by
    rw [Value.genericize, Frame.den, tys_genericizeAll, Frame.den]
    refine ofProp_congr ?_
    simp only [fun xs => den_genericize θ (env ++ xs) b h]
  | θ, env, .ex ts b, h => by
    rw [Value.genericize, Frame.den, tys_genericizeAll, Frame.den]
    refine ofProp_congr ?_
    simp only [fun xs => den_genericize θ (env ++ xs) b h]
  | θ, env, .group a, h => by
    rw [Value.genericize, Frame.den, den_genericize θ env a h, Frame.den]
  | _, _, .bool _, _ => rfl
  | θ, env, .ite c a b, h => by
    rw [Value.genericize, Frame.den, den_genericize θ env c h.1, den_genericize θ env a h.2.1,
      den_genericize θ env b h.2.2, Frame.den]
  | θ, env, .match_ s cs, h => by
    rw [Value.genericize, Frame.den, den_genericize θ env s h.1, den_genericizeCases θ env _ cs h.2, Frame.den]

theorem den_genericizeAll {params : List String} : ∀ (θ : String → F.T) (env : List F.D) (vs : List Value),
    EachConstAll (SameGeneric F C params) vs → F.denAll C θ env (Value.genericizeAll params vs) = F.denAll C θ env vs
  | _, _, [], _ => rfl
  | θ, env, v :: vs, h => by
    rw [Value.genericizeAll, Frame.denAll, den_genericize θ env v h.1, den_genericizeAll θ env vs h.2, Frame.denAll]

theorem den_genericizeCases {params : List String} : ∀ (θ : String → F.T) (env : List F.D) (d : F.D) (cs : List Case),
    EachConstCases (SameGeneric F C params) cs →
    F.denCases C θ env d (Value.genericizeCases params cs) = F.denCases C θ env d cs
  | _, _, _, [], _ => rfl
  | θ, env, d, .mk ts p r i n :: cs, h => by
    rw [Value.genericizeCases, Frame.denCases, tys_genericizeAll, den_genericizeCases θ env d cs h.2.2, Frame.denCases]
    simp only [fun xs => den_genericize θ (env ++ xs) p h.1, fun xs => den_genericize θ (env ++ xs) r h.2.1]

end

mutual

theorem EachConst.mono {P Q : String → List Ty → Ty → Prop} (h : ∀ n ps t, P n ps t → Q n ps t) : ∀ {v : Value},
    EachConst P v → EachConst Q v
  | .var _ _, _ => trivial
  | .const _ _ _, k => h _ _ _ k
  | .app f as, k => ⟨EachConst.mono h (v := f) k.1, EachConstAll.mono h (vs := as) k.2⟩
  | .tapp f _ _, k => EachConst.mono h (v := f) k
  | .lam _ b, k => EachConst.mono h (v := b) k
  | .bin _ a b, k => ⟨EachConst.mono h (v := a) k.1, EachConst.mono h (v := b) k.2⟩
  | .not a, k => EachConst.mono h (v := a) k
  | .try_ a _, k => EachConst.mono h (v := a) k
  | .all _ b, k => EachConst.mono h (v := b) k
  | .ex _ b, k => EachConst.mono h (v := b) k
  | .group a, k => EachConst.mono h (v := a) k
  | .bool _, _ => trivial
  | .ite c a b, k => ⟨EachConst.mono h (v := c) k.1, EachConst.mono h (v := a) k.2.1, EachConst.mono h (v := b) k.2.2⟩
  | .match_ s cs, k => ⟨EachConst.mono h (v := s) k.1, EachConstCases.mono h (cs := cs) k.2⟩

theorem EachConstAll.mono {P Q : String → List Ty → Ty → Prop} (h : ∀ n ps t, P n ps t → Q n ps t) : ∀ {vs : List Value},
    EachConstAll P vs → EachConstAll Q vs
  | [], _ => trivial
  | v :: vs, k => ⟨EachConst.mono h (v := v) k.1, EachConstAll.mono h (vs := vs) k.2⟩

theorem EachConstCases.mono {P Q : String → List Ty → Ty → Prop} (h : ∀ n ps t, P n ps t → Q n ps t) : ∀ {cs : List Case},
    EachConstCases P cs → EachConstCases Q cs
  | [], _ => trivial
  | .mk _ p r _ _ :: cs, k =>
    ⟨EachConst.mono h (v := p) k.1, EachConst.mono h (v := r) k.2.1, EachConstCases.mono h (cs := cs) k.2.2⟩

end

end Elab
end Acorn
