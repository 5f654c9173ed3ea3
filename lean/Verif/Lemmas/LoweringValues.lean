/-
Values that fit a theory: their types, their membership, and the levels of the stack they do not mention.
-/
import Verif.Spec.Lowering
import Verif.Lemmas.ValueExpand
import Verif.Lemmas.ValueTypes
namespace Acorn
namespace Elab

open Spec

universe u

variable {S : Theory}

/-! ### Types -/

theorem getType_args {Γ : List Ty} : ∀ (as : List Value) (u t : Ty), ArgsOk S Γ as u t →
    Ty.appliedN as.length u = some t
  | [], u, t, ha => by
    simp only [ArgsOk] at ha
    subst ha
    rfl
  | a :: as, u, t, ⟨p, ps, r, e, _, ha⟩ => by
    subst e
    simp only [List.length_cons, Ty.appliedN, Ty.applied, Option.bind_some]
    exact getType_args as _ t ha

mutual

theorem getType_ok : ∀ (v : Value) (Γ : List Ty) (t : Ty), ValueOk S Γ v t → v.getType = some t
  | .var i t', Γ, t, hv => by simp only [Value.getType, hv.1]
  | .const n ps t', Γ, t, hv => by simp only [Value.getType, hv.1]
  | .app f as, Γ, t, ⟨u, hf, ha⟩ => by
    simp only [Value.getType, getType_ok f Γ u hf, Option.bind_some]
    exact getType_args as u t ha
  | .tapp _ _ _, _, _, hv => hv.elim
  | .lam ts b, Γ, t, ⟨r, e, hb⟩ => by
    subst e
    simp only [Value.getType, getType_ok b _ r hb, Option.map_some]
  | .bin _ _ _, Γ, t, hv => by rw [hv.1]; rfl
  | .not _, Γ, t, hv => by rw [hv.1]; rfl
  | .try_ _ _, _, _, hv => hv.elim
  | .all _ _, Γ, t, hv => by rw [hv.1]; rfl
  | .ex _ _, Γ, t, hv => by rw [hv.1]; rfl
  | .group a, Γ, t, hv => getType_ok a Γ t hv
  | .bool _, Γ, t, hv => by
    simp only [ValueOk] at hv
    rw [hv]; rfl
  | .ite c a b, Γ, t, hv => getType_ok a Γ t hv.2.2.1
  | .match_ s cs, Γ, t, ⟨_, hne, d, as, ks, _, _, _, hc⟩ => getType_okCases cs Γ ks t hne hc

theorem getType_okCases : ∀ (cs : List Case) (Γ : List Ty) (ks : List (String × List Ty × List Ty)) (t : Ty),
    cs ≠ [] → CasesOk S Γ cs ks t → Value.getTypeCases cs = some t
  | [], _, _, _, hne, _ => absurd rfl hne
  | .mk ts p r i n :: cs, Γ, ks, t, _, hc => getType_ok r (Γ ++ ts) t hc.2.1

end

/-! ### Levels that are not mentioned -/

theorem get_mid {α : Type u} (xs ys zs ws : List α) (h : ys.length = ws.length) (i : Nat)
    (hi : i < xs.length ∨ xs.length + ys.length ≤ i) : (xs ++ ys ++ zs)[i]? = (xs ++ ws ++ zs)[i]? := by
  rcases hi with hi | hi
  · rw [List.append_assoc, List.append_assoc, List.getElem?_append_left hi, List.getElem?_append_left hi]
  · rw [List.getElem?_append_right (by simp; omega), List.getElem?_append_right (by simp; omega)]
    simp [h]

mutual

theorem ok_avoid (Γ us ws : List Ty) (hl : us.length = ws.length) : ∀ (v : Value) (Δ : List Ty) (t : Ty),
    v.refsRange Γ.length (Γ.length + us.length) = false → ValueOk S (Γ ++ us ++ Δ) v t →
    ValueOk S (Γ ++ ws ++ Δ) v t
  | .var i t', Δ, t, hr, hv => by
    refine ⟨hv.1, ?_⟩
    rw [← get_mid Γ us Δ ws hl i]
    · exact hv.2
    · simp only [Value.refsRange, Bool.and_eq_false_iff, decide_eq_false_iff_not] at hr
      omega
  | .const n ps t', Δ, t, hr, hv => hv
  | .app f as, Δ, t, hr, ⟨u, hf, ha⟩ => by
    simp only [Value.refsRange, Bool.or_eq_false_iff] at hr
    exact ⟨u, ok_avoid Γ us ws hl f Δ u hr.1 hf, ok_avoidArgs Γ us ws hl as Δ u t hr.2 ha⟩
  | .tapp _ _ _, _, _, _, hv => hv.elim
  | .lam ts b, Δ, t, hr, ⟨r, e, hb⟩ => by
    refine ⟨r, e, ?_⟩
    rw [List.append_assoc] at hb ⊢
    exact ok_avoid Γ us ws hl b (Δ ++ ts) r hr hb
  | .bin op a b, Δ, t, hr, ⟨e, u, ha, hb, hs⟩ => by
    simp only [Value.refsRange, Bool.or_eq_false_iff] at hr
    exact ⟨e, u, ok_avoid Γ us ws hl a Δ u hr.1 ha, ok_avoid Γ us ws hl b Δ u hr.2 hb, hs⟩
  | .not a, Δ, t, hr, hv => ⟨hv.1, ok_avoid Γ us ws hl a Δ _ hr hv.2⟩
  | .try_ _ _, _, _, _, hv => hv.elim
  | .all ts b, Δ, t, hr, hv => by
    refine ⟨hv.1, ?_⟩
    have hb := hv.2
    rw [List.append_assoc] at hb ⊢
    exact ok_avoid Γ us ws hl b (Δ ++ ts) _ hr hb
  | .ex ts b, Δ, t, hr, hv => by
    refine ⟨hv.1, ?_⟩
    have hb := hv.2
    rw [List.append_assoc] at hb ⊢
    exact ok_avoid Γ us ws hl b (Δ ++ ts) _ hr hb
  | .group a, Δ, t, hr, hv => ok_avoid Γ us ws hl a Δ t hr hv
  | .bool _, Δ, t, hr, hv => hv
  | .ite c a b, Δ, t, hr, hv => by
    simp only [Value.refsRange, Bool.or_eq_false_iff] at hr
    exact ⟨hv.1, ok_avoid Γ us ws hl c Δ _ hr.1.1 hv.2.1, ok_avoid Γ us ws hl a Δ _ hr.1.2 hv.2.2.1,
      ok_avoid Γ us ws hl b Δ _ hr.2 hv.2.2.2⟩
  | .match_ s cs, Δ, t, hr, ⟨h1, h2, d, as, ks, hs, hk, hi, hc⟩ => by
    simp only [Value.refsRange, Bool.or_eq_false_iff] at hr
    exact ⟨h1, h2, d, as, ks, ok_avoid Γ us ws hl s Δ _ hr.1 hs, hk, hi,
      ok_avoidCases Γ us ws hl cs Δ ks t hr.2 hc⟩

theorem ok_avoidArgs (Γ us ws : List Ty) (hl : us.length = ws.length) : ∀ (as : List Value) (Δ : List Ty) (u t : Ty),
    Value.refsRangeAny Γ.length (Γ.length + us.length) as = false → ArgsOk S (Γ ++ us ++ Δ) as u t →
    ArgsOk S (Γ ++ ws ++ Δ) as u t
  | [], Δ, u, t, _, ha => ha
  | a :: as, Δ, u, t, hr, ⟨p, ps, r, e, hp, ha⟩ => by
    simp only [Value.refsRangeAny, Bool.or_eq_false_iff] at hr
    exact ⟨p, ps, r, e, ok_avoid Γ us ws hl a Δ p hr.1 hp, ok_avoidArgs Γ us ws hl as Δ _ t hr.2 ha⟩

theorem ok_avoidCases (Γ us ws : List Ty) (hl : us.length = ws.length) : ∀ (cs : List Case) (Δ : List Ty)
    (ks : List (String × List Ty × List Ty)) (t : Ty),
    Value.refsRangeCases Γ.length (Γ.length + us.length) cs = false → CasesOk S (Γ ++ us ++ Δ) cs ks t →
    CasesOk S (Γ ++ ws ++ Δ) cs ks t
  | [], _, _, _, _, _ => trivial
  | .mk ts p r i n :: cs, Δ, ks, t, hr, ⟨⟨hn, k, ps, ct, hk, hp⟩, hv, hc⟩ => by
    simp only [Value.refsRangeCases, Bool.or_eq_false_iff] at hr
    refine ⟨⟨hn, k, ps, ct, hk, ?_⟩, ?_, ok_avoidCases Γ us ws hl cs Δ ks t hr.2 hc⟩
    · rw [hp]
      simp [hl]
    · rw [List.append_assoc] at hv ⊢
      exact ok_avoid Γ us ws hl r (Δ ++ ts) t hr.1.2 hv

end

variable {F : Frame.{u}} {C : String → List F.T → F.D}

mutual

theorem den_avoid (θ : String → F.T) (pre xs ys : List F.D) (hl : xs.length = ys.length) : ∀ (v : Value)
    (rest : List F.D),
    v.refsRange pre.length (pre.length + xs.length) = false →
    F.den C θ (pre ++ xs ++ rest) v = F.den C θ (pre ++ ys ++ rest) v
  | .var i t', rest, hr => by
    simp only [Frame.den, List.getD_eq_getElem?_getD]
    rw [get_mid pre xs rest ys hl i]
    simp only [Value.refsRange, Bool.and_eq_false_iff, decide_eq_false_iff_not] at hr
    omega
  | .const n ps t', rest, hr => rfl
  | .app f as, rest, hr => by
    simp only [Value.refsRange, Bool.or_eq_false_iff] at hr
    simp only [Frame.den, den_avoid θ pre xs ys hl f rest hr.1, den_avoidAll θ pre xs ys hl as rest hr.2]
  | .tapp f ns ts, rest, hr => by
    simp only [Frame.den]
    exact den_avoid _ pre xs ys hl f rest hr
  | .lam ts b, rest, hr => by
    simp only [Frame.den]
    refine lamN_congr fun zs _ => ?_
    rw [List.append_assoc, List.append_assoc _ rest]
    exact den_avoid θ pre xs ys hl b (rest ++ zs) hr
  | .bin op a b, rest, hr => by
    simp only [Value.refsRange, Bool.or_eq_false_iff] at hr
    simp only [Frame.den, den_avoid θ pre xs ys hl a rest hr.1, den_avoid θ pre xs ys hl b rest hr.2]
  | .not a, rest, hr => by
    simp only [Value.refsRange] at hr
    simp only [Frame.den, den_avoid θ pre xs ys hl a rest hr]
  | .try_ a t, rest, hr => by
    simp only [Value.refsRange] at hr
    simp only [Frame.den, den_avoid θ pre xs ys hl a rest hr]
  | .all ts b, rest, hr => by
    simp only [Frame.den]
    refine ofProp_congr (forall_congr' fun zs => ?_)
    rw [List.append_assoc, List.append_assoc _ rest, den_avoid θ pre xs ys hl b (rest ++ zs) hr]
  | .ex ts b, rest, hr => by
    simp only [Frame.den]
    refine ofProp_congr (exists_congr fun zs => ?_)
    rw [List.append_assoc, List.append_assoc _ rest, den_avoid θ pre xs ys hl b (rest ++ zs) hr]
  | .group a, rest, hr => by
    simp only [Frame.den]
    exact den_avoid θ pre xs ys hl a rest hr
  | .bool _, rest, hr => rfl
  | .ite c a b, rest, hr => by
    simp only [Value.refsRange, Bool.or_eq_false_iff] at hr
    simp only [Frame.den]
    rw [den_avoid θ pre xs ys hl c rest hr.1.1, den_avoid θ pre xs ys hl a rest hr.1.2,
      den_avoid θ pre xs ys hl b rest hr.2]
  | .match_ s cs, rest, hr => by
    simp only [Value.refsRange, Bool.or_eq_false_iff] at hr
    simp only [Frame.den, den_avoid θ pre xs ys hl s rest hr.1]
    exact den_avoidCases θ pre xs ys hl cs _ rest hr.2

theorem den_avoidAll (θ : String → F.T) (pre xs ys : List F.D) (hl : xs.length = ys.length) : ∀ (vs : List Value) (rest : List F.D),
    Value.refsRangeAny pre.length (pre.length + xs.length) vs = false →
    F.denAll C θ (pre ++ xs ++ rest) vs = F.denAll C θ (pre ++ ys ++ rest) vs
  | [], _, _ => rfl
  | v :: vs, rest, hr => by
    simp only [Value.refsRangeAny, Bool.or_eq_false_iff] at hr
    simp only [Frame.denAll, den_avoid θ pre xs ys hl v rest hr.1, den_avoidAll θ pre xs ys hl vs rest hr.2]

theorem den_avoidCases (θ : String → F.T) (pre xs ys : List F.D) (hl : xs.length = ys.length) : ∀ (cs : List Case) (d : F.D)
    (rest : List F.D), Value.refsRangeCases pre.length (pre.length + xs.length) cs = false →
    F.denCases C θ (pre ++ xs ++ rest) d cs = F.denCases C θ (pre ++ ys ++ rest) d cs
  | [], _, _, _ => rfl
  | .mk ts p r i n :: cs, d, rest, hr => by
    simp only [Value.refsRangeCases, Bool.or_eq_false_iff] at hr
    simp only [Frame.denCases]
    refine pick_congr (fun zs => ?_) (fun zs _ => ?_) (den_avoidCases θ pre xs ys hl cs d rest hr.2)
    · rw [List.append_assoc, List.append_assoc _ rest, den_avoid θ pre xs ys hl p (rest ++ zs) hr.1.1]
    · rw [List.append_assoc, List.append_assoc _ rest, den_avoid θ pre xs ys hl r (rest ++ zs) hr.1.2]

end

/-! ### Membership -/

variable {θ : String → F.T}


/-- The constants and the constructors mean elements of their types. -/
structure Sound (F : Frame.{u}) (C : String → List F.T → F.D) (θ : String → F.T) (S : Theory) : Prop where
  const : ∀ n params g ps, S.const n = some (params, g) → SmallArgs S ps (params.map (·.2)) →
    F.mem (C n (F.tys θ ps)) (F.ty θ (g.instantiate ((params.map (·.1)).zip ps)))
  covers : ∀ d as ks, S.constructors d as ks → ∀ x, F.mem x (F.ty θ (.data d as)) →
    ∃ k ∈ ks, ∃ xs, F.Fits xs (F.tys θ k.2.2) ∧ F.appN (C k.1 (F.tys θ k.2.1)) xs = x

theorem ty_rest (p : Ty) (ps : List Ty) (r : Ty) :
    F.ty θ (.fn (p :: ps) r) = F.fn (F.ty θ p) (F.ty θ (if ps.isEmpty then r else .fn ps r)) := by
  cases ps with
  | nil => rfl
  | cons q ps => rfl

theorem case_pattern {Γ ts ps : List Ty} {env : List F.D} {k : String} {ct : Ty} {p : Value}
    (he : F.Fits env (F.tys θ Γ)) (hp : p = (Value.const k ps ct).apply (varsFrom Γ.length ts)) :
    ∀ xs, F.Fits xs (F.tys θ ts) → F.den C θ (env ++ xs) p = F.appN (C k (F.tys θ ps)) xs := by
  intro xs hxs
  rw [hp, ← tys_length θ Γ, ← Fits.length he]
  exact den_pattern θ env xs k ps ct ts (by rw [Fits.length hxs, tys_length])

variable (hS : Sound F C θ S)

section

include hS

mutual

theorem ok_mem : ∀ (v : Value) (Γ : List Ty) (t : Ty) (env : List F.D), ValueOk S Γ v t →
    F.Fits env (F.tys θ Γ) → F.mem (F.den C θ env v) (F.ty θ t)
  | .var i t', Γ, t, env, hv, he => by
    simp only [Frame.den]
    exact Fits.get he i _ _ (tys_get θ Γ i t hv.2)
  | .const n ps t', Γ, t, env, ⟨_, params, g, h1, h2, h3⟩, he => by
    subst h3
    exact hS.const n params g ps h1 h2
  | .app f as, Γ, t, env, ⟨u, hf, ha⟩, he => by
    simp only [Frame.den]
    exact ok_memArgs as Γ u t env _ ha he (ok_mem f Γ u env hf he)
  | .tapp _ _ _, _, _, _, hv, _ => hv.elim
  | .lam ts b, Γ, t, env, ⟨r, e, hb⟩, he => by
    subst e
    rw [ty_functional]
    simp only [Frame.den]
    refine mem_lamN fun xs hxs => ok_mem b _ r _ hb ?_
    rw [tys_append]
    exact Fits.append he hxs
  | .bin _ _ _, Γ, t, env, hv, he => by rw [hv.1]; exact mem_ofProp _
  | .not _, Γ, t, env, hv, he => by rw [hv.1]; exact mem_ofProp _
  | .try_ _ _, _, _, _, hv, _ => hv.elim
  | .all _ _, Γ, t, env, hv, he => by rw [hv.1]; exact mem_ofProp _
  | .ex _ _, Γ, t, env, hv, he => by rw [hv.1]; exact mem_ofProp _
  | .group a, Γ, t, env, hv, he => ok_mem a Γ t env hv he
  | .bool _, Γ, t, env, hv, he => by
    simp only [ValueOk] at hv
    rw [hv]
    exact mem_ofProp _
  | .ite c a b, Γ, t, env, hv, he => by
    simp only [Frame.den]
    split
    · exact ok_mem a Γ t env hv.2.2.1 he
    · exact ok_mem b Γ t env hv.2.2.2 he
  | .match_ s cs, Γ, t, env, ⟨_, _, d, as, ks, hs, hk, hi, hc⟩, he => by
    obtain ⟨k, hkm, xs, hxs, e⟩ := hS.covers d as ks hk _ (ok_mem s Γ _ env hs he)
    obtain ⟨i, hlt, hget⟩ := List.getElem_of_mem hkm
    obtain ⟨c, hcm, hci⟩ := hi i hlt
    exact ok_memCases cs Γ ks t env _ hc he ⟨c, hcm, k, by rw [hci, List.getElem?_eq_getElem hlt, hget], xs, hxs, e⟩

theorem ok_memArgs : ∀ (as : List Value) (Γ : List Ty) (u t : Ty) (env : List F.D) (f : F.D), ArgsOk S Γ as u t →
    F.Fits env (F.tys θ Γ) → F.mem f (F.ty θ u) → F.mem (F.appN f (F.denAll C θ env as)) (F.ty θ t)
  | [], Γ, u, t, env, f, ha, he, hf => by
    simp only [ArgsOk] at ha
    subst ha
    exact hf
  | a :: as, Γ, u, t, env, f, ⟨p, ps, r, e, hp, ha⟩, he, hf => by
    subst e
    rw [ty_rest] at hf
    exact ok_memArgs as Γ _ t env _ ha he (F.mem_app _ _ _ _ hf (ok_mem a Γ p env hp he))

theorem ok_memCases : ∀ (cs : List Case) (Γ : List Ty) (ks : List (String × List Ty × List Ty))
    (t : Ty) (env : List F.D) (d : F.D), CasesOk S Γ cs ks t → F.Fits env (F.tys θ Γ) →
    (∃ c ∈ cs, ∃ k, ks[Value.caseIndex c]? = some k ∧
      ∃ xs, F.Fits xs (F.tys θ k.2.2) ∧ F.appN (C k.1 (F.tys θ k.2.1)) xs = d) →
    F.mem (F.denCases C θ env d cs) (F.ty θ t)
  | [], _, _, _, _, _, _, _, hx => by
    obtain ⟨k, hk, _⟩ := hx
    simp at hk
  | .mk ts p r i n :: cs, Γ, ks, t, env, d, ⟨⟨_, k, ps, ct, hk, hp⟩, hv, hcs⟩, he, hx => by
    have hpat := case_pattern (C := C) he (θ := θ) hp
    simp only [Frame.denCases, Frame.pick]
    split
    · rename_i h
      refine ok_mem r _ t _ hv ?_
      rw [tys_append]
      exact Fits.append he (Classical.choose_spec h).1
    · rename_i h
      refine ok_memCases cs Γ ks t env d hcs he ?_
      obtain ⟨c, hc, k', hk', xs, hxs, e⟩ := hx
      rcases List.mem_cons.1 hc with rfl | hc
      · simp only [Value.caseIndex] at hk'
        rw [hk] at hk'
        injection hk' with hk'
        subst hk'
        exact (h ⟨xs, hxs, by rw [hpat xs hxs]; exact e⟩).elim
      · exact ⟨c, hc, k', hk', xs, hxs, e⟩

end

end

theorem meanings_zip {F : Frame.{u}} (θ : String → F.T) : ∀ (ns : List String) (ts : List Ty),
    meanings F θ (ns.zip ts) = ns.zip (F.tys θ ts)
  | [], _ => by simp [meanings]
  | _ :: _, [] => by simp [meanings, Frame.tys]
  | n :: ns, t :: ts => by
    have ih := meanings_zip θ ns ts
    simp only [meanings] at ih ⊢
    simp only [List.zip_cons_cons, List.map_cons, ih, Frame.tys]

end Elab
end Acorn
