/-
All facts of a declaration together.
-/
import Verif.Lemmas.Datatypes
namespace Acorn
namespace Elab

open Spec

universe u

variable {F : Frame.{u}} {C : String → List F.T → F.D} {P : String → List Ty → Ty → Prop}

theorem each_apply {f : Value} {as : List Value} (hf : EachConst P f) (ha : EachConstAll P as) :
    EachConst P (f.apply as) := by
  unfold Value.apply
  split
  · exact hf
  · exact ⟨hf, ha⟩

theorem each_mkAll {ts : List Ty} {v : Value} (h : EachConst P v) : EachConst P (Value.mkAll ts v) := by
  unfold Value.mkAll
  split <;> exact h

theorem each_mkEx {ts : List Ty} {v : Value} (h : EachConst P v) : EachConst P (Value.mkEx ts v) := by
  unfold Value.mkEx
  split <;> exact h

theorem each_mkLam {ts : List Ty} {v : Value} (h : EachConst P v) : EachConst P (Value.mkLam ts v) := by
  unfold Value.mkLam
  split <;> exact h

theorem each_stackVars : ∀ (n : Nat) (ts : List Ty), EachConstAll P (stackVars n ts)
  | _, [] => trivial
  | n, _ :: ts => ⟨trivial, each_stackVars (n + 1) ts⟩

theorem eachAll_iff : ∀ {vs : List Value}, EachConstAll P vs ↔ ∀ v ∈ vs, EachConst P v
  | [] => by simp [EachConstAll]
  | v :: vs => by simp [EachConstAll, eachAll_iff (vs := vs)]

theorem each_foldl (op : BinOp) : ∀ {vs : List Value} {v : Value}, EachConst P v → EachConstAll P vs →
    EachConst P (vs.foldl (fun a b => .bin op a b) v)
  | [], _, h, _ => h
  | _ :: vs, _, h, k => each_foldl op (vs := vs) ⟨h, k.1⟩ k.2

theorem each_reduce {op : BinOp} {vs : List Value} {w : Value} (h : Value.reduce op vs = some w)
    (k : EachConstAll P vs) : EachConst P w := by
  cases vs with
  | nil => cases h
  | cons v vs =>
    cases h
    exact each_foldl op k.1 k.2

theorem each_con {T : Ty} {params : List String} {c : Con} {n : Nat}
    (h : P c.name (params.map .arb) (Ty.functional c.args T)) :
    EachConst P ((c.fn T params).apply (stackVars n c.args)) := each_apply h (each_stackVars _ _)

/-- The constants of the constructors have the property. -/
def ConsHave (P : String → List Ty → Ty → Prop) (T : Ty) (params : List String) (cs : List Con) : Prop :=
  ∀ c ∈ cs, P c.name (params.map .arb) (Ty.functional c.args T)

theorem each_distinct {T : Ty} {params : List String} {cs : List Con} (h : ConsHave P T params cs) :
    ∀ v ∈ distinctFacts T params [] cs, EachConst P v := by
  refine distinctFacts_all.2 fun i j c d _ hc hd => ?_
  exact each_mkAll ⟨each_con (h c (List.mem_of_getElem? hc)), each_con (h d (List.mem_of_getElem? hd))⟩

theorem each_cover {T : Ty} {params : List String} {cs : List Con} {v : Value} (h : ConsHave P T params cs)
    (e : coverFact T params cs = some v) : EachConst P v := by
  simp only [coverFact, Option.bind_eq_bind, Option.pure_def] at e
  obtain ⟨w, hw, e⟩ := Option.bind_eq_some_iff.1 e
  cases e
  refine each_mkAll (each_reduce hw (eachAll_iff.2 fun v hv => ?_))
  obtain ⟨c, hc, rfl⟩ := List.mem_map.1 hv
  exact each_mkEx ⟨trivial, each_con (h c hc)⟩

theorem each_zipEq : ∀ {as bs : List Value}, EachConstAll P as → EachConstAll P bs →
    EachConstAll P (List.zipWith (fun a b => Value.bin .equals a b) as bs)
  | [], _, _, _ => trivial
  | _ :: _, [], _, _ => trivial
  | _ :: _, _ :: _, h, k => ⟨⟨h.1, k.1⟩, each_zipEq h.2 k.2⟩

theorem each_injective {T : Ty} {params : List String} {c : Con} {v : Value}
    (h : P c.name (params.map .arb) (Ty.functional c.args T)) (e : injectiveFact T params c = some v) : EachConst P v := by
  simp only [injectiveFact, Option.bind_eq_bind, Option.pure_def] at e
  obtain ⟨w, hw, e⟩ := Option.bind_eq_some_iff.1 e
  cases e
  exact each_mkAll ⟨⟨each_con h, each_con h⟩, each_reduce hw (each_zipEq (each_stackVars _ _) (each_stackVars _ _))⟩

theorem each_hyps (T : Ty) : ∀ (n : Nat) (ts : List Ty), EachConstAll P (inductionHyps T n ts)
  | _, [] => trivial
  | n, t :: ts => by
    unfold inductionHyps
    split
    · exact ⟨each_apply trivial ⟨trivial, trivial⟩, each_hyps T (n + 1) ts⟩
    · exact each_hyps T (n + 1) ts

theorem each_case {T : Ty} {params : List String} {c : Con} {v : Value}
    (h : P c.name (params.map .arb) (Ty.functional c.args T)) (e : inductionCase T params c = some v) : EachConst P v := by
  have hc : EachConst P ((Value.var 0 (Ty.functional [T] .bool)).apply [(c.fn T params).apply (stackVars 1 c.args)]) :=
    each_apply trivial ⟨each_con h, trivial⟩
  unfold inductionCase at e
  simp only [] at e
  split at e
  · cases e
    exact each_mkAll hc
  · obtain ⟨w, hw, e⟩ := Option.map_eq_some_iff.1 e
    subst e
    exact each_mkAll ⟨each_reduce hw (each_hyps _ _ _), hc⟩

theorem each_body {T : Ty} {params : List String} {cs : List Con} {v : Value} (h : ConsHave P T params cs)
    (e : inductionBody T params cs = some v) : EachConst P v := by
  simp only [inductionBody, Option.bind_eq_bind, Option.pure_def] at e
  obtain ⟨parts, hp, e⟩ := Option.bind_eq_some_iff.1 e
  obtain ⟨w, hw, e⟩ := Option.bind_eq_some_iff.1 e
  cases e
  refine ⟨each_reduce hw (eachAll_iff.2 ?_), each_mkAll (each_apply trivial ⟨trivial, trivial⟩)⟩
  refine (mapM_forall hp).2 fun c hc => ?_
  obtain ⟨v, hv⟩ := inductionCase_some T params c
  exact ⟨v, hv, each_case (h c hc) hv⟩

theorem inductionBody_some (T : Ty) (params : List String) {cs : List Con} (h : cs ≠ []) :
    ∃ v, inductionBody T params cs = some v := by
  obtain ⟨parts, hp, hl⟩ := mapM_total (f := inductionCase T params) (as := cs)
    fun c _ => inductionCase_some T params c
  obtain ⟨w, hw⟩ := reduce_some .and (vs := parts) (by
    intro e; subst e; cases cs with
    | nil => exact h rfl
    | cons c cs => cases hl)
  exact ⟨_, by simp only [inductionBody, hp, Option.bind_eq_bind, Option.bind_some, hw]; rfl⟩

theorem injectiveFact_some (T : Ty) (params : List String) {c : Con} (h : c.args ≠ []) :
    ∃ v, injectiveFact T params c = some v := by
  obtain ⟨w, hw⟩ := reduce_some .and (vs := List.zipWith (fun a b => Value.bin .equals a b) (stackVars 0 c.args)
    (stackVars c.args.length c.args)) (by
    intro e
    have := congrArg List.length e
    simp only [List.length_zipWith, stackVars_length, Nat.min_self, List.length_nil, List.length_eq_zero_iff] at this
    exact h this)
  exact ⟨_, by simp only [injectiveFact, hw]; rfl⟩

theorem coverFact_some (T : Ty) (params : List String) {cs : List Con} (h : cs ≠ []) :
    ∃ v, coverFact T params cs = some v := by
  obtain ⟨w, hw⟩ := reduce_some .or (vs := cs.map fun c =>
    Value.mkEx c.args (.bin .equals (.var 0 T) ((c.fn T params).apply (stackVars 1 c.args)))) (by
      intro e; exact h (List.map_eq_nil_iff.1 e))
  exact ⟨_, by simp only [coverFact, hw]; rfl⟩

/-- The facts exist for every declaration with a constructor. -/
theorem inductiveFacts_some (name : String) (params : List String) {cs : List Con} (h : cs ≠ []) :
    ∃ facts, inductiveFacts name params cs = some facts := by
  obtain ⟨v, hv⟩ := coverFact_some (selfType name params) params h
  obtain ⟨is, hi, _⟩ := mapM_total (f := injectiveFact (selfType name params) params)
    (as := cs.filter fun c => !c.args.isEmpty) (fun c hc => injectiveFact_some _ params (by
      have := (List.mem_filter.1 hc).2
      simpa using this))
  obtain ⟨w, hw⟩ := inductionBody_some (selfType name params) params h
  exact ⟨_, by simp only [inductiveFacts, inductionFact, hv, hi, hw]; rfl⟩

theorem fits_mem : ∀ {xs : List F.D} {ts : List F.T} {i : Nat} {x : F.D} {t : F.T}, F.Fits xs ts →
    xs[i]? = some x → ts[i]? = some t → F.mem x t
  | x :: _, t :: _, 0, _, _, h, hx, ht => by
    simp only [List.getElem?_cons_zero, Option.some.injEq] at hx ht
    subst hx; subst ht
    exact h.1
  | _ :: xs, _ :: ts, i + 1, _, _, h, hx, ht =>
    fits_mem (xs := xs) (ts := ts) h.2 (by simpa using hx) (by simpa using ht)
  | [], [], _, _, _, _, hx, _ => by simp at hx

theorem tys_getElem (θ : String → F.T) : ∀ (ts : List Ty) (i : Nat), (F.tys θ ts)[i]? = (ts[i]?).map (F.ty θ)
  | [], i => by simp [Frame.tys]
  | t :: ts, 0 => by simp [Frame.tys]
  | t :: ts, i + 1 => by simp [Frame.tys, tys_getElem θ ts i]

/-- Induction for the elements of the type of predicates is induction for all predicates. -/
theorem induction_all {t : F.T} {cs : List (ConIn F)} (ht : ∀ c ∈ cs, F.mem c.fn (F.fnN c.args t))
    (hself : ∀ c ∈ cs, ∀ i, (∃ h : i < c.self.length, c.self[i]) → c.args[i]? = some t) :
    (∀ p, F.mem p (F.fn t F.bool) →
      (∀ c ∈ cs, ∀ xs, F.Fits xs c.args →
        (∀ (i : Nat) x, xs[i]? = some x → (∃ h : i < c.self.length, c.self[i]) → F.app p x = F.tt) →
        F.app p (F.appN c.fn xs) = F.tt) → ∀ d, F.mem d t → F.app p d = F.tt) ↔
    ∀ P : F.D → Prop,
      (∀ c ∈ cs, ∀ xs, F.Fits xs c.args →
        (∀ (i : Nat) x, xs[i]? = some x → (∃ h : i < c.self.length, c.self[i]) → P x) → P (F.appN c.fn xs)) →
      ∀ d, F.mem d t → P d := by
  constructor
  · intro h P hP d hd
    have := h (F.lam t fun x => F.ofProp (P x)) (F.mem_lam _ _ _ fun x _ => mem_ofProp _) ?_ d hd
    · rw [F.beta _ _ _ hd, ofProp_tt] at this
      exact this
    · intro c hc xs hx hi
      rw [F.beta _ _ _ (mem_appN (ht c hc) hx), ofProp_tt]
      refine hP c hc xs hx fun i x hxi hs => ?_
      have := hi i x hxi hs
      have hm : F.mem x t := fits_mem hx hxi (hself c hc i hs)
      rw [F.beta _ _ _ hm, ofProp_tt] at this
      exact this
  · intro h p hp hc
    exact h (fun x => F.app p x = F.tt) hc

/-- The constants of the constructors keep their meaning in generic form. -/
theorem cons_generic {name : String} {params : List String} {cs : List Con}
    (h : ∀ c ∈ cs, ∀ t ∈ c.args, ∀ p, t.hasVar p = false) :
    ConsHave (SameGeneric F C params) (selfType name params) params cs := by
  intro c hc θ
  refine constGeneric_meaning θ (.inl ⟨fun p hp _ => ?_, fun e p => ?_⟩)
  · have : ∀ ps : List String, p ∈ ps → p ∈ tysNames (ps.map .arb) := by
      intro ps
      induction ps with
      | nil => intro h; cases h
      | cons q ps ih =>
        intro h
        simp only [List.map_cons, tysNames, tyNames, List.mem_append, List.mem_singleton]
        rcases List.mem_cons.1 h with h | h
        · exact .inl h
        · exact .inr (ih h)
    exact this params hp
  · have hp : params = [] := List.map_eq_nil_iff.1 e
    subst hp
    rw [hasVar_functional]
    have : ∀ ts : List Ty, (∀ t ∈ ts, t.hasVar p = false) → Ty.hasVarAny p ts = false := by
      intro ts
      induction ts with
      | nil => intro _; rfl
      | cons t ts ih =>
        intro h
        rw [Ty.hasVarAny, h t List.mem_cons_self, ih fun t ht => h t (List.mem_cons_of_mem _ ht)]
        rfl
    rw [this _ fun t ht => h c hc t ht p]
    rfl

/-- The facts of an inductive declaration hold exactly when the type is freely generated. -/
theorem inductiveFacts_iff (θ : String → F.T) {name : String} {params : List String} {cs : List Con} {facts : List Value}
    (hv : ∀ c ∈ cs, ∀ t ∈ c.args, ∀ p, t.hasVar p = false) (ht : ConsTyped F C θ name params cs)
    (e : inductiveFacts name params cs = some facts) :
    (∀ f ∈ facts, F.Holds C θ [] f) ↔ Freely F (F.data name (params.map θ)) (cs.map (conIn F C θ name params)) := by
  have hg := cons_generic (F := F) (C := C) (name := name) (params := params) hv
  simp only [inductiveFacts, inductionFact, Option.bind_eq_bind, Option.pure_def] at e
  obtain ⟨cover, h1, e⟩ := Option.bind_eq_some_iff.1 e
  obtain ⟨inj, h2, e⟩ := Option.bind_eq_some_iff.1 e
  obtain ⟨ind, h0, e⟩ := Option.bind_eq_some_iff.1 e
  obtain ⟨body, h3, h0⟩ := Option.map_eq_some_iff.1 h0
  subst h0
  cases e
  have gen : ∀ v, EachConst (SameGeneric F C params) v → (F.Holds C θ [] (v.genericize params) ↔ F.Holds C θ [] v) :=
    fun v hv => by rw [Frame.Holds, den_genericize θ [] v hv, Frame.Holds]
  have hget : ∀ (i : Nat) x, (cs.map (conIn F C θ name params))[i]? = some x ↔
      ∃ c, cs[i]? = some c ∧ conIn F C θ name params c = x := by
    intro i x
    rw [List.getElem?_map, Option.map_eq_some_iff]
  simp only [List.forall_mem_map, List.mem_append, List.mem_cons, List.not_mem_nil, or_false, or_imp, forall_and,
    forall_eq]
  rw [gen _ (each_cover hg h1), gen _ (each_mkAll (each_body hg h3)), holds_coverFact θ name params cs h1]
  have hD : (∀ v ∈ distinctFacts (selfType name params) params [] cs, F.Holds C θ [] (v.genericize params)) ↔
      ∀ (i j : Nat) c d, i ≠ j → (cs.map (conIn F C θ name params))[i]? = some c →
      (cs.map (conIn F C θ name params))[j]? = some d →
      ∀ xs ys, F.Fits xs c.args → F.Fits ys d.args → F.appN c.fn xs ≠ F.appN d.fn ys := by
    have : (∀ v ∈ distinctFacts (selfType name params) params [] cs, F.Holds C θ [] (v.genericize params)) ↔
        (∀ v ∈ distinctFacts (selfType name params) params [] cs, F.Holds C θ [] v) :=
      forall_congr' fun v => imp_congr_right fun hv => gen v (each_distinct hg v hv)
    rw [this, distinctFacts_all]
    simp only [List.length_nil, Nat.zero_add, List.nil_append, holds_distinctFact]
    constructor
    · intro h i j c d hij hc hd xs ys hx hy
      obtain ⟨c, hc', rfl⟩ := (hget i _).1 hc
      obtain ⟨d, hd', rfl⟩ := (hget j _).1 hd
      rcases Nat.lt_or_gt_of_ne hij with hlt | hlt
      · exact (h j i d c hlt hd' hc' ys xs hy hx).symm
      · exact h i j c d hlt hc' hd' xs ys hx hy
    · intro h i j c d hij hc hd xs ys hx hy
      exact h i j _ _ (Nat.ne_of_gt hij) ((hget i _).2 ⟨c, hc, rfl⟩) ((hget j _).2 ⟨d, hd, rfl⟩) xs ys hx hy
  have hI : (∀ v ∈ inj, F.Holds C θ [] (v.genericize params)) ↔
      ∀ c ∈ cs.map (conIn F C θ name params), ∀ xs ys, F.Fits xs c.args → F.Fits ys c.args →
        F.appN c.fn xs = F.appN c.fn ys → xs = ys := by
    rw [mapM_forall h2]
    simp only [List.forall_mem_map]
    constructor
    · intro h c hc
      by_cases ha : c.args = []
      · intro xs ys hx hy _
        simp only [conIn, ha, Frame.tys] at hx hy
        match xs, ys, hx, hy with
        | [], [], _, _ => rfl
      · obtain ⟨v, hv, h⟩ := h c (List.mem_filter.2 ⟨hc, by simpa using ha⟩)
        rw [gen _ (each_injective (hg c hc) hv), holds_injectiveFact θ _ params c hv] at h
        exact h
    · intro h c hc
      obtain ⟨hc, ha⟩ := List.mem_filter.1 hc
      obtain ⟨v, hv⟩ := injectiveFact_some (selfType name params) params (c := c) (by simpa using ha)
      refine ⟨v, hv, ?_⟩
      rw [gen _ (each_injective (hg c hc) hv), holds_injectiveFact θ _ params c hv]
      exact h c hc
  have hP : F.Holds C θ [] (Value.mkAll [Ty.functional [selfType name params] .bool] body) ↔
      ∀ p, F.mem p (F.fn (F.data name (params.map θ)) F.bool) →
      (∀ c ∈ cs.map (conIn F C θ name params), ∀ xs, F.Fits xs c.args →
        (∀ (i : Nat) x, xs[i]? = some x → (∃ h : i < c.self.length, c.self[i]) → F.app p x = F.tt) →
        F.app p (F.appN c.fn xs) = F.tt) → ∀ d, F.mem d (F.data name (params.map θ)) → F.app p d = F.tt := by
    rw [den_mkAll]
    have hty : F.tys θ [Ty.functional [selfType name params] .bool] = [F.fn (F.data name (params.map θ)) F.bool] := by
      simp only [Frame.tys, ty_functional, ty_selfType, Frame.fnN, Frame.ty]
    rw [hty]
    have key := fun p => holds_inductionBody (C := C) θ name params cs p h3
    simp only [List.forall_mem_map]
    constructor
    · intro h p hp
      exact (key p).1 (h [p] (fits_single.2 ⟨p, rfl, hp⟩))
    · intro h zs hz
      obtain ⟨p, rfl, hp⟩ := fits_single.1 hz
      exact (key p).2 (h p hp)
  rw [hD, hI, hP, induction_all]
  · constructor
    · rintro ⟨⟨h1, h2, h3⟩, h4⟩
      refine ⟨h1, h3, fun d hd => ?_, h4⟩
      obtain ⟨c, hc, xs, hx, e⟩ := h2 d hd
      exact ⟨_, List.mem_map.2 ⟨c, hc, rfl⟩, xs, hx, e⟩
    · intro h
      refine ⟨⟨h.distinct, fun d hd => ?_, h.injective⟩, h.induction⟩
      obtain ⟨c, hc, xs, hx, e⟩ := h.cover d hd
      obtain ⟨c, hc', rfl⟩ := List.mem_map.1 hc
      exact ⟨c, hc', xs, hx, e⟩
  · simp only [List.forall_mem_map]
    exact ht
  · simp only [List.forall_mem_map]
    rintro c hc i ⟨hi, he⟩
    simp only [conIn, List.getElem_map, List.length_map] at hi he
    simp only [conIn, tys_getElem, List.getElem?_eq_getElem hi, he, Option.map_some, ty_selfType]

/-- The constant `induction` of a type says of a predicate that it can be proved by induction. -/
theorem inductionDef_iff (θ : String → F.T) {name : String} {params : List String} {cs : List Con} {d : Value}
    (hv : ∀ c ∈ cs, ∀ t ∈ c.args, ∀ p, t.hasVar p = false)
    (e : inductionDef (selfType name params) params cs = some d) (p : F.D)
    (hp : F.mem p (F.fn (F.data name (params.map θ)) F.bool)) :
    F.app (F.den C θ [] d) p = F.tt ↔
      ((∀ c ∈ cs, ∀ xs, F.Fits xs (F.tys θ c.args) →
        (∀ (i : Nat) x, xs[i]? = some x → c.args[i]? = some (selfType name params) → F.app p x = F.tt) →
        F.app p (F.appN (C c.name (params.map θ)) xs) = F.tt) →
      ∀ x, F.mem x (F.data name (params.map θ)) → F.app p x = F.tt) := by
  have hg := cons_generic (F := F) (C := C) (name := name) (params := params) hv
  rw [inductionDef] at e
  obtain ⟨v, h, rfl⟩ := Option.map_eq_some_iff.1 e
  rw [den_genericize θ [] _ (each_mkLam (each_body hg h)), den_mkLam]
  have hty : F.tys θ [Ty.functional [selfType name params] .bool] = [F.fn (F.data name (params.map θ)) F.bool] := by
    simp only [Frame.tys, ty_functional, ty_selfType, Frame.fnN, Frame.ty]
  rw [hty, Frame.lamN, F.beta _ _ _ hp]
  show F.Holds C θ [p] v ↔ _
  rw [holds_inductionBody θ name params cs p h]
  refine imp_congr_left (forall_congr' fun c => imp_congr_right fun _ => forall_congr' fun xs => imp_congr_right fun _ =>
    imp_congr_left (forall_congr' fun i => forall_congr' fun x => imp_congr_right fun _ => imp_congr_left ?_))
  simp only [List.length_map, List.getElem_map]
  exact List.getElem?_eq_some_iff.symm

end Elab
end Acorn
