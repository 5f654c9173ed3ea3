/-
Matching finds the instantiation if there is one; resolving a constant from its arguments.
-/
import Verif.Lemmas.TypeUnifier
namespace Acorn
namespace Elab

open Spec

mutual

/-- A bound on the recursion of a match. -/
def Ty.weight : Ty → Nat
  | .bool => 0
  | .data _ as => 1 + Ty.weightAll as
  | .fn as r => 1 + Ty.weightAll as + r.weight
  | .tvar _ => 0
  | .arb _ => 0
  | .type0 => 0
  | .constraint _ => 0

/-- That of several types. -/
def Ty.weightAll : List Ty → Nat
  | [] => 0
  | t :: ts => 1 + t.weight + Ty.weightAll ts

end

/-- The instantiation is one that the match can find. -/
structure Findable (C : Classes) (σ : TyMap) (g : Ty) : Prop where
  covers : Covers σ (tyNames g)
  meets : ∀ n t, n ∈ tyNames g → σ.lookup n = some t → MeetsClass C n t
  vars : ∀ n t, g.hasVar n = true → σ.lookup n = some t → t.hasVar n = false
  arbs : ∀ n t, g.hasArb n = true → σ.lookup n = some t → t.hasArb n = false ∨ t = .arb n

/-- The same for several types. -/
structure FindableAll (C : Classes) (σ : TyMap) (gs : List Ty) : Prop where
  covers : Covers σ (tysNames gs)
  meets : ∀ n t, n ∈ tysNames gs → σ.lookup n = some t → MeetsClass C n t
  vars : ∀ n t, Ty.hasVarAny n gs = true → σ.lookup n = some t → t.hasVar n = false
  arbs : ∀ n t, Ty.hasArbAny n gs = true → σ.lookup n = some t → t.hasArb n = false ∨ t = .arb n

theorem Findable.fn_args {C : Classes} {σ : TyMap} {as : List Ty} {r : Ty} (h : Findable C σ (.fn as r)) :
    FindableAll C σ as where
  covers := Covers.left h.covers
  meets n t hn := h.meets n t (List.mem_append_left _ hn)
  vars n t hn := h.vars n t (by simp [Ty.hasVar, hn])
  arbs n t hn := h.arbs n t (by simp [Ty.hasArb, hn])

theorem Findable.fn_ret {C : Classes} {σ : TyMap} {as : List Ty} {r : Ty} (h : Findable C σ (.fn as r)) :
    Findable C σ r where
  covers := Covers.right h.covers
  meets n t hn := h.meets n t (List.mem_append_right _ hn)
  vars n t hn := h.vars n t (by simp [Ty.hasVar, hn])
  arbs n t hn := h.arbs n t (by simp [Ty.hasArb, hn])

theorem Findable.data {C : Classes} {σ : TyMap} {d : String} {as : List Ty} (h : Findable C σ (.data d as)) :
    FindableAll C σ as where
  covers := h.covers
  meets := h.meets
  vars := h.vars
  arbs := h.arbs

theorem FindableAll.head {C : Classes} {σ : TyMap} {a : Ty} {as : List Ty} (h : FindableAll C σ (a :: as)) :
    Findable C σ a where
  covers := Covers.left h.covers
  meets n t hn := h.meets n t (List.mem_append_left _ hn)
  vars n t hn := h.vars n t (by simp [Ty.hasVarAny, hn])
  arbs n t hn := h.arbs n t (by simp [Ty.hasArbAny, hn])

theorem FindableAll.tail {C : Classes} {σ : TyMap} {a : Ty} {as : List Ty} (h : FindableAll C σ (a :: as)) :
    FindableAll C σ as where
  covers := Covers.right h.covers
  meets n t hn := h.meets n t (List.mem_append_right _ hn)
  vars n t hn := h.vars n t (by simp [Ty.hasVarAny, hn])
  arbs n t hn := h.arbs n t (by simp [Ty.hasArbAny, hn])

theorem ext_cons_into {σ m : TyMap} {n : String} {t : Ty} (h : Ext m σ) (hn : σ.lookup n = some t) :
    Ext ((n, t) :: m) σ := by
  intro k u e
  simp only [List.lookup_cons] at e
  by_cases hk : k == n
  · simp only [hk] at e
    have : k = n := by simpa using hk
    cases e
    exact this ▸ hn
  · simp only [hk] at e
    exact h k u e

theorem matchTvar_complete {C : Classes} {σ m : TyMap} {n : String} (hf : Findable C σ (.tvar n))
    (he : Ext m σ) : ∃ m', matchTvar C n ((Ty.tvar n).instantiate σ) m = some m' ∧ Ext m' σ := by
  obtain ⟨t, ht⟩ := hf.covers n (by simp [tyNames])
  have hi : (Ty.tvar n).instantiate σ = t := by
    show (σ.lookup n).getD _ = t
    rw [ht]; rfl
  rw [hi]
  unfold matchTvar
  cases hl : m.lookup n with
  | some u =>
    have := he n u hl
    rw [ht] at this
    cases this
    simp only [same_refl, if_true]
    exact ⟨m, rfl, he⟩
  | none =>
    have h1 := (meets_iff C n t).2 (hf.meets n t (by simp [tyNames]) ht)
    have h2 := hf.vars n t (by simp [Ty.hasVar]) ht
    simp only [h1, h2, Bool.not_true, Bool.false_eq_true, if_false]
    exact ⟨_, rfl, ext_cons_into he ht⟩

theorem matchArb_complete {C : Classes} {σ m : TyMap} {n : String} (hf : Findable C σ (.arb n))
    (he : Ext m σ) : ∃ m', matchArb C n ((Ty.arb n).instantiate σ) m = some m' ∧ Ext m' σ := by
  obtain ⟨t, ht⟩ := hf.covers n (by simp [tyNames])
  have hi : (Ty.arb n).instantiate σ = t := by
    show (σ.lookup n).getD _ = t
    rw [ht]; rfl
  rw [hi]
  unfold matchArb
  cases hl : m.lookup n with
  | some u =>
    have := he n u hl
    rw [ht] at this
    cases this
    simp only [same_refl, if_true]
    exact ⟨m, rfl, he⟩
  | none =>
    have h1 := (meets_iff C n t).2 (hf.meets n t (by simp [tyNames]) ht)
    rcases hf.arbs n t (by simp [Ty.hasArb]) ht with h2 | rfl
    · simp only [h1, h2, Bool.not_true, Bool.false_eq_true, if_false, Bool.false_and]
      exact ⟨_, rfl, ext_cons_into he ht⟩
    · simp only [h1, Bool.not_true, Bool.false_eq_true, if_false]
      split
      · simp only [beq_self_eq_true, if_true]
        exact ⟨_, rfl, ext_cons_into he ht⟩
      · exact ⟨_, rfl, ext_cons_into he ht⟩

theorem match_complete (C : Classes) (σ : TyMap) (hσ : ∀ p ∈ σ, NormalTy p.2) : ∀ fuel : Nat,
    (∀ g m, NormalTy g → Findable C σ g → Ext m σ → g.weight < fuel →
      ∃ m', matchInst C fuel g (g.instantiate σ) m = some m' ∧ Ext m' σ) ∧
    (∀ as cs m, NormalTys as → FindableAll C σ as → Ext m σ → Ty.weightAll as < fuel →
      ∃ m', matchZip C fuel as (Ty.instantiateAll σ as ++ cs) m = some m' ∧ Ext m' σ)
  | 0 => ⟨fun g m _ _ _ h => absurd h (by omega), fun as cs m _ _ _ h => absurd h (by omega)⟩
  | fuel + 1 => by
    obtain ⟨ihI, ihZ⟩ := match_complete C σ hσ fuel
    constructor
    · intro g m hg hf he hw
      cases g with
      | tvar n =>
        simp only [matchInst]
        exact matchTvar_complete hf he
      | arb n =>
        simp only [matchInst]
        exact matchArb_complete hf he
      | fn as r =>
        have hw' : 1 + Ty.weightAll as + r.weight < fuel + 1 := hw
        show ∃ m', matchInst C (fuel + 1) (.fn as r) (Ty.functional (Ty.instantiateAll σ as) (r.instantiate σ)) m =
          some m' ∧ _
        have hne := instantiateAll_ne (ps := σ) hg.1
        have hnr := normal_instantiate hσ r hg.2.2.1
        have hlen := instantiateAll_length σ as
        have hcase : (∃ cs q, r.instantiate σ = .fn cs q) ∨ NotFn (r.instantiate σ) := by
          cases h : r.instantiate σ with
          | fn cs q => exact .inl ⟨cs, q, rfl⟩
          | _ => exact .inr (fun _ _ e => by cases e)
        rcases hcase with ⟨cs, q, hr⟩ | hr
        · rw [hr] at hnr ⊢
          rw [functional_fn q hne]
          have hcs : 0 < cs.length := List.length_pos_iff.2 hnr.1
          simp only [matchInst, List.length_append, hlen]
          rw [if_pos (by omega)]
          obtain ⟨m1, h1, e1⟩ := ihZ as cs m hg.2.1 hf.fn_args he (by omega)
          obtain ⟨m2, h2, e2⟩ := ihI r m1 hg.2.2.1 hf.fn_ret e1 (by omega)
          refine ⟨m2, ?_, e2⟩
          rw [hr] at h2
          have hd : (Ty.instantiateAll σ as ++ cs).drop as.length = cs := by
            rw [← hlen, List.drop_left]
          rw [hd, functional_notFn hnr.1 hnr.2.2.2, h1]
          exact h2
        · rw [functional_notFn hne hr]
          simp only [matchInst, hlen]
          rw [if_neg (by omega), if_neg (by omega)]
          obtain ⟨m1, h1, e1⟩ := ihI r m hg.2.2.1 hf.fn_ret he (by omega)
          obtain ⟨m2, h2, e2⟩ := ihZ as [] m1 hg.2.1 hf.fn_args e1 (by omega)
          refine ⟨m2, ?_, e2⟩
          rw [h1]
          rw [List.append_nil] at h2
          exact h2
      | data d as =>
        have hw' : 1 + Ty.weightAll as < fuel + 1 := hw
        obtain ⟨m1, h1, e1⟩ := ihZ as [] m hg hf.data he (by omega)
        refine ⟨m1, ?_, e1⟩
        show matchInst C (fuel + 1) (.data d as) (.data d (Ty.instantiateAll σ as)) m = _
        rw [List.append_nil] at h1
        simp only [matchInst, instantiateAll_length]
        simp [h1]
      | bool => exact ⟨m, rfl, he⟩
      | type0 => exact ⟨m, rfl, he⟩
      | constraint c =>
        refine ⟨m, ?_, he⟩
        show (if (Ty.constraint c).same (.constraint c) then some m else none) = _
        rw [same_refl]; rfl
    · intro as cs m ha hf he hw
      cases as with
      | nil => exact ⟨m, by simp [matchZip], he⟩
      | cons a as =>
        have hw' : 1 + a.weight + Ty.weightAll as < fuel + 1 := hw
        obtain ⟨m1, h1, e1⟩ := ihI a m ha.1 hf.head he (by omega)
        obtain ⟨m2, h2, e2⟩ := ihZ as cs m1 ha.2 hf.tail e1 (by omega)
        refine ⟨m2, ?_, e2⟩
        show matchZip C (fuel + 1) (a :: as) (a.instantiate σ :: (Ty.instantiateAll σ as ++ cs)) m = _
        simp only [matchZip, h1]
        exact h2

/-! ### Arguments -/

/-- The types of the values, if none of them panics. -/
def typesOf : List Value → Option (List Ty)
  | [] => some []
  | v :: vs => do return (← v.getType) :: (← typesOf vs)

theorem matchArgs_sound (C : Classes) (fuel : Nat) : ∀ (ts : List Ty) (vs : List Value) (m m' : TyMap),
    NormalTys ts → NormalInAll vs → matchArgs C fuel ts vs m = some m' →
    ∃ us, typesOf vs = some us ∧ NormalTys us ∧ vs.length ≤ ts.length ∧ Ext m m' ∧
      Covers m' (tysNames (ts.take vs.length)) ∧ Ty.instantiateAll m' (ts.take vs.length) = us ∧
      NewMeet C m m'
  | ts, [], m, m', _, _, h => by
    have : m = m' := by cases ts <;> simpa [matchArgs] using h
    subst this
    exact ⟨[], rfl, True.intro, by simp, Ext.rfl' _, fun n hn => by simp [tysNames] at hn, by simp [Ty.instantiateAll],
      fun _ _ e => .inl e⟩
  | [], v :: vs, m, m', _, _, h => by simp [matchArgs] at h
  | t :: ts, v :: vs, m, m', hn, hv, h => by
    simp only [matchArgs, Option.bind_eq_bind] at h
    obtain ⟨u, hu, h2⟩ := Option.bind_eq_some_iff.1 h
    obtain ⟨m1, h3, h4⟩ := Option.bind_eq_some_iff.1 h2
    have hnu := normal_getType v u hv.1 hu
    obtain ⟨e1, c1, q1, n1⟩ := (match_sound C fuel).1 t u m m1 hn.1 hnu h3
    obtain ⟨us, hus, hnus, hl, e2, c2, q2, n2⟩ := matchArgs_sound C fuel ts vs m1 m' hn.2 hv.2 h4
    refine ⟨u :: us, ?_, ⟨hnu, hnus⟩, by simpa using hl, e1.trans e2, ?_, ?_, n1.trans n2⟩
    · simp [typesOf, hu, hus]
    · simp only [List.length_cons, List.take_succ_cons, tysNames]
      exact (c1.ext e2).append c2
    · simp only [List.length_cons, List.take_succ_cons, Ty.instantiateAll]
      rw [instantiate_congr t (agree_of c1 e2), q1, q2]

theorem typesOf_length : ∀ {vs : List Value} {us : List Ty}, typesOf vs = some us → us.length = vs.length
  | [], us, h => by cases h; rfl
  | v :: vs, us, h => by
    simp only [typesOf, Option.bind_eq_bind, Option.pure_def] at h
    obtain ⟨u, hu, h2⟩ := Option.bind_eq_some_iff.1 h
    obtain ⟨us', h3, h4⟩ := Option.bind_eq_some_iff.1 h2
    cases h4
    simp [typesOf_length h3]

/-- What the arguments leave: the generic type is the function type from the parameters used to the
rest. -/
theorem matchCall_sound (C : Classes) (fuel : Nat) {g : Ty} {vs : List Value} {m m' : TyMap} {ret : Ty}
    (hg : NormalTy g) (hv : NormalInAll vs) (h : matchCall C fuel g vs m = some (ret, m')) :
    ∃ ts us, g = Ty.functional ts ret ∧ typesOf vs = some us ∧ NormalTy ret ∧ NormalTys us ∧ Ext m m' ∧
      Covers m' (tysNames ts) ∧ Ty.instantiateAll m' ts = us ∧ NewMeet C m m' := by
  unfold matchCall at h
  split at h
  · rename_i he
    cases h
    have : vs = [] := List.isEmpty_iff.1 he
    subst this
    exact ⟨[], [], rfl, rfl, hg, True.intro, Ext.rfl' _, fun n hn => by simp [tysNames] at hn, rfl,
      fun _ _ e => .inl e⟩
  · rename_i hne
    have hpos : 0 < vs.length := by
      cases vs with
      | nil => simp at hne
      | cons v vs => simp
    cases g with
    | fn ts r =>
      simp only [Option.bind_eq_bind] at h
      obtain ⟨m1, h1, h2⟩ := Option.bind_eq_some_iff.1 h
      obtain ⟨us, hus, hnus, hl, e1, c1, q1, n1⟩ := matchArgs_sound C fuel ts vs m m1 hg.2.1 hv h1
      obtain ⟨hret, rfl⟩ := Prod.mk.inj (Option.some.inj h2)
      have hret' : Ty.functional (ts.drop vs.length) r = ret := by
        rw [← hret]
        split
        · rename_i hlt
          exact functional_notFn (drop_ne_nil hlt) hg.2.2.2
        · rename_i hlt
          rw [List.drop_eq_nil_of_le (by omega)]; rfl
      refine ⟨ts.take vs.length, us, ?_, hus, ?_, hnus, e1, c1, q1, n1⟩
      · rw [← hret', ← functional_append, List.take_append_drop, functional_notFn hg.1 hg.2.2.2]
      · rw [← hret']
        exact normal_functional (normalTys_drop hg.2.1 _) hg.2.2.1
    | _ => simp at h

theorem tysNames_append : ∀ as bs : List Ty, tysNames (as ++ bs) = tysNames as ++ tysNames bs
  | [], _ => rfl
  | a :: as, bs => by simp [tysNames, tysNames_append as bs]

theorem tyNames_functional (as : List Ty) (r : Ty) (n : String) :
    n ∈ tyNames (Ty.functional as r) ↔ n ∈ tysNames as ∨ n ∈ tyNames r := by
  cases as with
  | nil => simp [Ty.functional, tysNames]
  | cons a as =>
    cases r with
    | fn bs q =>
      show n ∈ tysNames (a :: as ++ bs) ++ tyNames q ↔ _
      rw [tysNames_append]
      simp [tyNames, or_assoc]
    | _ =>
      show n ∈ tysNames (a :: as) ++ tyNames _ ↔ _
      simp

theorem lookup_zip_params (m : TyMap) : ∀ (params : List String) (n : String), n ∈ params →
    (params.zip (inferredParams m params)).lookup n = some ((m.lookup n).getD (.tvar n))
  | k :: params, n, h => by
    simp only [inferredParams, List.map_cons, List.zip_cons_cons, List.lookup_cons]
    by_cases hk : n == k
    · have : n = k := by simpa using hk
      subst this
      simp
    · simp only [hk]
      refine lookup_zip_params m params n ?_
      rcases List.mem_cons.1 h with rfl | h
      · simp at hk
      · exact h

/-- The instance that the parameters give is the one the mapping gives, when the generic type has no other
names. -/
theorem resolve_type {m : TyMap} {u : Unresolved} (hp : ∀ n ∈ tyNames u.generic, n ∈ u.params)
    (hc : Covers m (tyNames u.generic)) :
    u.generic.instantiate (u.params.zip (inferredParams m u.params)) = u.generic.instantiate m := by
  apply instantiate_congr
  intro n hn
  obtain ⟨t, ht⟩ := hc n hn
  rw [lookup_zip_params m u.params n (hp n hn), ht]; rfl

/-! ### Entries are in normal form -/

theorem normal_cons {m : TyMap} {n : String} {i : Ty} (h : ∀ p ∈ m, NormalTy p.2) (hi : NormalTy i) :
    ∀ p ∈ (n, i) :: m, NormalTy p.2 := by
  intro p hp
  rcases List.mem_cons.1 hp with rfl | hp
  · exact hi
  · exact h p hp

theorem matchTvar_normal {C : Classes} {n : String} {i : Ty} {m m' : TyMap} (hi : NormalTy i)
    (hm : ∀ p ∈ m, NormalTy p.2) (h : matchTvar C n i m = some m') : ∀ p ∈ m', NormalTy p.2 := by
  unfold matchTvar at h
  split at h
  · split at h
    · cases h; exact hm
    · simp at h
  · split at h
    · simp at h
    · split at h
      · simp at h
      · cases h; exact normal_cons hm hi

theorem matchArb_normal {C : Classes} {n : String} {i : Ty} {m m' : TyMap} (hi : NormalTy i)
    (hm : ∀ p ∈ m, NormalTy p.2) (h : matchArb C n i m = some m') : ∀ p ∈ m', NormalTy p.2 := by
  unfold matchArb at h
  split at h
  · split at h
    · cases h; exact hm
    · simp at h
  · split at h
    · simp at h
    · split at h
      · split at h
        · split at h
          · cases h; exact normal_cons hm hi
          · simp at h
        · simp at h
      · cases h; exact normal_cons hm hi

theorem match_normal (C : Classes) : ∀ fuel : Nat,
    (∀ g i m m', NormalTy i → (∀ p ∈ m, NormalTy p.2) → matchInst C fuel g i m = some m' →
      ∀ p ∈ m', NormalTy p.2) ∧
    (∀ as bs m m', NormalTys bs → (∀ p ∈ m, NormalTy p.2) → matchZip C fuel as bs m = some m' →
      ∀ p ∈ m', NormalTy p.2)
  | 0 => ⟨fun g i m m' _ _ h => by simp [matchInst] at h, fun as bs m m' _ _ h => by simp [matchZip] at h⟩
  | fuel + 1 => by
    obtain ⟨ihI, ihZ⟩ := match_normal C fuel
    constructor
    · intro g i m m' hi hm h
      cases g with
      | tvar n => simp only [matchInst] at h; exact matchTvar_normal hi hm h
      | arb n => simp only [matchInst] at h; exact matchArb_normal hi hm h
      | fn as r =>
        cases i with
        | fn bs q =>
          simp only [matchInst] at h
          split at h
          · obtain ⟨m1, h1, h2⟩ := Option.bind_eq_some_iff.1 h
            exact ihI _ _ m1 m' (normal_functional (normalTys_drop hi.2.1 _) hi.2.2.1)
              (ihZ _ _ m m1 hi.2.1 hm h1) h2
          · split at h
            · obtain ⟨m1, h1, h2⟩ := Option.bind_eq_some_iff.1 h
              exact ihI _ _ m1 m' hi.2.2.1 (ihZ _ _ m m1 hi.2.1 hm h1) h2
            · obtain ⟨m1, h1, h2⟩ := Option.bind_eq_some_iff.1 h
              exact ihZ _ _ m1 m' hi.2.1 (ihI _ _ m m1 hi.2.2.1 hm h1) h2
        | _ => simp [matchInst, Ty.same] at h
      | data d as =>
        cases i with
        | data e bs =>
          simp only [matchInst] at h
          split at h
          · simp at h
          · exact ihZ as bs m m' hi hm h
        | _ => simp [matchInst, Ty.same] at h
      | _ =>
        simp only [matchInst] at h
        split at h
        · cases h; exact hm
        · simp at h
    · intro as bs m m' hb hm h
      cases as with
      | nil => simp only [matchZip] at h; cases h; exact hm
      | cons a as =>
        cases bs with
        | nil => simp only [matchZip] at h; cases h; exact hm
        | cons b bs =>
          simp only [matchZip] at h
          obtain ⟨m1, h1, h2⟩ := Option.bind_eq_some_iff.1 h
          exact ihZ as bs m1 m' hb.2 (ihI a b m m1 hb.1 hm h1) h2

theorem matchArgs_normal (C : Classes) (fuel : Nat) : ∀ (ts : List Ty) (vs : List Value) (m m' : TyMap),
    NormalInAll vs → (∀ p ∈ m, NormalTy p.2) → matchArgs C fuel ts vs m = some m' → ∀ p ∈ m', NormalTy p.2
  | ts, [], m, m', _, hm, h => by
    have : m = m' := by cases ts <;> simpa [matchArgs] using h
    exact this ▸ hm
  | [], v :: vs, m, m', _, _, h => by simp [matchArgs] at h
  | t :: ts, v :: vs, m, m', hv, hm, h => by
    simp only [matchArgs, Option.bind_eq_bind] at h
    obtain ⟨u, hu, h2⟩ := Option.bind_eq_some_iff.1 h
    obtain ⟨m1, h3, h4⟩ := Option.bind_eq_some_iff.1 h2
    exact matchArgs_normal C fuel ts vs m1 m' hv.2
      ((match_normal C fuel).1 t u m m1 (normal_getType v u hv.1 hu) hm h3) h4

theorem matchCall_normal (C : Classes) (fuel : Nat) {g : Ty} {vs : List Value} {m m' : TyMap} {ret : Ty}
    (hv : NormalInAll vs) (hm : ∀ p ∈ m, NormalTy p.2) (h : matchCall C fuel g vs m = some (ret, m')) :
    ∀ p ∈ m', NormalTy p.2 := by
  unfold matchCall at h
  split at h
  · cases h; exact hm
  · cases g with
    | fn ts r =>
      simp only [Option.bind_eq_bind] at h
      obtain ⟨m1, h1, h2⟩ := Option.bind_eq_some_iff.1 h
      obtain ⟨_, rfl⟩ := Prod.mk.inj (Option.some.inj h2)
      exact matchArgs_normal C fuel ts vs m m1 hv hm h1
    | _ => simp at h

theorem typesOf_map : ∀ {vs : List Value} {us : List Ty}, typesOf vs = some us →
    vs.map Value.getType = us.map some
  | [], us, h => by cases h; rfl
  | v :: vs, us, h => by
    simp only [typesOf, Option.bind_eq_bind, Option.pure_def] at h
    obtain ⟨u, hu, h2⟩ := Option.bind_eq_some_iff.1 h
    obtain ⟨us', h3, h4⟩ := Option.bind_eq_some_iff.1 h2
    cases h4
    simp [typesOf_map h3, hu]

theorem getType_apply {f : Value} {vs : List Value} {us : List Ty} {res : Ty} (hr : NormalTy res)
    (hl : us.length = vs.length) (h : f.getType = some (Ty.functional us res)) :
    (f.apply vs).getType = some res := by
  unfold Value.apply
  cases vs with
  | nil =>
    have : us = [] := List.length_eq_zero_iff.1 hl
    subst this
    exact h
  | cons v vs =>
    show f.getType.bind _ = _
    rw [h, ← hl]
    exact appliedN_functional hr us

theorem resolve_sound {C : Classes} {fuel : Nat} {u : Unresolved} {args : List Value} {expected : Option Ty}
    {m : TyMap} {v : Value} (hg : NormalTy u.generic) (hv : NormalInAll (u.args ++ args))
    (he : ∀ e, expected = some e → NormalTy e) (hm : ∀ p ∈ m, NormalTy p.2)
    (hp : ∀ n ∈ tyNames u.generic, n ∈ u.params)
    (h : tryResolve C fuel u args expected m = some (.resolved v)) :
    ∃ ps us res, ps.length = u.params.length ∧
      v = (Value.const u.name ps (u.generic.instantiate (u.params.zip ps))).apply (u.args ++ args) ∧
      (u.args ++ args).map Value.getType = us.map some ∧
      u.generic.instantiate (u.params.zip ps) = Ty.functional us res ∧
      v.getType = some res ∧ (∀ e, expected = some e → res = e) ∧
      (∀ p ∈ ps, p.hasGeneric = false) ∧ ∀ q ∈ u.params.zip ps, MeetsClass C q.1 q.2 := by
  simp only [tryResolve, Option.bind_eq_bind] at h
  obtain ⟨⟨ret, m1⟩, h1, h2⟩ := Option.bind_eq_some_iff.1 h
  obtain ⟨m2, h3, h4⟩ := Option.bind_eq_some_iff.1 h2
  clear h h2
  split at h4
  · simp at h4
  rename_i hcls
  split at h4
  · simp at h4
  rename_i hinf
  split at h4
  case isFalse => simp at h4
  have hvv : (u.resolve (inferredParams m2 u.params)).apply (u.args ++ args) = v := by
    simpa using h4
  clear h4
  obtain ⟨ts, us, hgt, hus, hnret, hnus, e1, c1, q1, _⟩ := matchCall_sound C fuel hg hv h1
  have hm1 := matchCall_normal C fuel hv hm h1
  have hx : Ext m1 m2 ∧ (∀ p ∈ m2, NormalTy p.2) ∧ ∀ e, expected = some e → ret.instantiate m2 = e := by
    cases expected with
    | none => cases h3; exact ⟨Ext.rfl' _, hm1, fun e he => by simp at he⟩
    | some e =>
      have := (match_sound C fuel).1 ret e m1 m2 hnret (he e rfl) h3
      exact ⟨this.ext, (match_normal C fuel).1 ret e m1 m2 (he e rfl) hm1 h3,
        fun e' he' => by cases he'; exact this.eq⟩
  obtain ⟨e2, hm2, q2⟩ := hx
  have hall : ∀ n ∈ u.params, ∃ t, m2.lookup n = some t ∧ t.hasGeneric = false := by
    intro n hn
    have : notInferred m2 n = false := by
      cases hb : notInferred m2 n with
      | false => rfl
      | true => exact absurd (List.any_eq_true.2 ⟨n, hn, hb⟩) hinf
    unfold notInferred at this
    cases hl : m2.lookup n with
    | none => rw [hl] at this; simp at this
    | some t => rw [hl] at this; exact ⟨t, rfl, this⟩
  have hc : Covers m2 (tyNames u.generic) := fun n hn => (hall n (hp n hn)).elim fun t ht => ⟨t, ht.1⟩
  have hty : u.generic.instantiate (u.params.zip (inferredParams m2 u.params)) =
      Ty.functional us (ret.instantiate m2) := by
    rw [resolve_type hp hc, hgt, instantiate_functional, instantiate_congrAll ts (agree_of c1 e2), q1]
  refine ⟨inferredParams m2 u.params, us, ret.instantiate m2, by simp [inferredParams], hvv.symm,
    typesOf_map hus, hty, ?_, q2, ?_, ?_⟩
  · rw [← hvv]
    refine getType_apply (normal_instantiate hm2 ret hnret) (typesOf_length hus) ?_
    show some _ = some _
    rw [hty]
  · intro p hp'
    obtain ⟨n, hn, rfl⟩ := List.mem_map.1 hp'
    obtain ⟨t, ht, ht'⟩ := hall n hn
    rw [ht]; exact ht'
  · intro q hq
    have hq' : q.1 ∈ u.params ∧ q.2 = (m2.lookup q.1).getD (.tvar q.1) := by
      have hz : u.params.zip (inferredParams m2 u.params) =
          u.params.map fun n => (n, (m2.lookup n).getD (.tvar n)) := by
        unfold inferredParams
        generalize u.params = ns
        induction ns with
        | nil => rfl
        | cons n ns ih => simp [ih]
      rw [hz] at hq
      obtain ⟨n, hn, rfl⟩ := List.mem_map.1 hq
      exact ⟨hn, rfl⟩
    obtain ⟨t, ht, _⟩ := hall q.1 hq'.1
    rw [hq'.2, ht]
    refine (meets_iff C q.1 t).1 ?_
    cases hb : C.ok q.1 t with
    | true => rfl
    | false =>
      refine absurd (List.any_eq_true.2 ⟨q.1, hq'.1, ?_⟩) hcls
      rw [ht]
      simp [hb]

/-! ### If there is an instantiation it is inferred -/

theorem matchArgs_complete (C : Classes) (σ : TyMap) (hσ : ∀ p ∈ σ, NormalTy p.2) (fuel : Nat) :
    ∀ (ts rest : List Ty) (vs : List Value) (m : TyMap), NormalTys ts → FindableAll C σ ts → Ext m σ →
      Ty.weightAll ts < fuel → vs.map Value.getType = (Ty.instantiateAll σ ts).map some →
      ∃ m', matchArgs C fuel (ts ++ rest) vs m = some m' ∧ Ext m' σ
  | [], rest, [], m, _, _, he, _, _ => ⟨m, by cases rest <;> simp [matchArgs], he⟩
  | [], _, _ :: _, _, _, _, _, _, h => by simp [Ty.instantiateAll] at h
  | _ :: _, _, [], _, _, _, _, _, h => by simp [Ty.instantiateAll] at h
  | t :: ts, rest, v :: vs, m, hn, hf, he, hw, h => by
    have hw' : 1 + t.weight + Ty.weightAll ts < fuel := hw
    simp only [Ty.instantiateAll, List.map_cons, List.cons.injEq] at h
    obtain ⟨m1, h1, e1⟩ := (match_complete C σ hσ fuel).1 t m hn.1 hf.head he (by omega)
    obtain ⟨m2, h2, e2⟩ := matchArgs_complete C σ hσ fuel ts rest vs m1 hn.2 hf.tail e1 (by omega) h.2
    refine ⟨m2, ?_, e2⟩
    simp only [List.cons_append, matchArgs, Option.bind_eq_bind, h.1, Option.bind_some, h1, h2]

theorem hasVarAny_append (n : String) : ∀ as bs : List Ty,
    Ty.hasVarAny n (as ++ bs) = (Ty.hasVarAny n as || Ty.hasVarAny n bs)
  | [], _ => rfl
  | a :: as, bs => by simp [Ty.hasVarAny, hasVarAny_append n as bs, Bool.or_assoc]

theorem hasArbAny_append (n : String) : ∀ as bs : List Ty,
    Ty.hasArbAny n (as ++ bs) = (Ty.hasArbAny n as || Ty.hasArbAny n bs)
  | [], _ => rfl
  | a :: as, bs => by simp [Ty.hasArbAny, hasArbAny_append n as bs, Bool.or_assoc]

theorem hasVar_functional (n : String) (as : List Ty) (r : Ty) :
    (Ty.functional as r).hasVar n = (Ty.hasVarAny n as || r.hasVar n) := by
  cases as with
  | nil => simp [Ty.functional, Ty.hasVarAny]
  | cons a as =>
    cases r with
    | fn bs q =>
      show (Ty.hasVarAny n (a :: as ++ bs) || q.hasVar n) = _
      rw [hasVarAny_append, Bool.or_assoc]; rfl
    | _ => rfl

theorem hasArb_functional (n : String) (as : List Ty) (r : Ty) :
    (Ty.functional as r).hasArb n = (Ty.hasArbAny n as || r.hasArb n) := by
  cases as with
  | nil => simp [Ty.functional, Ty.hasArbAny]
  | cons a as =>
    cases r with
    | fn bs q =>
      show (Ty.hasArbAny n (a :: as ++ bs) || q.hasArb n) = _
      rw [hasArbAny_append, Bool.or_assoc]; rfl
    | _ => rfl

theorem Findable.split {C : Classes} {σ : TyMap} {as : List Ty} {r : Ty}
    (h : Findable C σ (Ty.functional as r)) : FindableAll C σ as ∧ Findable C σ r :=
  ⟨{ covers := fun n hn => h.covers n ((tyNames_functional as r n).2 (.inl hn))
     meets := fun n t hn => h.meets n t ((tyNames_functional as r n).2 (.inl hn))
     vars := fun n t hn => h.vars n t (by rw [hasVar_functional, hn]; rfl)
     arbs := fun n t hn => h.arbs n t (by rw [hasArb_functional, hn]; rfl) },
   { covers := fun n hn => h.covers n ((tyNames_functional as r n).2 (.inr hn))
     meets := fun n t hn => h.meets n t ((tyNames_functional as r n).2 (.inr hn))
     vars := fun n t hn => h.vars n t (by rw [hasVar_functional, hn, Bool.or_true])
     arbs := fun n t hn => h.arbs n t (by rw [hasArb_functional, hn, Bool.or_true]) }⟩

theorem matchCall_complete (C : Classes) (σ : TyMap) (hσ : ∀ p ∈ σ, NormalTy p.2) (fuel : Nat) {ts : List Ty}
    {ret : Ty} (vs : List Value) (m : TyMap) (hts : NormalTys ts) (hret : NormalTy ret) (hf : FindableAll C σ ts)
    (he : Ext m σ) (hw : Ty.weightAll ts < fuel)
    (h : vs.map Value.getType = (Ty.instantiateAll σ ts).map some) :
    ∃ m', matchCall C fuel (Ty.functional ts ret) vs m = some (ret, m') ∧ Ext m' σ := by
  have hl : vs.length = ts.length := by
    have := congrArg List.length h
    simpa [instantiateAll_length] using this
  cases ts with
  | nil =>
    have : vs = [] := List.length_eq_zero_iff.1 hl
    subst this
    exact ⟨m, rfl, he⟩
  | cons t ts =>
    cases vs with
    | nil => simp at hl
    | cons v vs =>
      have hcase : (∃ cs q, ret = .fn cs q) ∨ NotFn ret := by
        cases ret with
        | fn cs q => exact .inl ⟨cs, q, rfl⟩
        | _ => exact .inr (fun _ _ e => by cases e)
      rcases hcase with ⟨cs, q, rfl⟩ | hr
      · rw [functional_fn q (by simp)]
        obtain ⟨m1, h1, e1⟩ := matchArgs_complete C σ hσ fuel (t :: ts) cs (v :: vs) m hts hf he hw h
        refine ⟨m1, ?_, e1⟩
        have hcs : 0 < cs.length := List.length_pos_iff.2 hret.1
        simp only [matchCall, List.isEmpty_cons, Bool.false_eq_true, if_false, Option.bind_eq_bind, h1,
          Option.bind_some]
        rw [if_pos (by simp only [List.length_append]; omega)]
        rw [hl, List.drop_left]
      · rw [functional_notFn (by simp) hr]
        obtain ⟨m1, h1, e1⟩ := matchArgs_complete C σ hσ fuel (t :: ts) [] (v :: vs) m hts hf he hw h
        rw [List.append_nil] at h1
        refine ⟨m1, ?_, e1⟩
        simp only [matchCall, List.isEmpty_cons, Bool.false_eq_true, if_false, Option.bind_eq_bind, h1,
          Option.bind_some]
        rw [if_neg (by omega)]

theorem resolve_complete {C : Classes} {σ : TyMap} (hσ : ∀ p ∈ σ, NormalTy p.2) {fuel : Nat} {u : Unresolved}
    {args : List Value} {ts : List Ty} {ret : Ty} (hg : u.generic = Ty.functional ts ret)
    (hts : NormalTys ts) (hret : NormalTy ret) (hf : Findable C σ u.generic)
    (hp : ∀ n, n ∈ tyNames u.generic ↔ n ∈ u.params)
    (hc : ∀ n t, n ∈ u.params → σ.lookup n = some t → t.hasGeneric = false)
    (ha : (u.args ++ args).map Value.getType = (Ty.instantiateAll σ ts).map some)
    (hw : Ty.weightAll ts < fuel) (hw' : ret.weight < fuel) :
    tryResolve C fuel u args (some (ret.instantiate σ)) [] = some (.resolved
      ((Value.const u.name (u.params.map fun n => (σ.lookup n).getD (.tvar n)) (u.generic.instantiate σ)).apply
        (u.args ++ args))) := by
  rw [hg] at hf
  obtain ⟨hfa, hfr⟩ := hf.split
  obtain ⟨m1, h1, e1⟩ := matchCall_complete C σ hσ fuel (u.args ++ args) [] hts hret hfa
    (fun n t e => by simp at e) hw ha
  obtain ⟨m2, h2, e2⟩ := (match_complete C σ hσ fuel).1 ret m1 hret hfr e1 hw'
  have hnorm : NormalTy u.generic := hg ▸ normal_functional hts hret
  -- the mapping found has all the names
  have hcov : Covers m2 (tyNames u.generic) := by
    have hs := (match_sound C fuel).1 ret _ m1 m2 hret (normal_instantiate hσ ret hret) h2
    have hargs : Covers m1 (tysNames ts) := by
      have hlen : (u.args ++ args).length = ts.length := by
        have := congrArg List.length ha
        simpa [instantiateAll_length] using this
      have key : ∀ (ts rest : List Ty) (vs : List Value) (m m' : TyMap), NormalTys ts →
          vs.map Value.getType = (Ty.instantiateAll σ ts).map some →
          matchArgs C fuel (ts ++ rest) vs m = some m' → Ext m m' ∧ Covers m' (tysNames ts) := by
        intro ts
        induction ts with
        | nil =>
          intro rest vs m m' _ hv hm
          cases vs with
          | nil =>
            have : m = m' := by cases rest <;> simpa [matchArgs] using hm
            exact ⟨this ▸ Ext.rfl' _, fun n hn => by simp [tysNames] at hn⟩
          | cons v vs => simp [Ty.instantiateAll] at hv
        | cons t ts ih =>
          intro rest vs m m' hn hv hm
          cases vs with
          | nil => simp [Ty.instantiateAll] at hv
          | cons v vs =>
            simp only [Ty.instantiateAll, List.map_cons, List.cons.injEq] at hv
            simp only [List.cons_append, matchArgs, Option.bind_eq_bind, hv.1, Option.bind_some] at hm
            obtain ⟨mx, hx, hy⟩ := Option.bind_eq_some_iff.1 hm
            have hs := (match_sound C fuel).1 t _ m mx hn.1 (normal_instantiate hσ t hn.1) hx
            obtain ⟨e3, c3⟩ := ih rest vs mx m' hn.2 hv.2 hy
            exact ⟨hs.ext.trans e3, (hs.covers.ext e3).append c3⟩
      unfold matchCall at h1
      split at h1
      · rename_i hemp
        have : ts = [] := by
          have : (u.args ++ args).length = 0 := by rw [List.isEmpty_iff.1 hemp]; rfl
          exact List.length_eq_zero_iff.1 (by omega)
        subst this
        exact fun n hn => by simp [tysNames] at hn
      · rename_i hemp
        have hne : ts ≠ [] := by
          intro e
          subst e
          exact hemp (List.isEmpty_iff.2 (List.length_eq_zero_iff.1 hlen))
        obtain ⟨bs, q, hfn⟩ := functional_isFn (r := ret) hne
        rw [hfn] at h1
        simp only [Option.bind_eq_bind] at h1
        obtain ⟨m1', h3, h4⟩ := Option.bind_eq_some_iff.1 h1
        obtain ⟨_, rfl⟩ := Prod.mk.inj (Option.some.inj h4)
        exact (key ts bs _ [] m1' hts ha h3).2
    intro n hn
    rw [hg] at hn
    rcases (tyNames_functional ts ret n).1 hn with h | h
    · exact (hargs.ext hs.ext) n h
    · exact hs.covers n h
  have hlook : ∀ n ∈ u.params, ∃ t, m2.lookup n = some t ∧ σ.lookup n = some t := by
    intro n hn
    obtain ⟨t, ht⟩ := hcov n ((hp n).2 hn)
    exact ⟨t, ht, e2 n t ht⟩
  have hps : inferredParams m2 u.params = u.params.map fun n => (σ.lookup n).getD (.tvar n) := by
    unfold inferredParams
    refine List.map_congr_left fun n hn => ?_
    obtain ⟨t, h3, h4⟩ := hlook n hn
    rw [h3, h4]
  have hty : u.generic.instantiate (u.params.zip (inferredParams m2 u.params)) = u.generic.instantiate σ := by
    rw [resolve_type (fun n hn => (hp n).1 hn) hcov]
    refine (instantiate_congr u.generic fun n hn => ?_).symm
    obtain ⟨t, h3, h4⟩ := hlook n ((hp n).1 hn)
    rw [h3, h4]
  simp only [tryResolve, Option.bind_eq_bind]
  rw [show matchCall C fuel u.generic (u.args ++ args) [] = some (ret, m1) from hg ▸ h1]
  simp only [Option.bind_some]
  rw [show matchExpected C fuel ret (some (ret.instantiate σ)) m1 = some m2 from h2]
  simp only [Option.bind_some]
  rw [if_neg, if_neg, if_pos]
  · unfold Unresolved.resolve
    rw [hty, hps]
  · show Value.typeIs _ _ = true
    refine (typeIs_iff _ _).2 ?_
    refine getType_apply (us := Ty.instantiateAll σ ts) (normal_instantiate hσ ret hret) ?_ ?_
    · have := congrArg List.length ha
      simpa [instantiateAll_length] using this.symm
    · show some _ = some _
      rw [hty, hg, instantiate_functional]
  · intro hany
    obtain ⟨n, hn, hb⟩ := List.any_eq_true.1 hany
    obtain ⟨t, h3, h4⟩ := hlook n hn
    unfold notInferred at hb
    rw [h3] at hb
    simp [hc n t hn h4] at hb
  · intro hany
    obtain ⟨n, hn, hb⟩ := List.any_eq_true.1 hany
    obtain ⟨t, h3, h4⟩ := hlook n hn
    rw [h3] at hb
    have hmeet := (meets_iff C n t).2 (hf.meets n t (hg ▸ (hp n).2 hn) h4)
    simp [hmeet] at hb

mutual

theorem hasVar_of_closed {n : String} : ∀ {t : Ty}, t.hasGeneric = false → t.hasVar n = false
  | .bool, _ => rfl
  | .data _ as, h => hasVarAny_of_closed (ts := as) h
  | .fn as r, h => by
    simp only [Ty.hasGeneric, Bool.or_eq_false_iff] at h
    simp only [Ty.hasVar, hasVarAny_of_closed h.1, hasVar_of_closed h.2]; rfl
  | .tvar _, h => by simp [Ty.hasGeneric] at h
  | .arb _, _ => rfl
  | .type0, _ => rfl
  | .constraint _, _ => rfl

theorem hasVarAny_of_closed {n : String} : ∀ {ts : List Ty}, Ty.hasGenericAny ts = false → Ty.hasVarAny n ts = false
  | [], _ => rfl
  | t :: ts, h => by
    simp only [Ty.hasGenericAny, Bool.or_eq_false_iff] at h
    simp only [Ty.hasVarAny, hasVar_of_closed h.1, hasVarAny_of_closed h.2]; rfl

end

mutual

theorem names_of_hasVar {n : String} : ∀ t : Ty, t.hasVar n = true → n ∈ tyNames t
  | .bool, h => by simp [Ty.hasVar] at h
  | .data _ as, h => names_of_hasVarAny as h
  | .fn as r, h => by
    simp only [Ty.hasVar, Bool.or_eq_true] at h
    exact h.elim (fun h => List.mem_append_left _ (names_of_hasVarAny as h))
      fun h => List.mem_append_right _ (names_of_hasVar r h)
  | .tvar k, h => by
    simp only [Ty.hasVar, beq_iff_eq] at h
    simp [tyNames, h]
  | .arb _, h => by simp [Ty.hasVar] at h
  | .type0, h => by simp [Ty.hasVar] at h
  | .constraint _, h => by simp [Ty.hasVar] at h

theorem names_of_hasVarAny {n : String} : ∀ ts : List Ty, Ty.hasVarAny n ts = true → n ∈ tysNames ts
  | [], h => by simp [Ty.hasVarAny] at h
  | t :: ts, h => by
    simp only [Ty.hasVarAny, Bool.or_eq_true] at h
    exact h.elim (fun h => List.mem_append_left _ (names_of_hasVar t h))
      fun h => List.mem_append_right _ (names_of_hasVarAny ts h)

end

mutual

theorem names_of_hasArb {n : String} : ∀ t : Ty, t.hasArb n = true → n ∈ tyNames t
  | .bool, h => by simp [Ty.hasArb] at h
  | .data _ as, h => names_of_hasArbAny as h
  | .fn as r, h => by
    simp only [Ty.hasArb, Bool.or_eq_true] at h
    exact h.elim (fun h => List.mem_append_left _ (names_of_hasArbAny as h))
      fun h => List.mem_append_right _ (names_of_hasArb r h)
  | .arb k, h => by
    simp only [Ty.hasArb, beq_iff_eq] at h
    simp [tyNames, h]
  | .tvar _, h => by simp [Ty.hasArb] at h
  | .type0, h => by simp [Ty.hasArb] at h
  | .constraint _, h => by simp [Ty.hasArb] at h

theorem names_of_hasArbAny {n : String} : ∀ ts : List Ty, Ty.hasArbAny n ts = true → n ∈ tysNames ts
  | [], h => by simp [Ty.hasArbAny] at h
  | t :: ts, h => by
    simp only [Ty.hasArbAny, Bool.or_eq_true] at h
    exact h.elim (fun h => List.mem_append_left _ (names_of_hasArb t h))
      fun h => List.mem_append_right _ (names_of_hasArbAny ts h)

end

end Elab
end Acorn
