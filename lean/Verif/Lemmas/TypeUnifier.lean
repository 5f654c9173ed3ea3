/-
Matching a generic type against an instance.
-/
import Verif.Lemmas.ValueTypesInst
import Verif.Spec.TypeMatching
namespace Acorn
namespace Elab

open Spec

/-- Entries are kept. -/
def Ext (m m' : TyMap) : Prop := ∀ n t, m.lookup n = some t → m'.lookup n = some t

/-- All these names have entries. -/
def Covers (m : TyMap) (ns : List String) : Prop := ∀ n ∈ ns, ∃ t, m.lookup n = some t

theorem Ext.rfl' (m : TyMap) : Ext m m := fun _ _ h => h

theorem Ext.trans {a b c : TyMap} (h : Ext a b) (h' : Ext b c) : Ext a c := fun n t e => h' n t (h n t e)

theorem Covers.ext {a b : TyMap} {ns : List String} (h : Covers a ns) (h' : Ext a b) : Covers b ns :=
  fun n hn => (h n hn).elim fun t e => ⟨t, h' n t e⟩

theorem Covers.left {m : TyMap} {as bs : List String} (h : Covers m (as ++ bs)) : Covers m as :=
  fun n hn => h n (List.mem_append_left _ hn)

theorem Covers.right {m : TyMap} {as bs : List String} (h : Covers m (as ++ bs)) : Covers m bs :=
  fun n hn => h n (List.mem_append_right _ hn)

theorem Covers.append {m : TyMap} {as bs : List String} (h : Covers m as) (h' : Covers m bs) :
    Covers m (as ++ bs) := fun n hn => (List.mem_append.1 hn).elim (h n) (h' n)

theorem Ext.cons {m : TyMap} {n : String} {t : Ty} (h : m.lookup n = none) : Ext m ((n, t) :: m) := by
  intro k u e
  simp only [List.lookup_cons]
  by_cases hk : k == n
  · have : k = n := by simpa using hk
    rw [this, h] at e
    exact absurd e (by simp)
  · simp only [hk]
    exact e

theorem lookup_cons_self {m : TyMap} {n : String} {t : Ty} : ((n, t) :: m).lookup n = some t := by
  simp [List.lookup_cons]

mutual

/-- Only the entries of the names that occur matter. -/
theorem instantiate_congr {m m' : TyMap} : ∀ t : Ty, (∀ n ∈ tyNames t, m'.lookup n = m.lookup n) →
    t.instantiate m' = t.instantiate m
  | .bool, _ => rfl
  | .data d as, h => by
    show Ty.data d _ = Ty.data d _
    rw [instantiate_congrAll as h]
  | .fn as r, h => by
    show Ty.functional _ _ = Ty.functional _ _
    rw [instantiate_congrAll as fun n hn => h n (List.mem_append_left _ hn),
      instantiate_congr r fun n hn => h n (List.mem_append_right _ hn)]
  | .tvar n, h => by
    show (m'.lookup n).getD _ = (m.lookup n).getD _
    rw [h n (by simp [tyNames])]
  | .arb n, h => by
    show (m'.lookup n).getD _ = (m.lookup n).getD _
    rw [h n (by simp [tyNames])]
  | .type0, _ => rfl
  | .constraint _, _ => rfl

theorem instantiate_congrAll {m m' : TyMap} : ∀ ts : List Ty, (∀ n ∈ tysNames ts, m'.lookup n = m.lookup n) →
    Ty.instantiateAll m' ts = Ty.instantiateAll m ts
  | [], _ => rfl
  | t :: ts, h => by
    show _ :: _ = _ :: _
    rw [instantiate_congr t fun n hn => h n (List.mem_append_left _ hn),
      instantiate_congrAll ts fun n hn => h n (List.mem_append_right _ hn)]

end

theorem agree_of {m m' : TyMap} {ns : List String} (hc : Covers m ns) (he : Ext m m') :
    ∀ n ∈ ns, m'.lookup n = m.lookup n := by
  intro n hn
  obtain ⟨t, e⟩ := hc n hn
  rw [e, he n t e]

theorem meets_iff (C : Classes) (n : String) (t : Ty) : C.ok n t = true ↔ MeetsClass C n t := by
  unfold Classes.ok MeetsClass
  cases hn : C.ofGeneric n with
  | none => simp
  | some tc =>
    simp only [Option.some.injEq, forall_eq']
    unfold Classes.satisfies
    constructor
    · intro h
      cases t with
      | data d as => exact .data d as h
      | arb k =>
        simp only at h
        cases hk : C.ofInstance k with
        | none => rw [hk] at h; exact absurd h (by simp)
        | some a =>
          rw [hk] at h
          simp only [Bool.or_eq_true, beq_iff_eq] at h
          exact .arb k a hk h
      | tvar k =>
        simp only at h
        cases hk : C.ofInstance k with
        | none => rw [hk] at h; exact absurd h (by simp)
        | some a =>
          rw [hk] at h
          simp only [Bool.or_eq_true, beq_iff_eq] at h
          exact .tvar k a hk h
      | _ => simp at h
    · intro h
      cases h with
      | data d as h => exact h
      | arb k a hk h => simp only [hk, Bool.or_eq_true, beq_iff_eq]; exact h
      | tvar k a hk h => simp only [hk, Bool.or_eq_true, beq_iff_eq]; exact h

/-- New entries meet the typeclasses. -/
def NewMeet (C : Classes) (m m' : TyMap) : Prop :=
  ∀ n t, m'.lookup n = some t → m.lookup n = some t ∨ MeetsClass C n t

theorem NewMeet.trans {C : Classes} {a b c : TyMap} (h : NewMeet C a b) (h' : NewMeet C b c) : NewMeet C a c :=
  fun n t e => (h' n t e).elim (h n t) .inr

theorem NewMeet.cons {C : Classes} {m : TyMap} {n : String} {t : Ty} (h : C.ok n t = true) :
    NewMeet C m ((n, t) :: m) := by
  intro k u e
  simp only [List.lookup_cons] at e
  by_cases hk : k == n
  · simp only [hk] at e
    have : k = n := by simpa using hk
    cases e
    exact .inr (this ▸ (meets_iff C n _).1 h)
  · simp only [hk] at e
    exact .inl e

/-- What a successful match says. -/
structure Matched (C : Classes) (m m' : TyMap) (g i : Ty) : Prop where
  ext : Ext m m'
  covers : Covers m' (tyNames g)
  eq : g.instantiate m' = i
  meet : NewMeet C m m'

theorem matchTvar_sound {C : Classes} {n : String} {i : Ty} {m m' : TyMap} (h : matchTvar C n i m = some m') :
    Matched C m m' (.tvar n) i := by
  unfold matchTvar at h
  cases hl : m.lookup n with
  | some t =>
    rw [hl] at h
    simp only at h
    split at h
    · rename_i hs
      cases h
      have := (same_iff t i).1 hs
      subst this
      refine ⟨Ext.rfl' _, fun k hk => ?_, ?_, fun _ _ e => .inl e⟩
      · have : k = n := by simpa [tyNames] using hk
        exact this ▸ ⟨t, hl⟩
      · show (m.lookup n).getD _ = t
        rw [hl]; rfl
    · simp at h
  | none =>
    rw [hl] at h
    simp only at h
    split at h
    · simp at h
    · rename_i hok
      split at h
      · simp at h
      · cases h
        refine ⟨Ext.cons hl, fun k hk => ?_, ?_, NewMeet.cons (by simpa using hok)⟩
        · have : k = n := by simpa [tyNames] using hk
          exact this ▸ ⟨i, lookup_cons_self⟩
        · show (List.lookup n ((n, i) :: m)).getD _ = i
          rw [lookup_cons_self]; rfl

theorem matchArb_sound {C : Classes} {n : String} {i : Ty} {m m' : TyMap} (h : matchArb C n i m = some m') :
    Matched C m m' (.arb n) i := by
  unfold matchArb at h
  cases hl : m.lookup n with
  | some t =>
    rw [hl] at h
    simp only at h
    split at h
    · rename_i hs
      cases h
      have := (same_iff t i).1 hs
      subst this
      refine ⟨Ext.rfl' _, fun k hk => ?_, ?_, fun _ _ e => .inl e⟩
      · have : k = n := by simpa [tyNames] using hk
        exact this ▸ ⟨t, hl⟩
      · show (m.lookup n).getD _ = t
        rw [hl]; rfl
    · simp at h
  | none =>
    rw [hl] at h
    simp only at h
    split at h
    · simp at h
    · rename_i hok
      have key : Matched C m ((n, i) :: m) (.arb n) i := by
        refine ⟨Ext.cons hl, fun k hk => ?_, ?_, NewMeet.cons (by simpa using hok)⟩
        · have : k = n := by simpa [tyNames] using hk
          exact this ▸ ⟨i, lookup_cons_self⟩
        · show (List.lookup n ((n, i) :: m)).getD _ = i
          rw [lookup_cons_self]; rfl
      split at h
      · split at h
        · split at h
          · cases h; exact key
          · simp at h
        · simp at h
      · cases h; exact key

theorem normalTys_drop {as : List Ty} (h : NormalTys as) (k : Nat) : NormalTys (as.drop k) :=
  normalTys_of fun _ ht => normalTys_mem h (List.mem_of_mem_drop ht)

theorem same_sound {C : Classes} {g i : Ty} {m m' : TyMap} (hn : NormalTy g) (hnames : tyNames g = [])
    (h : (if g.same i then some m else none) = some m') : Matched C m m' g i := by
  split at h
  · rename_i hs
    cases h
    have := (same_iff g i).1 hs
    subst this
    refine ⟨Ext.rfl' _, fun k hk => by simp [hnames] at hk, ?_, fun _ _ e => .inl e⟩
    exact instantiate_none g hn fun n hm => by simp [hnames] at hm
  · simp at h

theorem drop_ne_nil {α : Type} {as : List α} {k : Nat} (h : k < as.length) : as.drop k ≠ [] := by
  intro e
  have := congrArg List.length e
  simp at this
  omega

theorem match_sound (C : Classes) : ∀ fuel : Nat,
    (∀ g i m m', NormalTy g → NormalTy i → matchInst C fuel g i m = some m' → Matched C m m' g i) ∧
    (∀ as bs m m', NormalTys as → NormalTys bs → matchZip C fuel as bs m = some m' →
      Ext m m' ∧ Covers m' (tysNames (as.take bs.length)) ∧
        Ty.instantiateAll m' (as.take bs.length) = bs.take as.length ∧ NewMeet C m m')
  | 0 => ⟨fun g i m m' _ _ h => by simp [matchInst] at h, fun as bs m m' _ _ h => by simp [matchZip] at h⟩
  | fuel + 1 => by
    obtain ⟨ihI, ihZ⟩ := match_sound C fuel
    constructor
    · intro g i m m' hg hi h
      cases g with
      | tvar n =>
        simp only [matchInst] at h
        exact matchTvar_sound h
      | arb n =>
        simp only [matchInst] at h
        exact matchArb_sound h
      | fn as r =>
        cases i with
        | fn bs q =>
          simp only [matchInst] at h
          split at h
          · rename_i hl
            obtain ⟨m1, h1, h2⟩ := Option.bind_eq_some_iff.1 h
            obtain ⟨e1, c1, q1, n1⟩ := ihZ as bs m m1 hg.2.1 hi.2.1 h1
            rw [List.take_of_length_le (by omega)] at c1 q1
            have hrest : NormalTy (Ty.functional (bs.drop as.length) q) :=
              normal_functional (normalTys_drop hi.2.1 _) hi.2.2.1
            obtain ⟨e2, c2, q2, n2⟩ := ihI r _ m1 m' hg.2.2.1 hrest h2
            refine ⟨e1.trans e2, (c1.ext e2).append c2, ?_, n1.trans n2⟩
            show Ty.functional _ _ = _
            rw [instantiate_congrAll as (agree_of c1 e2), q1, q2, ← functional_append,
              List.take_append_drop, functional_notFn hi.1 hi.2.2.2]
          · split at h
            · rename_i hl
              obtain ⟨m1, h1, h2⟩ := Option.bind_eq_some_iff.1 h
              have hne : as.drop bs.length ≠ [] := drop_ne_nil hl
              have hrest : NormalTy (Ty.functional (as.drop bs.length) r) :=
                normal_functional (normalTys_drop hg.2.1 _) hg.2.2.1
              obtain ⟨_, _, q2, _⟩ := ihI _ q m1 m' hrest hi.2.2.1 h2
              rw [instantiate_functional] at q2
              obtain ⟨xs, y, e⟩ := functional_isFn (r := r.instantiate m') (instantiateAll_ne (ps := m') hne)
              rw [e] at q2
              exact absurd q2.symm (hi.2.2.2 _ _)
            · rename_i hl1 hl2
              have hl : as.length = bs.length := by omega
              obtain ⟨m1, h1, h2⟩ := Option.bind_eq_some_iff.1 h
              obtain ⟨e1, c1, q1, n1⟩ := ihI r q m m1 hg.2.2.1 hi.2.2.1 h1
              obtain ⟨e2, c2, q2, n2⟩ := ihZ as bs m1 m' hg.2.1 hi.2.1 h2
              rw [List.take_of_length_le (by omega)] at c2 q2
              rw [List.take_of_length_le (by omega)] at q2
              refine ⟨e1.trans e2, c2.append (c1.ext e2), ?_, n1.trans n2⟩
              show Ty.functional _ _ = _
              rw [q2, instantiate_congr r (agree_of c1 e2), q1, functional_notFn hi.1 hi.2.2.2]
        | _ => simp [matchInst, Ty.same] at h
      | data d as =>
        cases i with
        | data e bs =>
          simp only [matchInst] at h
          split at h
          · simp at h
          · rename_i hc
            simp only [Bool.or_eq_true, bne_iff_ne, ne_eq, not_or, Classical.not_not] at hc
            obtain ⟨rfl, hl⟩ := hc
            obtain ⟨e2, c2, q2, n2⟩ := ihZ as bs m m' hg hi h
            rw [List.take_of_length_le (by omega)] at c2 q2
            rw [List.take_of_length_le (by omega)] at q2
            refine ⟨e2, c2, ?_, n2⟩
            show Ty.data d _ = _
            rw [q2]
        | _ => simp [matchInst, Ty.same] at h
      | bool => simp only [matchInst] at h; exact same_sound hg rfl h
      | type0 => simp only [matchInst] at h; exact same_sound hg rfl h
      | constraint c => simp only [matchInst] at h; exact same_sound hg rfl h
    · intro as bs m m' ha hb h
      cases as with
      | nil =>
        simp only [matchZip] at h
        cases h
        exact ⟨Ext.rfl' _, fun n hn => by simp [tysNames] at hn, by simp [Ty.instantiateAll],
          fun _ _ e => .inl e⟩
      | cons a as =>
        cases bs with
        | nil =>
          simp only [matchZip] at h
          cases h
          exact ⟨Ext.rfl' _, fun n hn => by simp [tysNames] at hn, by simp [Ty.instantiateAll],
            fun _ _ e => .inl e⟩
        | cons b bs =>
          simp only [matchZip] at h
          obtain ⟨m1, h1, h2⟩ := Option.bind_eq_some_iff.1 h
          obtain ⟨e1, c1, q1, n1⟩ := ihI a b m m1 ha.1 hb.1 h1
          obtain ⟨e2, c2, q2, n2⟩ := ihZ as bs m1 m' ha.2 hb.2 h2
          refine ⟨e1.trans e2, ?_, ?_, n1.trans n2⟩
          · simp only [List.length_cons, List.take_succ_cons, tysNames]
            exact (c1.ext e2).append c2
          · simp only [List.length_cons, List.take_succ_cons, Ty.instantiateAll]
            rw [instantiate_congr a (agree_of c1 e2), q1, q2]

end Elab
end Acorn
