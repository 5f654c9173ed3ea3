/-
A set-theoretic model of the logic, showing that the laws asked of an interpretation can be met:
types are sets, functions are graphs, `Type0` is a set-theoretic universe.
-/
import Verif.Spec.Typing
import Mathlib.SetTheory.ZFC.VonNeumann
import Mathlib.SetTheory.Cardinal.Regular
namespace Acorn
namespace Spec
namespace SetModel

open ZFSet Cardinal

noncomputable section

open Classical

/-- The sets of the model. -/
abbrev S := ZFSet.{1}

/-- The rank of the universe of types: an inaccessible cardinal. -/
def κ : Ordinal.{1} := (Cardinal.univ.{0, 1}).ord

/-- The universe of types. -/
def U : S := vonNeumann κ

/-- Truth values. -/
def ff : S := ∅
def tt : S := {∅}
def bool : S := {ff, tt}

/-- A truth value from a proposition. -/
def ofProp (p : Prop) : S := if p then tt else ff

/-- Replacement for arbitrary functions. -/
def img (g : S → S) (A : S) : S := @ZFSet.image g (Classical.allZFSetDefinable _) A

theorem mem_img {g : S → S} {A y : S} : y ∈ img g A ↔ ∃ z ∈ A, g z = y :=
  @ZFSet.mem_image g (Classical.allZFSetDefinable _) A y

/-- Function graphs. -/
def lam (A : S) (g : S → S) : S := img (fun y => pair y (g y)) A

/-- Application of a graph. -/
def app (f a : S) : S := if h : ∃ b, pair a b ∈ f then choose h else ∅

/-- Dependent function space. -/
def pi (A : S) (B : S → S) : S :=
  ZFSet.sep (fun f => lam A (app f) = f ∧ ∀ a ∈ A, app f a ∈ B a)
    (powerset (prod A (sUnion (img B A))))

theorem app_lam {A : S} {g : S → S} {a : S} (h : a ∈ A) : app (lam A g) a = g a := by
  have h1 : ∃ b, pair a b ∈ lam A g := ⟨g a, mem_img.2 ⟨a, h, rfl⟩⟩
  rw [app, dif_pos h1]
  obtain ⟨z, _, hz⟩ := mem_img.1 (choose_spec h1)
  have := pair_injective hz
  rw [← this.2, this.1]

theorem lam_congr {A : S} {g h : S → S} (e : ∀ a ∈ A, g a = h a) : lam A g = lam A h := by
  ext z
  simp only [lam, mem_img]
  constructor <;> rintro ⟨a, ha, rfl⟩ <;> exact ⟨a, ha, by rw [e a ha]⟩

theorem mem_pi {A : S} {B : S → S} {f : S} :
    f ∈ pi A B ↔ lam A (app f) = f ∧ ∀ a ∈ A, app f a ∈ B a := by
  simp only [pi, mem_sep, mem_powerset]
  constructor
  · exact fun h => h.2
  · intro h
    refine ⟨?_, h⟩
    intro z hz
    rw [← h.1] at hz
    obtain ⟨a, ha, rfl⟩ := mem_img.1 hz
    exact pair_mem_prod.2 ⟨ha, mem_sUnion.2 ⟨B a, mem_img.2 ⟨a, ha, rfl⟩, h.2 a ha⟩⟩

theorem lam_mem_pi {A : S} {B g : S → S} (h : ∀ a ∈ A, g a ∈ B a) : lam A g ∈ pi A B := by
  rw [mem_pi]
  exact ⟨lam_congr fun a ha => app_lam ha, fun a ha => by rw [app_lam ha]; exact h a ha⟩

theorem pi_congr {A : S} {B C : S → S} (e : ∀ a ∈ A, B a = C a) : pi A B = pi A C := by
  ext f
  rw [mem_pi, mem_pi]
  constructor <;> rintro ⟨h1, h2⟩ <;> refine ⟨h1, fun a ha => ?_⟩
  · rw [← e a ha]; exact h2 a ha
  · rw [e a ha]; exact h2 a ha

theorem inacc : IsInaccessible (Cardinal.univ.{0, 1}) := IsInaccessible.univ

theorem κ_limit : Order.IsSuccLimit κ := by
  have := inacc.isStrongLimit.isSuccLimit
  exact isSuccLimit_ord inacc.1.le

theorem U_powerset {x : S} (h : x ∈ U) : powerset x ∈ U := by
  rw [U, mem_vonNeumann] at *
  rw [rank_powerset]
  exact κ_limit.succ_lt h

theorem U_subset {x y : S} (h : y ∈ U) (hx : x ⊆ y) : x ∈ U := mem_vonNeumann_of_subset hx h

theorem U_sUnion {x : S} (h : x ∈ U) : sUnion x ∈ U := by
  rw [U, mem_vonNeumann] at *
  exact (rank_sUnion_le x).trans_lt h

theorem U_union {x y : S} (h : x ∈ U) (h' : y ∈ U) : x ∪ y ∈ U := by
  rw [U, mem_vonNeumann] at *
  rw [rank_union]
  exact max_lt h h'

theorem U_prod {x y : S} (h : x ∈ U) (h' : y ∈ U) : prod x y ∈ U := by
  refine U_subset (U_powerset (U_powerset (U_union h h'))) ?_
  intro z hz
  obtain ⟨a, ha, b, hb, rfl⟩ := mem_prod.1 hz
  rw [mem_powerset]
  intro w hw
  rw [mem_powerset]
  intro u hu
  rw [mem_union]
  simp only [pair, mem_pair] at hw
  rcases hw with rfl | rfl
  · rw [mem_singleton] at hu; subst hu; exact Or.inl ha
  · rw [mem_pair] at hu
    rcases hu with rfl | rfl
    · exact Or.inl ha
    · exact Or.inr hb

theorem U_image {A : S} {B : S → S} (hA : A ∈ U) (hB : ∀ a ∈ A, B a ∈ U) : img B A ∈ U := by
  have hc : card A < Cardinal.univ.{0, 1} := by
    have h1 : card A ≤ preBeth (rank A) := by
      rw [← card_vonNeumann]; exact card_mono (subset_vonNeumann_self A)
    have h2 : preBeth (rank A) < preBeth κ := by
      rw [preBeth_lt_preBeth]; rwa [U, mem_vonNeumann] at hA
    rw [κ, inacc.preBeth_ord] at h2
    exact h1.trans_lt h2
  rw [U, mem_vonNeumann]
  let f : Shrink.{1} A → Ordinal.{1} := fun a => Order.succ (rank (B ((equivShrink A).symm a)))
  have hsup : (⨆ a, f a) < κ := by
    apply Ordinal.iSup_lt_of_lt_cof
    · rw [κ, inacc.isRegular.cof_ord]; exact hc
    · intro a
      have := hB _ ((equivShrink A).symm a).2
      rw [U, mem_vonNeumann] at this
      exact κ_limit.succ_lt this
  refine lt_of_le_of_lt ?_ hsup
  rw [rank_le_iff]
  intro y hy
  obtain ⟨a, ha, rfl⟩ := mem_img.1 hy
  have : f (equivShrink A ⟨a, ha⟩) ≤ ⨆ a, f a := Ordinal.le_iSup f _
  refine lt_of_lt_of_le ?_ this
  simp only [f, Equiv.symm_apply_apply]
  exact Order.lt_succ _

theorem U_pi {A : S} {B : S → S} (hA : A ∈ U) (hB : ∀ a ∈ A, B a ∈ U) : pi A B ∈ U := by
  refine U_subset (U_powerset (U_prod hA (U_sUnion (U_image hA hB)))) ?_
  intro z hz
  exact (mem_sep.1 hz).1

theorem U_empty : (∅ : S) ∈ U := by
  rw [U, mem_vonNeumann, rank_empty]
  exact κ_limit.bot_lt

theorem U_bool : bool ∈ U := by
  have : bool = powerset (powerset ∅) := by
    ext z
    simp only [bool, ff, tt, mem_pair, mem_powerset]
    constructor
    · rintro (rfl | rfl)
      · simp
      · intro w hw; simp at hw; subst hw; simp
    · intro h
      by_cases hz : z = ∅
      · exact Or.inl hz
      · right
        ext w
        rw [mem_singleton]
        constructor
        · intro hw
          have := h hw
          rw [mem_powerset] at this
          exact (eq_empty _).2 fun y hy => by simpa using this hy
        · rintro rfl
          obtain ⟨y, hy⟩ := (eq_empty_or_nonempty z).resolve_left hz
          have := h hy
          rw [mem_powerset] at this
          have : y = ∅ := (eq_empty _).2 fun x hx => by simpa using this hx
          rwa [this] at hy
  rw [this]
  exact U_powerset (U_powerset U_empty)

/-- The infinite set of von Neumann naturals is a type of the model. -/
theorem U_omega : (omega : S) ∈ U := by
  rw [U, mem_vonNeumann]
  have h1 : (Ordinal.omega0 : Ordinal.{1}) < κ := by
    rw [κ, Cardinal.omega0_lt_ord]; exact inacc.1
  refine lt_of_le_of_lt ?_ h1
  rw [rank_le_iff]
  intro y hy
  have : ∀ n : ℕ, rank (ZFSet.mk (PSet.ofNat n) : S) < Ordinal.omega0 := by
    intro n
    induction n with
    | zero =>
      have : (ZFSet.mk (PSet.ofNat 0) : S) = ∅ := rfl
      rw [this, rank_empty]; exact Ordinal.omega0_pos
    | succ n ih =>
      have : (ZFSet.mk (PSet.ofNat (n + 1)) : S) = insert (ZFSet.mk (PSet.ofNat n)) (ZFSet.mk (PSet.ofNat n)) := rfl
      rw [this, rank_insert]
      exact max_lt (Ordinal.isSuccLimit_omega0.succ_lt ih) ih
  obtain ⟨n, hn⟩ : ∃ n : ℕ, (ZFSet.mk (PSet.ofNat n) : S) = y := by
    induction y using Quotient.inductionOn with
    | h y =>
      obtain ⟨⟨n⟩, hn⟩ := hy
      exact ⟨n, (Quotient.sound hn.symm)⟩
  rw [← hn]; exact this n

theorem tt_ne_ff : tt ≠ ff := by
  intro h
  have : (∅ : S) ∈ tt := mem_singleton.2 rfl
  rw [h] at this
  exact notMem_empty _ this

theorem mem_bool {d : S} : d ∈ bool ↔ d = tt ∨ d = ff := by
  rw [bool, mem_pair]; exact or_comm

theorem ofProp_bool (p : Prop) : ofProp p ∈ bool := by
  rw [mem_bool, ofProp]; split <;> simp

theorem ofProp_tt {p : Prop} : ofProp p = tt ↔ p := by
  rw [ofProp]; split
  · simp [*]
  · simp [*, tt_ne_ff.symm]

/-- The logical connectives as graphs. -/
def notVal : S := lam bool fun a => ofProp (a = ff)
def andVal : S := lam bool fun a => lam bool fun b => ofProp (a = tt ∧ b = tt)
def orVal : S := lam bool fun a => lam bool fun b => ofProp (a = tt ∨ b = tt)
def eqVal : S := lam U fun T => lam T fun a => lam T fun b => ofProp (a = b)
def iteVal : S :=
  lam U fun T => lam bool fun c => lam T fun a => lam T fun b => if c = tt then a else b

theorem val_not {a : S} (h : a ∈ bool) : app notVal a = tt ↔ a = ff := by
  rw [notVal, app_lam h, ofProp_tt]
theorem val_and {a b : S} (h : a ∈ bool) (h' : b ∈ bool) :
    app (app andVal a) b = tt ↔ a = tt ∧ b = tt := by
  rw [andVal, app_lam h, app_lam h', ofProp_tt]
theorem val_or {a b : S} (h : a ∈ bool) (h' : b ∈ bool) :
    app (app orVal a) b = tt ↔ a = tt ∨ b = tt := by
  rw [orVal, app_lam h, app_lam h', ofProp_tt]
theorem val_eq {T a b : S} (hT : T ∈ U) (h : a ∈ T) (h' : b ∈ T) :
    app (app (app eqVal T) a) b = tt ↔ a = b := by
  rw [eqVal, app_lam hT, app_lam h, app_lam h', ofProp_tt]
theorem val_ite_tt {T a b : S} (hT : T ∈ U) (h : a ∈ T) (h' : b ∈ T) :
    app (app (app (app iteVal T) tt) a) b = a := by
  rw [iteVal, app_lam hT, app_lam (mem_bool.2 (Or.inl rfl)), app_lam h, app_lam h', if_pos rfl]
theorem val_ite_ff {T a b : S} (hT : T ∈ U) (h : a ∈ T) (h' : b ∈ T) :
    app (app (app (app iteVal T) ff) a) b = b := by
  rw [iteVal, app_lam hT, app_lam (mem_bool.2 (Or.inr rfl)), app_lam h, app_lam h',
    if_neg tt_ne_ff.symm]

theorem mem_not : notVal ∈ pi bool fun _ => bool := lam_mem_pi fun _ _ => ofProp_bool _
theorem mem_and : andVal ∈ pi bool fun _ => pi bool fun _ => bool :=
  lam_mem_pi fun _ _ => lam_mem_pi fun _ _ => ofProp_bool _
theorem mem_or : orVal ∈ pi bool fun _ => pi bool fun _ => bool :=
  lam_mem_pi fun _ _ => lam_mem_pi fun _ _ => ofProp_bool _
theorem mem_eq : eqVal ∈ pi U fun T => pi T fun _ => pi T fun _ => bool :=
  lam_mem_pi fun _ _ => lam_mem_pi fun _ _ => lam_mem_pi fun _ _ => ofProp_bool _
theorem mem_ite : iteVal ∈ pi U fun T => pi bool fun _ => pi T fun _ => pi T fun _ => T :=
  lam_mem_pi fun _ _ => lam_mem_pi fun _ _ => lam_mem_pi fun _ ha => lam_mem_pi fun _ hb => by
    split
    · exact ha
    · exact hb

/-- The meaning of a symbol: the logical symbols are fixed, the others are given by `v`. -/
def symVal (v : Symbol → S) : Symbol → S
  | .true_ => tt
  | .false_ => ff
  | .not_ => notVal
  | .and_ => andVal
  | .or_ => orVal
  | .eq_ => eqVal
  | .ite_ => iteVal
  | .bool => bool
  | .type0 => U
  | s => v s

/-- The meaning of the binders. -/
def bindVal : Binder → S → (S → S) → S
  | .lam, A, g => lam A g
  | .pi, A, g => pi A g
  | .all, A, g => ofProp (∀ a ∈ A, g a = tt)
  | .ex, A, g => ofProp (∃ a ∈ A, g a = tt)

/-- The set-theoretic interpretation with values `v` for the declared symbols. -/
def interp (v : Symbol → S) : Interp where
  D := S
  app := app
  sym := symVal v
  bind := bindVal
  mem := fun a b => a ∈ b

/-- Symbols whose meaning is left to `v`. -/
def declared : Symbol → Bool
  | .type _ _ | .typeclass _ _ | .global _ _ | .scoped _ => true
  | _ => false

/-- Any choice of values for the declared symbols that respects their types and the typeclass tables
gives a lawful interpretation. -/
theorem lawful (K : KCtx) (v : Symbol → S)
    (hsym : ∀ s T, declared s = true → isKindSym s = false → K.symbolType s = some T → T.Ground →
      ∀ ρ β, (interp v).mem (v s) (eval (interp v) ρ β T))
    (hcls : ∀ m l, v (.typeclass m l) ⊆ U)
    (hext : ∀ c d, K.tcExtends c d = true → v (.typeclass c.1 c.2) ⊆ v (.typeclass d.1 d.2))
    (hinst : ∀ m l c, K.isInstanceOf (m, l) c = true → K.paramKinds (m, l) = [] →
      v (.type m l) ∈ v (.typeclass c.1 c.2))
    (hsch : ∀ c sctx target, (sctx, target) ∈ K.schemes c → ∀ ρ, Models (interp v) sctx ρ →
      ∀ β, (interp v).mem (eval (interp v) ρ β target) (v (.typeclass c.1 c.2))) :
    Lawful K (interp v) where
  tt_ne_ff := tt_ne_ff
  mem_bool d := mem_bool
  bind_congr := by
    intro b A g h e
    cases b with
    | lam => exact lam_congr e
    | pi => exact pi_congr e
    | all =>
      show ofProp _ = ofProp _
      congr 1
      exact propext ⟨fun h1 a ha => (e a ha) ▸ h1 a ha, fun h1 a ha => (e a ha) ▸ h1 a ha⟩
    | ex =>
      show ofProp _ = ofProp _
      congr 1
      exact propext ⟨fun ⟨a, ha, h1⟩ => ⟨a, ha, (e a ha) ▸ h1⟩, fun ⟨a, ha, h1⟩ => ⟨a, ha, (e a ha) ▸ h1⟩⟩
  beta _ _ _ h := app_lam h
  mem_pi _ _ _ := mem_pi
  all_tt _ _ _ := ofProp_tt
  all_bool _ _ _ := ofProp_bool _
  ex_tt _ _ _ := ofProp_tt
  ex_bool _ _ _ := ofProp_bool _
  not_tt a h := val_not h
  and_tt a b h h' := val_and h h'
  or_tt a b h h' := val_or h h'
  eq_tt T a b hT h h' := val_eq hT h h'
  ite_tt T a b hT h h' := val_ite_tt hT h h'
  ite_ff T a b hT h h' := val_ite_ff hT h h'
  pi_small _ _ hA hB := U_pi hA hB
  sym_type := by
    intro s T hk hT hg ρ β
    cases s with
    | true_ => cases hT; exact mem_bool.2 (Or.inl rfl)
    | false_ => cases hT; exact mem_bool.2 (Or.inr rfl)
    | not_ => cases hT; exact mem_not
    | and_ => cases hT; exact mem_and
    | or_ => cases hT; exact mem_or
    | eq_ => cases hT; exact mem_eq
    | ite_ => cases hT; exact mem_ite
    | bool => cases hT; exact U_bool
    | type0 => cases hk
    | typeclass m l => cases hk
    | type m l => exact hsym _ _ rfl hk hT hg ρ β
    | global m l => exact hsym _ _ rfl hk hT hg ρ β
    | «scoped» l => exact hsym _ _ rfl hk hT hg ρ β
  class_type0 m l d h := hcls m l h
  class_extends c d h x hx := hext c d h hx
  class_inst m l c h h2 := hinst m l c h h2
  class_scheme c sctx target h ρ hρ β := hsch c sctx target h ρ hρ β

end

end SetModel
end Spec
end Acorn
