/-
A set-theoretic model of the logic in which no type is empty: as `SetModel`, but `Type0` is the set of
the non-empty sets of the universe.
-/
import Verif.Spec.SetModel
namespace Acorn
namespace Spec
namespace SetModel

open ZFSet

noncomputable section

open Classical

/-- The non-empty types. -/
def V : S := ZFSet.sep (fun A => ∃ a, a ∈ A) U

theorem mem_V {A : S} : A ∈ V ↔ A ∈ U ∧ ∃ a, a ∈ A := mem_sep

theorem V_bool : bool ∈ V := mem_V.2 ⟨U_bool, tt, mem_bool.2 (Or.inl rfl)⟩

theorem V_omega : (omega : S) ∈ V := mem_V.2 ⟨U_omega, ∅, omega_zero⟩

theorem V_pi {A : S} {B : S → S} (hA : A ∈ V) (hB : ∀ a ∈ A, B a ∈ V) : pi A B ∈ V := by
  refine mem_V.2 ⟨U_pi (mem_V.1 hA).1 fun a ha => (mem_V.1 (hB a ha)).1, ?_⟩
  refine ⟨lam A fun a => if h : ∃ b, b ∈ B a then choose h else ∅, lam_mem_pi fun a ha => ?_⟩
  have h := (mem_V.1 (hB a ha)).2
  rw [dif_pos h]
  exact choose_spec h

/-- Equality and conditionals at the non-empty types. -/
def eqValV : S := lam V fun T => lam T fun a => lam T fun b => ofProp (a = b)
def iteValV : S :=
  lam V fun T => lam bool fun c => lam T fun a => lam T fun b => if c = tt then a else b

theorem val_eqV {T a b : S} (hT : T ∈ V) (h : a ∈ T) (h' : b ∈ T) :
    app (app (app eqValV T) a) b = tt ↔ a = b := by
  rw [eqValV, app_lam hT, app_lam h, app_lam h', ofProp_tt]
theorem val_iteV_tt {T a b : S} (hT : T ∈ V) (h : a ∈ T) (h' : b ∈ T) :
    app (app (app (app iteValV T) tt) a) b = a := by
  rw [iteValV, app_lam hT, app_lam (mem_bool.2 (Or.inl rfl)), app_lam h, app_lam h', if_pos rfl]
theorem val_iteV_ff {T a b : S} (hT : T ∈ V) (h : a ∈ T) (h' : b ∈ T) :
    app (app (app (app iteValV T) ff) a) b = b := by
  rw [iteValV, app_lam hT, app_lam (mem_bool.2 (Or.inr rfl)), app_lam h, app_lam h',
    if_neg tt_ne_ff.symm]

/-- The meaning of a symbol: the logical symbols are fixed, the others are given by `v`. -/
def symValV (v : Symbol → S) : Symbol → S
  | .true_ => tt
  | .false_ => ff
  | .not_ => notVal
  | .and_ => andVal
  | .or_ => orVal
  | .eq_ => eqValV
  | .ite_ => iteValV
  | .bool => bool
  | .type0 => V
  | s => v s

/-- The interpretation without empty types, with values `v` for the declared symbols. -/
def interpV (v : Symbol → S) : Interp where
  D := S
  app := app
  sym := symValV v
  bind := bindVal
  mem := fun a b => a ∈ b

/-- Any choice of values for the declared symbols that respects their types and the typeclass tables
gives a lawful interpretation. -/
theorem lawfulV (K : KCtx) (v : Symbol → S)
    (hsym : ∀ s T, declared s = true → isKindSym s = false → K.symbolType s = some T → T.Ground →
      ∀ ρ β, (interpV v).mem (v s) (eval (interpV v) ρ β T))
    (hcls : ∀ m l, v (.typeclass m l) ⊆ V)
    (hext : ∀ c d, K.tcExtends c d = true → v (.typeclass c.1 c.2) ⊆ v (.typeclass d.1 d.2))
    (hinst : ∀ m l c, K.isInstanceOf (m, l) c = true → K.paramKinds (m, l) = [] →
      v (.type m l) ∈ v (.typeclass c.1 c.2))
    (hsch : ∀ c sctx target, (sctx, target) ∈ K.schemes c → ∀ ρ, Models (interpV v) sctx ρ →
      ∀ β, (interpV v).mem (eval (interpV v) ρ β target) (v (.typeclass c.1 c.2))) :
    Lawful K (interpV v) where
  tt_ne_ff := tt_ne_ff
  mem_bool d := mem_bool
  bind_congr := by
    intro b A g h e
    cases b with
    | lam => exact lam_congr e
    | pi => exact pi_congr e
    | all =>
      show ofProp _ = ofProp _
      congr 1
      exact propext ⟨fun h1 a ha => (e a ha) ▸ h1 a ha, fun h1 a ha => (e a ha) ▸ h1 a ha⟩
    | ex =>
      show ofProp _ = ofProp _
      congr 1
      exact propext ⟨fun ⟨a, ha, h1⟩ => ⟨a, ha, (e a ha) ▸ h1⟩, fun ⟨a, ha, h1⟩ => ⟨a, ha, (e a ha) ▸ h1⟩⟩
  beta _ _ _ h := app_lam h
  mem_pi _ _ _ := mem_pi
  all_tt _ _ _ := ofProp_tt
  all_bool _ _ _ := ofProp_bool _
  ex_tt _ _ _ := ofProp_tt
  ex_bool _ _ _ := ofProp_bool _
  not_tt a h := val_not h
  and_tt a b h h' := val_and h h'
  or_tt a b h h' := val_or h h'
  eq_tt T a b hT h h' := val_eqV hT h h'
  ite_tt T a b hT h h' := val_iteV_tt hT h h'
  ite_ff T a b hT h h' := val_iteV_ff hT h h'
  pi_small _ _ hA hB := V_pi hA hB
  sym_type := by
    intro s T hk hT hg ρ β
    cases s with
    | true_ => cases hT; exact mem_bool.2 (Or.inl rfl)
    | false_ => cases hT; exact mem_bool.2 (Or.inr rfl)
    | not_ => cases hT; exact mem_not
    | and_ => cases hT; exact mem_and
    | or_ => cases hT; exact mem_or
    | eq_ =>
      cases hT
      exact lam_mem_pi fun _ _ => lam_mem_pi fun _ _ => lam_mem_pi fun _ _ => ofProp_bool _
    | ite_ =>
      cases hT
      refine lam_mem_pi fun _ _ => lam_mem_pi fun _ _ => lam_mem_pi fun _ ha => lam_mem_pi fun _ hb => ?_
      split
      · exact ha
      · exact hb
    | bool => cases hT; exact V_bool
    | type0 => cases hk
    | typeclass m l => cases hk
    | type m l => exact hsym _ _ rfl hk hT hg ρ β
    | global m l => exact hsym _ _ rfl hk hT hg ρ β
    | «scoped» l => exact hsym _ _ rfl hk hT hg ρ β
  class_type0 m l d h := hcls m l h
  class_extends c d h x hx := hext c d h hx
  class_inst m l c h h2 := hinst m l c h h2
  class_scheme c sctx target h ρ hρ β := hsch c sctx target h ρ hρ β

end
end SetModel
end Spec
end Acorn
