/-
The set of values built from constructors: it is a type of the universe, and it is freely generated.
-/
import Verif.Spec.SetTypes
import Verif.Spec.Datatypes
import Verif.Lemmas.SetInductive
import Verif.Lemmas.ValueMeaning
namespace Acorn
namespace Elab

open Spec ZFSet
open Spec.SetModel (S U)

noncomputable section

/-- A frame of sets without datatypes. -/
abbrev E0 : Frame := setTypes fun _ _ => (∅ : S)

theorem fnN_any (data) : ∀ (ts : List S) (r : S), (setTypes data).fnN ts r = E0.fnN ts r
  | [], _ => rfl
  | t :: ts, r => congrArg (fun x => SetModel.pi t fun _ => x) (fnN_any data ts r)

theorem appN_any (data) (f : S) (xs : List S) : (setTypes data).appN f xs = E0.appN f xs := rfl

theorem lamN_any (data) : ∀ (ts : List S) (k : List S → S), (setTypes data).lamN ts k = E0.lamN ts k
  | [], _ => rfl
  | t :: ts, k => congrArg (SetModel.lam t) (funext fun x => lamN_any data ts fun xs => k (x :: xs))

theorem fits_any (data) : ∀ (xs ts : List S), (setTypes data).Fits xs ts ↔ E0.Fits xs ts
  | [], [] => Iff.rfl
  | [], _ :: _ => Iff.rfl
  | _ :: _, [] => Iff.rfl
  | x :: xs, t :: ts => and_congr_right fun _ => fits_any data xs ts

/-- The type of an argument: a set, or functions into the set that is being defined. -/
inductive SetArg where
  | other (A : S)
  | self (Bs : List S)

/-- The set of the arguments. -/
def SetArg.set (D : S) : SetArg → S
  | .other A => A
  | .self Bs => E0.fnN Bs D

/-- The sets an argument's type is made of. -/
def SetArg.parts : SetArg → List S
  | .other A => [A]
  | .self Bs => Bs

/-- The values that are built from the constructors. -/
inductive Built (sig : List (List SetArg)) : S → Prop
  | mk (i : Nat) (as : List SetArg) (xs : List S) : sig[i]? = some as → xs.length = as.length →
    (∀ (j : Nat) A x, as[j]? = some (.other A) → xs[j]? = some x → x ∈ A) →
    (∀ (j : Nat) Bs x, as[j]? = some (.self Bs) → xs[j]? = some x → x = E0.lamN Bs (E0.appN x)) →
    (∀ (j : Nat) Bs x, as[j]? = some (.self Bs) → xs[j]? = some x → ∀ bs, E0.Fits bs Bs → Built sig (E0.appN x bs)) →
    Built sig (SetModel.code i xs)

theorem lamN_level {R : S} {μ : Ordinal.{1}} (hl : Order.IsSuccLimit μ) (hR : rank R < μ)
    (hi : ∀ (A : S) (g : S → S), rank A ≤ rank R → (∀ a ∈ A, g a ∈ vonNeumann μ) → SetModel.img g A ∈ vonNeumann μ) :
    ∀ {Bs : List S} {k : List S → S}, (∀ B ∈ Bs, rank B ≤ rank R) → (∀ bs, E0.Fits bs Bs → k bs ∈ vonNeumann μ) →
      E0.lamN Bs k ∈ vonNeumann μ
  | [], k, _, hk => hk [] trivial
  | B :: Bs, k, hB, hk => by
    refine hi B _ (hB B (List.mem_cons_self ..)) fun b hb => SetModel.pair_level hl ?_ ?_
    · rw [mem_vonNeumann]
      exact (rank_lt_of_mem hb).trans_le ((hB B (List.mem_cons_self ..)).trans hR.le)
    · exact lamN_level hl hR hi (fun C hC => hB C (List.mem_cons_of_mem _ hC)) fun bs hbs => hk _ ⟨hb, hbs⟩

/-- The built values form a type of the universe. -/
theorem built_set (sig : List (List SetArg)) (h : ∀ as ∈ sig, ∀ a ∈ as, ∀ A ∈ a.parts, A ∈ U) :
    ∃ D ∈ U, ∀ x, x ∈ D ↔ Built sig x := by
  let R := SetModel.bound (sig.flatten.flatMap SetArg.parts)
  have hR : R ∈ U := SetModel.bound_mem fun A hA => by
    obtain ⟨a, ha, hA⟩ := List.mem_flatMap.1 hA
    obtain ⟨as, has, ha⟩ := List.mem_flatten.1 ha
    exact h as has a ha A hA
  have rk : ∀ {as : List SetArg} {a : SetArg} {A : S} {i j : Nat}, sig[i]? = some as → as[j]? = some a → A ∈ a.parts →
      rank A ≤ rank R := fun hi hj hA => SetModel.rank_bound (List.mem_flatMap.2
        ⟨_, List.mem_flatten.2 ⟨_, List.mem_of_getElem? hi, List.mem_of_getElem? hj⟩, hA⟩)
  obtain ⟨μ, hμ, hl, hr, hi⟩ := SetModel.level R hR
  have hV : ∀ x, Built sig x → x ∈ vonNeumann μ := by
    intro x hx
    induction hx with
    | mk i as xs h1 h2 h3 h4 _ ih =>
      refine SetModel.code_level hl fun x hx => ?_
      obtain ⟨j, hj⟩ := List.getElem?_of_mem hx
      have hlt : j < as.length := h2 ▸ (List.getElem?_eq_some_iff.1 hj).1
      cases ha : as[j]? with
      | none => rw [List.getElem?_eq_none_iff] at ha; omega
      | some a =>
        cases a with
        | other A =>
          rw [mem_vonNeumann]
          exact (rank_lt_of_mem (h3 j A x ha hj)).trans_le ((rk h1 ha (List.mem_singleton.2 rfl)).trans hr.le)
        | self Bs =>
          rw [h4 j Bs x ha hj]
          exact lamN_level hl hr hi (fun B hB => rk h1 ha hB) fun bs hbs => ih j Bs x ha hj bs hbs
  refine ⟨ZFSet.sep (Built sig) (vonNeumann μ), SetModel.U_subset hμ fun x hx => (mem_sep.1 hx).1, fun x => ?_⟩
  rw [mem_sep]
  exact ⟨fun h => h.2, fun h => ⟨hV x h, h⟩⟩

theorem mem_self {sig : List (List SetArg)} {D : S} (hD : ∀ x, x ∈ D ↔ Built sig x) {Bs : List S} {x : S} :
    x ∈ E0.fnN Bs D ↔ x = E0.lamN Bs (E0.appN x) ∧ ∀ bs, E0.Fits bs Bs → Built sig (E0.appN x bs) := by
  constructor
  · intro h
    have h1 : ∀ bs, E0.Fits bs Bs → E0.appN x bs ∈ D := fun bs hb => mem_appN (F := E0) h hb
    refine ⟨extN (F := E0) h (mem_lamN (F := E0) h1) fun bs hb => (appN_lamN (F := E0) hb).symm, fun bs hb => (hD _).1 (h1 bs hb)⟩
  · rintro ⟨e, h⟩
    rw [e]
    exact mem_lamN (F := E0) fun bs hb => (hD _).2 (h bs hb)

theorem fits_iff : ∀ {xs ts : List S}, E0.Fits xs ts ↔
    xs.length = ts.length ∧ ∀ (j : Nat) t x, ts[j]? = some t → xs[j]? = some x → x ∈ t
  | [], [] => ⟨fun _ => ⟨rfl, fun _ _ _ h => by simp at h⟩, fun _ => trivial⟩
  | [], _ :: _ => ⟨fun h => h.elim, fun h => by simp at h⟩
  | _ :: _, [] => ⟨fun h => h.elim, fun h => by simp at h⟩
  | x :: xs, t :: ts => by
    show (x ∈ t ∧ E0.Fits xs ts) ↔ _
    rw [fits_iff (xs := xs) (ts := ts)]
    constructor
    · rintro ⟨h1, h2, h3⟩
      refine ⟨by simp [h2], fun j u y hu hy => ?_⟩
      cases j with
      | zero =>
        simp only [List.getElem?_cons_zero, Option.some.injEq] at hu hy
        rw [← hu, ← hy]; exact h1
      | succ j => exact h3 j u y (by simpa using hu) (by simpa using hy)
    · rintro ⟨h1, h2⟩
      exact ⟨h2 0 t x rfl rfl, by simpa using h1, fun j u y hu hy => h2 (j + 1) u y (by simpa using hu) (by simpa using hy)⟩

/-- The values of a constructor for arguments of its types are the built ones. -/
theorem built_code {sig : List (List SetArg)} {D : S} (hD : ∀ x, x ∈ D ↔ Built sig x) {i : Nat} {as : List SetArg}
    (hi : sig[i]? = some as) {xs : List S} (h : E0.Fits xs (as.map (SetArg.set D))) : SetModel.code i xs ∈ D := by
  rw [fits_iff] at h
  obtain ⟨h1, h2⟩ := h
  have key : ∀ (j : Nat) a x, as[j]? = some a → xs[j]? = some x → x ∈ a.set D := fun j a x ha hx =>
    h2 j _ x (by rw [List.getElem?_map, ha]; rfl) hx
  rw [hD]
  refine .mk i as xs hi (by simpa using h1) (fun j A x ha hx => key j _ x ha hx)
    (fun j Bs x ha hx => ((mem_self hD).1 (key j _ x ha hx)).1) (fun j Bs x ha hx => ((mem_self hD).1 (key j _ x ha hx)).2)

/-- The built values are freely generated by their constructors. -/
theorem freely_built (data) {sig : List (List SetArg)} {D : S} (hD : ∀ x, x ∈ D ↔ Built sig x)
    (cs : List (ConIn (setTypes data))) (hl : cs.length = sig.length)
    (hc : ∀ (i : Nat) c as, cs[i]? = some c → sig[i]? = some as → c.args = as.map (SetArg.set D) ∧
      (∀ xs, E0.Fits xs c.args → E0.appN c.fn xs = SetModel.code i xs) ∧
      ∀ j : Nat, (∃ h : j < c.self.length, c.self[j]) → as[j]? = some (.self [])) :
    Freely (setTypes data) D cs := by
  have hget : ∀ {i : Nat} {c}, cs[i]? = some c → ∃ as, sig[i]? = some as := by
    intro i c h
    have := (List.getElem?_eq_some_iff.1 h).1
    exact ⟨_, List.getElem?_eq_getElem (hl ▸ this)⟩
  have hcon : ∀ c ∈ cs, ∃ (i : Nat) (as : List SetArg), cs[i]? = some c ∧ sig[i]? = some as := by
    intro c h
    obtain ⟨i, hi⟩ := List.getElem?_of_mem h
    obtain ⟨as, has⟩ := hget hi
    exact ⟨i, as, hi, has⟩
  have built : ∀ {P : S → Prop}, (∀ i as c xs, sig[i]? = some as → cs[i]? = some c → E0.Fits xs c.args →
      (∀ (j : Nat) Bs x, as[j]? = some (.self Bs) → xs[j]? = some x → ∀ bs, E0.Fits bs Bs → P (E0.appN x bs)) →
      P (SetModel.code i xs)) → ∀ x, Built sig x → P x := by
    intro P hP x hx
    induction hx with
    | mk i as xs h1 h2 h3 h4 h5 ih =>
      have hlt : i < cs.length := hl ▸ (List.getElem?_eq_some_iff.1 h1).1
      refine hP i as cs[i] xs h1 (List.getElem?_eq_getElem hlt) ?_ ih
      rw [(hc i _ as (List.getElem?_eq_getElem hlt) h1).1, fits_iff]
      refine ⟨by simpa using h2, fun j t x ht hx => ?_⟩
      rw [List.getElem?_map, Option.map_eq_some_iff] at ht
      obtain ⟨a, ha, rfl⟩ := ht
      cases a with
      | other A => exact h3 j A x ha hx
      | self Bs => exact (mem_self hD).2 ⟨h4 j Bs x ha hx, h5 j Bs x ha hx⟩
  refine ⟨?_, ?_, ?_, ?_⟩
  · intro i j c d hij hi hj xs ys hx hy e
    obtain ⟨as, has⟩ := hget hi
    obtain ⟨bs, hbs⟩ := hget hj
    have e : E0.appN c.fn xs = E0.appN d.fn ys := e
    rw [(hc i c as hi has).2.1 xs ((fits_any _ _ _).1 hx), (hc j d bs hj hbs).2.1 ys ((fits_any _ _ _).1 hy)] at e
    exact hij (SetModel.code_inj e).1
  · intro c hc' xs ys hx hy e
    obtain ⟨i, as, hi, has⟩ := hcon c hc'
    have e : E0.appN c.fn xs = E0.appN c.fn ys := e
    rw [(hc i c as hi has).2.1 xs ((fits_any _ _ _).1 hx), (hc i c as hi has).2.1 ys ((fits_any _ _ _).1 hy)] at e
    exact (SetModel.code_inj e).2
  · intro d hd
    refine built (P := fun d => ∃ c ∈ cs, ∃ xs, (setTypes data).Fits xs c.args ∧ d = (setTypes data).appN c.fn xs) ?_ d ((hD d).1 hd)
    intro i as c xs has hi hx _
    exact ⟨c, List.mem_of_getElem? hi, xs, (fits_any _ _ _).2 hx, ((hc i c as hi has).2.1 xs hx).symm⟩
  · intro P hP d hd
    refine built (P := P) ?_ d ((hD d).1 hd)
    intro i as c xs has hi hx ih
    rw [← (hc i c as hi has).2.1 xs hx]
    refine hP c (List.mem_of_getElem? hi) xs ((fits_any _ _ _).2 hx) fun j x hj hs => ?_
    exact ih j [] x ((hc i c as hi has).2.2 j hs) hj [] trivial

end
end Elab
end Acorn
