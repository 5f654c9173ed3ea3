/-
A recursive definition that passes the termination check has exactly one solution.
-/
import Verif.Lemmas.Recursion
import Verif.Lemmas.ValueTypes
import Verif.Lemmas.Datatypes
namespace Acorn
namespace Elab

open Spec Termination

universe u

section
variable {F : Frame.{u}} {C : String → List F.T → F.D} {θ : String → F.T} {S : Theory} {f : String} {ts : List F.T}

theorem put_own (g : F.D) : put C f ts g f ts = g := by simp [put]

theorem put_other {n : String} (g : F.D) (h : n ≠ f) : put C f ts g n = C n := by
  funext us
  simp [put, h]

theorem put_conOf {A : Ty} {ks : List (String × List Ty × List Ty)} (g : F.D) (h : ∀ k ∈ ks, k.1 ≠ f) :
    ks.map (conOf F (put C f ts g) θ A) = ks.map (conOf F C θ A) :=
  List.map_congr_left fun k hk => by
    simp only [conOf]
    rw [put_other g (h k hk)]

theorem SuitsApart.put {C : String → List F.T → F.D} (h : SuitsApart F C θ S f) (g : F.D) :
    SuitsApart F (Spec.put C f ts g) θ S f where
  const n params t ps hn h1 h2 := by
    rw [put_other g hn]
    exact h.const n params t ps hn h1 h2
  free d as ks hk := by
    rw [put_conOf g (h.constructors d as ks hk)]
    exact h.free d as ks hk
  constructors := h.constructors
  one := h.one

theorem field_put {A t : Ty} {x y g : F.D} (h : ∀ d as ks, S.constructors d as ks → ∀ k ∈ ks, k.1 ≠ f) :
    Field F (put C f ts g) θ S A y t x → Field F C θ S A y t x := by
  rintro ⟨d, as, ks, h1, h2, k, h3, zs, h4, h5, h6⟩
  rw [put_other g (h d as ks h2 k h3)] at h5
  exact ⟨d, as, ks, h1, h2, k, h3, zs, h4, h5, h6⟩

/-- A field has the type it is declared with. -/
theorem field_mem {A t : Ty} {x y : F.D} : Field F C θ S A y t x → F.mem y (F.ty θ t) := by
  rintro ⟨d, as, ks, _, _, k, _, zs, h4, _, j, h6, h7⟩
  have := Fits.get h4 j _ F.undef (tys_get θ _ j t h6)
  rwa [List.getD_eq_getElem?_getD, h7] at this

/-- Going from a value to its fields of the same type comes to an end. -/
theorem field_acc (h : SuitsApart F C θ S f) (A : Ty) (x : F.D) (hx : F.mem x (F.ty θ A)) :
    Acc (fun y x => Field F C θ S A y A x) x := by
  by_cases hA : ∃ d as ks, A = .data d as ∧ S.constructors d as ks
  · obtain ⟨d, as, ks, e, hk⟩ := hA
    subst e
    have hfree := h.free d as ks hk
    refine hfree.induction (fun x => Acc (fun y x => Field F C θ S (.data d as) y (.data d as) x) x) ?_ x hx
    intro c hc xs hxs ih
    obtain ⟨k, hkm, rfl⟩ := List.mem_map.1 hc
    refine Acc.intro _ ?_
    rintro y ⟨d', as', ks', e, hk', k', hkm', zs, hzs, hv, j, hj, hy⟩
    injection e with e1 e2
    subst e1 e2
    obtain rfl := h.one d as ks ks' hk hk'
    obtain ⟨m, hm⟩ := List.mem_iff_getElem?.1 hkm
    obtain ⟨m', hm'⟩ := List.mem_iff_getElem?.1 hkm'
    by_cases hmm : m = m'
    · subst hmm
      obtain rfl : k = k' := Option.some.inj (hm.symm.trans hm')
      have hz : zs = xs := hfree.injective (conOf F C θ (.data d as) k) (List.mem_map_of_mem hkm) zs xs hzs hxs hv
      subst hz
      have hlt : j < k.2.2.length := (List.getElem?_eq_some_iff.1 hj).1
      refine ih j y hy ⟨by simpa [conOf] using hlt, ?_⟩
      have := (List.getElem?_eq_some_iff.1 hj).2
      simpa [conOf] using this
    · exact (hfree.distinct m m' (conOf F C θ (.data d as) k) (conOf F C θ (.data d as) k') hmm (by rw [List.getElem?_map, hm]; rfl)
        (by rw [List.getElem?_map, hm']; rfl) xs zs hxs hzs hv.symm).elim
  · refine Acc.intro _ ?_
    rintro y ⟨d, as, ks, e, hk, _⟩
    exact absurd ⟨d, as, ks, e, hk⟩ hA

theorem appN_lamN_part : ∀ {as : List F.T} {bs : List F.T} {ys : List F.D} {k : List F.D → F.D}, F.Fits ys as →
    F.appN (F.lamN (as ++ bs) k) ys = F.lamN bs fun zs => k (ys ++ zs)
  | [], bs, [], k, _ => rfl
  | [], _, _ :: _, _, h => h.elim
  | _ :: _, _, [], _, h => h.elim
  | t :: as, bs, y :: ys, k, h => by
    show F.appN (F.app (F.lam t fun x => F.lamN (as ++ bs) fun xs => k (x :: xs)) y) ys = _
    rw [F.beta _ _ _ h.1]
    exact appN_lamN_part h.2

/-- What is used of a definition that passes the check: a position of a parameter that gets smaller. -/
theorem terminates_pos {body : Value} {args : List Ty} (h : body.terminates f args.length = some true) :
    ∃ (i : Nat) (A : Ty) (s' : List Bool), args[i]? = some A ∧
      traverse 0 ((List.range args.length).map some) (List.replicate args.length true) (body.shape f) = some s' ∧ s'[i]? = some true := by
  unfold Value.terminates check at h
  rw [Option.map_eq_some_iff] at h
  obtain ⟨s', hs, hc⟩ := h
  rw [List.contains_iff_mem, List.mem_iff_getElem?] at hc
  obtain ⟨i, hi⟩ := hc
  have := traverse_less hs hi
  have hlt : i < args.length := by
    rw [List.getElem?_replicate] at this
    split at this
    · assumption
    · cases this
  exact ⟨i, args[i], s', List.getElem?_eq_getElem hlt, hs, hi⟩

/-- At the beginning of a definition only the parameters are known. -/
theorem recMap_start {C : String → List F.T → F.D} {args : List Ty} {xs : List F.D} {i : Nat} {A : Ty} {x : F.D} (h : F.Fits xs (F.tys θ args))
    (hA : args[i]? = some A) (hx : xs[i]? = some x) : RecMap C θ S A i x args xs ((List.range args.length).map some) where
  len := by simp [fits_tysLength h]
  types := (fits_tysLength h).symm
  here := ⟨hx, hA⟩
  sub j hj hne := by
    rw [List.getElem?_map, Option.map_eq_some_iff] at hj
    obtain ⟨a, h1, h2⟩ := hj
    have h1 := List.getElem?_eq_some_iff.1 h1
    simp only [List.getElem_range] at h1
    exact absurd (h1.2.trans (Option.some.inj h2)) hne

section
variable {args : List Ty} {ret : Ty} {body : Value} {i : Nat} {A : Ty} {s' : List Bool}

/-- What is known of the definition. -/
structure Checked (F : Frame.{u}) (C : String → List F.T → F.D) (θ : String → F.T) (S : Theory) (f : String) (ts : List F.T) (args : List Ty)
    (ret : Ty) (body : Value) (i : Nat) (A : Ty) (s' : List Bool) : Prop where
  suits : SuitsApart F C θ S f
  ok : ValueOk S args body ret
  own : EachConst (OwnCall F θ f ts (Ty.functional args ret)) body
  pos : args[i]? = some A
  run : traverse 0 ((List.range args.length).map some) (List.replicate args.length true) (body.shape f) = some s'
  strict : s'[i]? = some true

/-- Two functions that agree on arguments that are smaller than `x` at the position give the body the same
value at `x`. -/
theorem Checked.step (H : Checked F C θ S f ts args ret body i A s') {g g' : F.D} {x : F.D}
    (h : ∀ ys, F.Fits ys (F.tys θ (args.take (i + 1))) → ∀ y, ys[i]? = some y → Field F C θ S A y A x →
      F.appN g ys = F.appN g' ys ∧ F.mem (F.appN g ys) (F.fnN (F.tys θ (args.drop (i + 1))) (F.ty θ ret)))
    {xs : List F.D} (hxs : F.Fits xs (F.tys θ args)) (hx : xs[i]? = some x) :
    F.den (put C f ts g) θ xs body = F.den (put C f ts g') θ xs body ∧ F.mem (F.den (put C f ts g) θ xs body) (F.ty θ ret) := by
  have hi : i + 1 ≤ args.length := (List.getElem?_eq_some_iff.1 H.pos).1
  have hne : args ≠ [] := by rintro rfl; simp at hi
  obtain ⟨bs, q, e⟩ := functional_isFn (r := ret) hne
  have hown := H.own
  rw [e] at hown
  have hret : F.fnN (F.tys θ ((args ++ bs).drop (i + 1))) (F.ty θ q) = F.fnN (F.tys θ (args.drop (i + 1))) (F.ty θ ret) := by
    rw [List.drop_append_of_le_length hi]
    cases ret with
    | fn cs r =>
      rw [functional_fn r hne] at e
      injection e with e1 e2
      have := List.append_cancel_left e1
      subst e2 this
      rw [tys_append, fnN_append]; rfl
    | _ =>
      rw [functional_notFn hne (by intro _ _ h; cases h)] at e
      injection e with e1 e2
      have : bs = [] := by simpa using e1.symm
      subst e2 this
      rw [List.append_nil]
  refine rec_good (i := i) (x := x) (A := A) ⟨fun n hn => by rw [put_other g hn, put_other g' hn], SuitsApart.put H.suits g, ?_, ?_⟩ (sizeOf body) body (Nat.le_refl _) args ret xs _ _ s' H.ok hown hxs
    (recMap_start hxs H.pos hx) H.run H.strict
  · rw [List.getElem?_append_left hi]; exact H.pos
  · intro ys hys y hy hf
    rw [List.take_append_of_le_length hi] at hys
    rw [put_own, put_own, hret]
    exact h ys hys y hy (field_put H.suits.constructors hf)

/-- There is at most one solution. -/
theorem Checked.unique (H : Checked F C θ S f ts args ret body i A s') {g g' : F.D} (h : Solves F C θ f ts args ret body g)
    (h' : Solves F C θ f ts args ret body g') : g = g' := by
  have hi : i + 1 ≤ args.length := (List.getElem?_eq_some_iff.1 H.pos).1
  have split : F.tys θ args = F.tys θ (args.take (i + 1)) ++ F.tys θ (args.drop (i + 1)) := by
    rw [← tys_append, List.take_append_drop]
  have hg := h.1
  have hg' := h'.1
  rw [split, fnN_append] at hg hg'
  have key : ∀ x, Acc (fun y x => Field F C θ S A y A x) x → ∀ xs, F.Fits xs (F.tys θ args) → xs[i]? = some x →
      F.appN g xs = F.appN g' xs := by
    intro x hx
    induction hx with
    | intro x _ ih =>
      intro xs hxs hxi
      rw [h.2 xs hxs, h'.2 xs hxs]
      refine (H.step (x := x) ?_ hxs hxi).1
      intro ys hys y hy hf
      refine ⟨extN (mem_appN hg hys) (mem_appN hg' hys) fun zs hzs => ?_, mem_appN hg hys⟩
      rw [← appN_append, ← appN_append]
      refine ih y hf (ys ++ zs) (by rw [split]; exact Fits.append hys hzs) ?_
      rw [List.getElem?_append_left (List.getElem?_eq_some_iff.1 hy).1]
      exact hy
  refine extN h.1 h'.1 fun xs hxs => ?_
  have hxi : i < xs.length := by rw [fits_tysLength hxs]; exact hi
  refine key xs[i] (field_acc H.suits A _ ?_) xs hxs (List.getElem?_eq_getElem hxi)
  have := Fits.get hxs i _ F.undef (tys_get θ _ i A H.pos)
  rwa [List.getD_eq_getElem?_getD, List.getElem?_eq_getElem hxi] at this

/-- There is a solution. -/
theorem Checked.exists_ (H : Checked F C θ S f ts args ret body i A s') : ∃ g, Solves F C θ f ts args ret body g := by
  classical
  have hi : i + 1 ≤ args.length := (List.getElem?_eq_some_iff.1 H.pos).1
  have split : F.tys θ args = F.tys θ (args.take (i + 1)) ++ F.tys θ (args.drop (i + 1)) := by
    rw [← tys_append, List.take_append_drop]
  let R : F.D → F.D → Prop := fun y x => F.mem x (F.ty θ A) ∧ Field F C θ S A y A x
  have hwf : WellFounded R := ⟨fun x => by
    by_cases hx : F.mem x (F.ty θ A)
    · exact Subrelation.accessible (fun h => h.2) (field_acc H.suits A x hx)
    · exact Acc.intro _ fun y h => absurd h.1 hx⟩
  let below : (x : F.D) → ((y : F.D) → R y x → List F.D → F.D) → F.D := fun x rec_ =>
    F.lamN (F.tys θ args) fun ys => if h : ∃ y, ys[i]? = some y ∧ R y x then rec_ (Classical.choose h) (Classical.choose_spec h).2 ys else F.undef
  let step : (x : F.D) → ((y : F.D) → R y x → List F.D → F.D) → List F.D → F.D := fun x rec_ xs =>
    F.den (put C f ts (below x rec_)) θ xs body
  let V : F.D → List F.D → F.D := hwf.fix step
  have hV : ∀ x, V x = step x fun y _ => V y := fun x => hwf.fix_eq step x
  let g : F.D := F.lamN (F.tys θ args) fun ys => V (ys.getD i F.undef) ys
  have hpos : ∀ xs, F.Fits xs (F.tys θ args) → ∃ x, xs[i]? = some x ∧ F.mem x (F.ty θ A) := by
    intro xs hxs
    have hxi : i < xs.length := by rw [fits_tysLength hxs]; exact hi
    have := Fits.get hxs i _ F.undef (tys_get θ _ i A H.pos)
    rw [List.getD_eq_getElem?_getD, List.getElem?_eq_getElem hxi] at this
    exact ⟨_, List.getElem?_eq_getElem hxi, this⟩
  have key : ∀ x, F.mem x (F.ty θ A) → ∀ xs, F.Fits xs (F.tys θ args) → xs[i]? = some x →
      V x xs = F.den (put C f ts g) θ xs body ∧ F.mem (V x xs) (F.ty θ ret) := by
    intro x
    induction x using hwf.induction with
    | _ x ih =>
      intro hx xs hxs hxi
      rw [hV x]
      show F.den (put C f ts (below x fun y _ => V y)) θ xs body = _ ∧ _
      refine H.step (x := x) ?_ hxs hxi
      intro ys hys y hy hf
      have hR : R y x := ⟨hx, hf⟩
      have hget : ∀ zs, (ys ++ zs)[i]? = some y := fun zs => by
        rw [List.getElem?_append_left (List.getElem?_eq_some_iff.1 hy).1]; exact hy
      have e1 : F.appN (below x fun y _ => V y) ys = F.lamN (F.tys θ (args.drop (i + 1))) fun zs => V y (ys ++ zs) := by
        show F.appN (F.lamN (F.tys θ args) _) ys = _
        rw [split, appN_lamN_part hys]
        refine lamN_congr fun zs _ => ?_
        have hex : ∃ y', (ys ++ zs)[i]? = some y' ∧ R y' x := ⟨y, hget zs, hR⟩
        rw [dif_pos hex]
        have : Classical.choose hex = y := Option.some.inj ((Classical.choose_spec hex).1.symm.trans (hget zs))
        exact congrArg (fun w => V w (ys ++ zs)) this
      have e2 : F.appN g ys = F.lamN (F.tys θ (args.drop (i + 1))) fun zs => V y (ys ++ zs) := by
        show F.appN (F.lamN (F.tys θ args) _) ys = _
        rw [split, appN_lamN_part hys]
        refine lamN_congr fun zs _ => ?_
        rw [List.getD_eq_getElem?_getD, hget zs, Option.getD_some]
      refine ⟨e1.trans e2.symm, ?_⟩
      rw [e1]
      refine mem_lamN fun zs hzs => ?_
      exact (ih y hR (field_mem hf) (ys ++ zs) (by rw [split]; exact Fits.append hys hzs) (hget zs)).2
  refine ⟨g, mem_lamN fun xs hxs => ?_, fun xs hxs => ?_⟩
  · obtain ⟨x, hxi, hx⟩ := hpos xs hxs
    rw [List.getD_eq_getElem?_getD, hxi, Option.getD_some]
    exact (key x hx xs hxs hxi).2
  · obtain ⟨x, hxi, hx⟩ := hpos xs hxs
    show F.appN (F.lamN (F.tys θ args) _) xs = _
    rw [appN_lamN hxs, List.getD_eq_getElem?_getD, hxi, Option.getD_some]
    exact (key x hx xs hxs hxi).1

/-- A definition that passes the check has exactly one solution. -/
theorem solves_once (h1 : SuitsApart F C θ S f) (h2 : ValueOk S args body ret)
    (h3 : EachConst (OwnCall F θ f ts (Ty.functional args ret)) body) (h4 : body.terminates f args.length = some true) :
    ∃ g, Solves F C θ f ts args ret body g ∧ ∀ g', Solves F C θ f ts args ret body g' → g' = g := by
  obtain ⟨i, A, s', hA, hs, hi⟩ := terminates_pos h4
  have H : Checked F C θ S f ts args ret body i A s' := ⟨h1, h2, h3, hA, hs, hi⟩
  obtain ⟨g, hg⟩ := H.exists_
  exact ⟨g, hg, fun g' hg' => H.unique hg' hg⟩

end
end
end Elab
end Acorn
