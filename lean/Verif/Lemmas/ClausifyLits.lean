/-
The literals a statement is turned into hold when the statement does.
-/
import Verif.Lemmas.ClausifyExt
namespace Acorn
namespace Clausify
open Spec Term

universe u
variable {K : KCtx} {Kn : Kernel} {M : Interp.{u}} {n : Nat} {Γ Γ0 Γ1 Γ2 : LCtx}

/-! ### Statements and literals with more variables -/

/-- `P`, about the values of the variables of `Γ`, is what the literals say for all values of the other
variables of `Γ'`. -/
def Means (M : Interp.{u}) (Γ Γ' : LCtx) (P : (Nat → M.D) → (Nat → M.D) → Prop) (ls : List Literal) : Prop :=
  ∀ ρ, Models M Γ ρ → ∀ β, (P ρ β ↔ ∀ ρ', Models M Γ' ρ' → Agree Γ ρ ρ' → LitsHold M ρ' β ls)

/-- The statement `t`, or its negation. -/
def Sg (M : Interp.{u}) (p : Bool) (t : Term) (ρ β : Nat → M.D) : Prop := Tr M ρ β t ↔ p = true

theorem Sg.agree {p : Bool} {t : Term} {J : Jdg} (ht : STyped K Γ BCtx.nil t J) {ρ ρ' : Nat → M.D}
    (h : Agree Γ ρ ρ') (β : Nat → M.D) : Sg M p t ρ' β ↔ Sg M p t ρ β := by
  simp only [Sg, Tr, h.eval ht]

theorem Means.of (L : Lawful K M) (hne : NoEmptyTypes M) (hg : GoodCtx K n Γ2) (hn : n ≤ Γ0.length)
    (hle : Ctx.Le Γ0 Γ2) {P : (Nat → M.D) → (Nat → M.D) → Prop}
    (hP : ∀ ρ ρ', Agree Γ0 ρ ρ' → ∀ β, (P ρ' β ↔ P ρ β)) {ls : List Literal}
    (h : ∀ ρ, Models M Γ2 ρ → ∀ β, (LitsHold M ρ β ls ↔ P ρ β)) : Means M Γ0 Γ2 P ls := by
  intro ρ hρ β
  constructor
  · intro h1 ρ' hρ' ha
    exact (h ρ' hρ' β).2 ((hP _ _ ha β).2 h1)
  · intro h1
    obtain ⟨ρ', h2, h3⟩ := hg.extend L hne hle hn hρ
    exact (hP _ _ h3 β).1 ((h ρ' h2 β).1 (h1 ρ' h2 h3))

theorem Means.append {P Q : (Nat → M.D) → (Nat → M.D) → Prop} {xs ys : List Literal}
    (h01 : Ctx.Le Γ0 Γ1) (h12 : Ctx.Le Γ1 Γ2) (hxs : LitsTyped K Γ1 xs)
    (hQ : ∀ ρ ρ', Agree Γ0 ρ ρ' → ∀ β, (Q ρ' β ↔ Q ρ β))
    (hx : Means M Γ0 Γ1 P xs) (hy : Means M Γ1 Γ2 Q ys) :
    Means M Γ0 Γ2 (fun ρ β => P ρ β ∨ Q ρ β) (xs ++ ys) := by
  have app : ∀ ρ β, LitsHold M ρ β (xs ++ ys) ↔ LitsHold M ρ β xs ∨ LitsHold M ρ β ys := by
    intro ρ β
    simp only [LitsHold, List.mem_append]
    constructor
    · rintro ⟨l, h | h, h'⟩
      · exact .inl ⟨l, h, h'⟩
      · exact .inr ⟨l, h, h'⟩
    · rintro (⟨l, h, h'⟩ | ⟨l, h, h'⟩)
      · exact ⟨l, .inl h, h'⟩
      · exact ⟨l, .inr h, h'⟩
  intro ρ hρ β
  constructor
  · rintro (h | h) ρ' hρ' ha
    · exact (app _ _).2 (.inl ((hx ρ hρ β).1 h ρ' (h12.models hρ') ha))
    · exact (app _ _).2 (.inr ((hy ρ' (h12.models hρ') β).1 ((hQ _ _ ha β).2 h) ρ' hρ' .refl))
  · intro h
    classical
    refine Classical.byContradiction fun hn => ?_
    have h1 : ¬ P ρ β := fun h => hn (.inl h)
    have h2 : ¬ Q ρ β := fun h => hn (.inr h)
    rw [hx ρ hρ β] at h1
    refine h1 fun ρ1 hρ1 ha1 => ?_
    refine Classical.byContradiction fun hx1 => ?_
    have h3 : ¬ Q ρ1 β := fun h => h2 ((hQ _ _ ha1 β).1 h)
    rw [hy ρ1 hρ1 β] at h3
    refine h3 fun ρ2 hρ2 ha2 => ?_
    have ha : Agree Γ0 ρ ρ2 := ha1.trans ha2 h01.length
    rcases (app _ _).1 (h ρ2 hρ2 ha) with h4 | h4
    · exact absurd ((ha2.lits hxs β).1 h4) hx1
    · exact h4

theorem Means.congr {P Q : (Nat → M.D) → (Nat → M.D) → Prop} {ls : List Literal} (h : Means M Γ0 Γ1 P ls)
    (e : ∀ ρ, Models M Γ0 ρ → ∀ β, (P ρ β ↔ Q ρ β)) : Means M Γ0 Γ1 Q ls :=
  fun ρ hρ β => (e ρ hρ β).symm.trans (h ρ hρ β)

/-! ### Equations between booleans -/

theorem SignOk.sg (L : Lawful K M) {t u : Term} {p : Bool} (h : SignOk K M Γ Γ t u p)
    (ht : SHasType K Γ t .boolTy) : SHasType K Γ u .boolTy ∧
      ∀ ρ, Models M Γ ρ → ∀ β, (Tr M ρ β u ↔ Sg M p t ρ β) := by
  cases p with
  | true =>
    have h1 := h.1 rfl _ ht
    exact ⟨h1.typed, fun ρ hρ β => by simp [Sg, Tr, h1.eval ρ hρ β]⟩
  | false =>
    have h1 := (h.2 rfl _ ht).2
    exact ⟨h1.1, fun ρ hρ β => by rw [h1.2 ρ hρ β]; simp [Sg]⟩

theorem eq_iff_tr (L : Lawful K M) {ρ : Nat → M.D} (hρ : Models M Γ ρ) {l r : Term}
    (hl : SHasType K Γ l .boolTy) (hr : SHasType K Γ r .boolTy) (β : Nat → M.D) :
    eval M ρ β l = eval M ρ β r ↔ (Tr M ρ β l ↔ Tr M ρ β r) := by
  constructor
  · intro h; simp only [Tr, h]
  · exact bool_ext L (hl.bool_mem L hρ bmodels_nil) (hr.bool_mem L hρ bmodels_nil)

theorem boolEqLit_spec (L : Lawful K M) {l r : Term} {p : Bool} {lit : Literal}
    (hl : SHasType K Γ l .boolTy) (hr : SHasType K Γ r .boolTy) (e : boolEqLit l r p = some lit) :
    LitTyped K Γ lit ∧ ∀ ρ, Models M Γ ρ → ∀ β,
      (LitHolds M ρ β lit ↔ (eval M ρ β l = eval M ρ β r ↔ p = true)) := by
  simp only [boolEqLit] at e
  split at e
  · rename_i l' a r' b e1 e2
    cases e
    obtain ⟨t1, h1⟩ := (tryInline_spec L .refl e1).sg L hl
    obtain ⟨t2, h2⟩ := (tryInline_spec L .refl e2).sg L hr
    refine ⟨litTyped_new.2 ⟨_, t1, t2⟩, fun ρ hρ β => ?_⟩
    rw [litHolds_new, litHolds_eq, eq_iff_tr L hρ t1 t2, eq_iff_tr L hρ hl hr, h1 ρ hρ β, h2 ρ hρ β]
    simp only [Sg]
    by_cases x : Tr M ρ β l <;> by_cases y : Tr M ρ β r <;> cases a <;> cases b <;> cases p <;> simp [x, y]
  · cases e

/-! ### Equations between functions -/

theorem pi_small {Δ : BCtx} {A B : Term} {J : Jdg} (h : STyped K Γ Δ (.pi A B) J) :
    ∀ U, J = .ty U → STyped K Γ Δ A (.ty .type0) ∧ STyped K Γ (BCtx.cons A Δ) B (.ty .type0) := by
  generalize ht : Term.pi A B = t at h
  induction h with
  | pi h1 h2 => intro _ _; cases ht; exact ⟨h1, h2⟩
  | scheme φ hm hc hcl hφ ht' ih iht => intro _ _; exact iht ht _ rfl
  | extend _ _ ih => intro _ _; exact ih ht _ rfl
  | forget _ ih => intro _ _; exact ih ht _ rfl
  | tyOf => intro _ e; cases e
  | tyPi => intro _ e; cases e
  | _ => cases ht

theorem small_codomain {A B : Term} (h : SHasType K Γ (.pi A B) .type0) :
    SHasType K Γ A .type0 ∧ SHasType K Γ B .type0 ∧ Term.ren Nat.succ B = B := by
  obtain ⟨hA, hB⟩ := pi_small h _ rfl
  have kA := hA.not_endsKind _ rfl
  obtain ⟨B', rfl, h'⟩ := value_codomain (.tyOf h) kA
  have hc : B'.escapes = false := isTy_closed h'
  obtain ⟨J, e, h1⟩ := hB.drop
  rw [ren_closed _ _ hc]
  cases J with
  | isTy => cases e
  | ty T =>
    refine ⟨hA, ?_, ren_closed _ _ hc⟩
    have : T = .type0 := by
      simp only [Jdg.ren, Jdg.ty.injEq] at e
      cases T with
      | atom a => cases a <;> simp_all [Term.ren, Term.type0]
      | app _ _ => cases e
      | bind _ _ _ => cases e
    rw [← this]; exact h1

/-- A function is determined by its values. -/
theorem funExt (L : Lawful K M) : ∀ (T : Term) (s : St) (l r : Term), StOk K n s →
    SHasType K s.ctx T .type0 → SHasType K s.ctx l T → SHasType K s.ctx r T →
    StOk K n (s.freshAll (fnTypes T).1).2 ∧ s.Le (s.freshAll (fnTypes T).1).2 ∧
    SHasType K (s.freshAll (fnTypes T).1).2.ctx (fnTypes T).2 .type0 ∧
    SHasType K (s.freshAll (fnTypes T).1).2.ctx (l.apply (s.freshAll (fnTypes T).1).1) (fnTypes T).2 ∧
    SHasType K (s.freshAll (fnTypes T).1).2.ctx (r.apply (s.freshAll (fnTypes T).1).1) (fnTypes T).2 ∧
    (∀ x ∈ (s.freshAll (fnTypes T).1).1, ∃ i, x = .fvar i ∧ s.ctx.length ≤ i ∧
      ∃ U, SHasType K (s.freshAll (fnTypes T).1).2.ctx x U) ∧
    ∀ ρ, Models M s.ctx ρ → ∀ β, (eval M ρ β l = eval M ρ β r ↔
      ∀ ρ', Models M (s.freshAll (fnTypes T).1).2.ctx ρ' → Agree s.ctx ρ ρ' →
        eval M ρ' β (l.apply (s.freshAll (fnTypes T).1).1) =
          eval M ρ' β (r.apply (s.freshAll (fnTypes T).1).1)) := by
  intro T
  have base : ∀ (T : Term) (s : St) (l r : Term), (fnTypes T) = ([], T) → StOk K n s →
    SHasType K s.ctx T .type0 → SHasType K s.ctx l T → SHasType K s.ctx r T →
    StOk K n (s.freshAll (fnTypes T).1).2 ∧ s.Le (s.freshAll (fnTypes T).1).2 ∧
    SHasType K (s.freshAll (fnTypes T).1).2.ctx (fnTypes T).2 .type0 ∧
    SHasType K (s.freshAll (fnTypes T).1).2.ctx (l.apply (s.freshAll (fnTypes T).1).1) (fnTypes T).2 ∧
    SHasType K (s.freshAll (fnTypes T).1).2.ctx (r.apply (s.freshAll (fnTypes T).1).1) (fnTypes T).2 ∧
    (∀ x ∈ (s.freshAll (fnTypes T).1).1, ∃ i, x = .fvar i ∧ s.ctx.length ≤ i ∧
      ∃ U, SHasType K (s.freshAll (fnTypes T).1).2.ctx x U) ∧
    ∀ ρ, Models M s.ctx ρ → ∀ β, (eval M ρ β l = eval M ρ β r ↔
      ∀ ρ', Models M (s.freshAll (fnTypes T).1).2.ctx ρ' → Agree s.ctx ρ ρ' →
        eval M ρ' β (l.apply (s.freshAll (fnTypes T).1).1) =
          eval M ρ' β (r.apply (s.freshAll (fnTypes T).1).1)) := by
    intro T s l r e hs hT hl hr
    rw [e]
    refine ⟨hs, .refl, hT, hl, hr, (fun _ h => by cases h), fun ρ hρ β => ⟨fun h ρ' _ ha => ?_, fun h => h ρ hρ .refl⟩⟩
    show eval M ρ' β l = eval M ρ' β r
    rw [ha.eval hl, ha.eval hr]; exact h
  induction T with
  | atom a => intro s l r; exact base _ s l r rfl
  | app f a => intro s l r; exact base _ s l r rfl
  | bind b A B _ ih =>
    cases b with
    | lam => intro s l r; exact base _ s l r rfl
    | all => intro s l r; exact base _ s l r rfl
    | ex => intro s l r; exact base _ s l r rfl
    | pi =>
      intro s l r hs hT hl hr
      obtain ⟨hA, hB, eB⟩ := small_codomain hT
      have kA := hA.not_endsKind _ rfl
      have kB := hB.not_endsKind _ rfl
      have hAt : STyped K s.ctx BCtx.nil A .isTy := .tyOf hA
      have hs1 : StOk K n (s.fresh A).2 := hs.fresh hAt kA
      have hle1 : s.Le (s.fresh A).2 := .push A
      have hx : SHasType K (s.fresh A).2.ctx (.fvar s.next) A := by
        rw [hs.next]
        refine .fvar ?_ (isTy_closed hAt)
        simp [St.fresh, LCtx.get, LCtx.pushTy]
      have ap : ∀ {t : Term}, SHasType K s.ctx t (.pi A B) → SHasType K (s.fresh A).2.ctx (.app t (.fvar s.next)) B := by
        intro t ht
        refine .appVal (A := A) (B := B) ?_ hx kA kB
        rw [eB]; exact hle1.typed ht
      obtain ⟨i1, i2, i3, i4, i5, i6, i7⟩ := ih (s.fresh A).2 (.app l (.fvar s.next)) (.app r (.fvar s.next)) hs1
        (hle1.typed hB) (ap hl) (ap hr)
      have ef : fnTypes (Term.bind .pi A B) = (A :: (fnTypes B).1, (fnTypes B).2) := rfl
      have es : s.freshAll (A :: (fnTypes B).1) =
        (.fvar s.next :: ((s.fresh A).2.freshAll (fnTypes B).1).1, ((s.fresh A).2.freshAll (fnTypes B).1).2) := rfl
      rw [ef]
      simp only [es]
      refine ⟨i1, hle1.trans i2, i3, i4, i5, ?_, ?_⟩
      · intro x hx'
        rcases List.mem_cons.1 hx' with rfl | hx'
        · exact ⟨_, rfl, Nat.le_of_eq hs.next.symm, _, i2.typed hx⟩
        · obtain ⟨i, e1, e2, e3⟩ := i6 x hx'
          exact ⟨i, e1, Nat.le_trans hle1.length e2, e3⟩
      · intro ρ hρ β
        constructor
        · intro h ρ' hρ' ha
          refine (i7 ρ' (i2.models hρ') β).1 ?_ ρ' hρ' .refl
          simp only [eval]
          rw [ha.eval hl, ha.eval hr, h]
        · intro h
          have ml := hl.val_mem L hρ (β := β) bmodels_nil
          have mr := hr.val_mem L hρ (β := β) bmodels_nil
          simp only [eval] at ml mr
          refine fun_ext L ml mr fun d hd => ?_
          have hm := models_push hs.good.ok hAt hρ hd
          have ha : Agree s.ctx ρ (setAt ρ s.ctx.length d) := by
            intro i hi
            simp only [setAt]
            rw [if_neg (by omega)]
          have := (i7 _ hm β).2 fun ρ' hρ' ha' => h ρ' hρ' (ha.trans ha' hle1.length)
          simp only [eval] at this
          rw [ha.eval hl, ha.eval hr, hs.next] at this
          simpa [setAt] using this

theorem LamOk.lt : ∀ {args : List (Nat × Term)} {v : (Nat → M.D) → (Nat → M.D) → M.D} {T b : Term},
    LamOk K M n Γ v T args b → ∀ x ∈ args.map (·.1), x < Γ.length := by
  intro args
  induction args with
  | nil => intro _ _ _ _ x hx; cases hx
  | cons yA args ih =>
    obtain ⟨y, A⟩ := yA
    intro v T b h x hx
    obtain ⟨B, _, _, _, _, _, hg, _, _, _, h'⟩ := h
    rcases List.mem_cons.1 hx with rfl | hx
    · exact get_lt hg
    · exact ih h' x hx

/-- An extended term applied to new variables. -/
theorem ExtOk.applyVars (L : Lawful Kn.toKCtx M) {s s2 s3 : St} {T U t : Term} {e : Ext} {xs : List Term}
    (hs3 : StOk Kn.toKCtx n s3) (h02 : s.Le s2) (h23 : s2.Le s3)
    (ht : SHasType Kn.toKCtx s.ctx t T) (eT : endsKind T = false) (he : ExtOk Kn.toKCtx M n s2.ctx e t (.ty T))
    (hv : ∀ args b, e = .lam args b → ∀ x ∈ args.map (·.1), s.ctx.length ≤ x)
    (hU : SHasType Kn.toKCtx s3.ctx (t.apply xs) U)
    (hxs : ∀ x ∈ xs, ∃ i, x = .fvar i ∧ s2.ctx.length ≤ i) :
    (e.apply xs).toTerm Kn s3.ctx = .ok (e.apply xs).val ∧
      InlAt Kn.toKCtx M s3.ctx (t.apply xs) (e.apply xs).val (.ty U) := by
  have ht3 := h23.typed (h02.typed ht)
  have key : ExtOk Kn.toKCtx M n s3.ctx (e.apply xs) (t.apply xs) (.ty U) := by
    have he3 := he.mono h23
    match e, he, he3, hv with
    | .term u, _, he3, _ =>
      have h1 : InlAt Kn.toKCtx M s3.ctx t u (.ty T) := he3
      refine (InlAll.refl .refl xs).apply .refl (f := t) (f' := u) (fun J hJ => ?_) _ hU
      rw [jdg_unique hJ ht3 eT]; exact h1
    | .lam args b, he, he3, hv =>
      obtain ⟨_, hnd, T', eT', kT, eT, hlam⟩ := he3
      cases eT'
      obtain ⟨_, _, _, _, _, _, hlam2⟩ := he
      refine applyLam L hs3.good .refl (InlAll.refl .refl xs) hlam ht3 kT eT hnd hU ?_
      intro x hx
      have h1 := hv _ _ rfl x hx
      have h2 : x < s2.ctx.length := hlam2.lt x hx
      have hxv : ∀ y ∈ xs, y.hasVar x = false := by
        intro y hy
        obtain ⟨i, rfl, hi⟩ := hxs y hy
        have : i ≠ x := by omega
        simp [hasVar, atoms, this]
      refine ⟨?_, hxv, hxv⟩
      cases hh : t.hasVar x with
      | false => rfl
      | true => have := STyped.lt ht hh; omega
  exact key.val L hs3.good .refl hs3.good

/-- What the functions that turn a statement into literals guarantee. -/
structure LitsOk (Kn : Kernel) (M : Interp.{u}) (n : Nat) (s s' : St) (p : Bool) (t : Term)
    (ls : List Literal) : Prop where
  ok : StOk Kn.toKCtx n s'
  le : s.Le s'
  typed : LitsTyped Kn.toKCtx s'.ctx ls
  means : Means M s.ctx s'.ctx (Sg M p t) ls

theorem fnTypes_nil {T : Term} (h : (fnTypes T).1 = []) : (fnTypes T).2 = T := by
  cases T with
  | bind b A B =>
    cases b with
    | pi => simp [fnTypes] at h
    | _ => rfl
  | _ => rfl

theorem singleLit_spec (L : Lawful Kn.toKCtx M) (hne : NoEmptyTypes M) {m : Nat} {s : St} {t : Term}
    {p : Bool} (hs : StOk Kn.toKCtx n s) (ht : SHasType Kn.toKCtx s.ctx t .boolTy) (hm : t.size ≤ m) :
    ∃ o s', singleLit Kn m s t p = .ok (o, s') ∧
      match o with
      | none => s' = s
      | some l => LitsOk Kn M n s s' p t [l] := by
  by_cases he : ∃ as, splitSym t .eq_ 3 = some as
  case neg =>
    have hn : splitSym t .eq_ 3 = none := by
      cases h : splitSym t .eq_ 3 with
      | none => rfl
      | some as => exact absurd ⟨as, h⟩ he
    exact ⟨none, s, by simp only [singleLit, hn], rfl⟩
  obtain ⟨as, he⟩ := he
  obtain ⟨e0, e3⟩ := STyped.splitSym rfl ht he
  match as, e3 with
  | [T, l, r], _ =>
    have e0' : t = .eq T l r := e0
    have hsl := size_args_lt he l (by simp)
    have hsr := size_args_lt he r (by simp)
    rw [e0'] at ht
    obtain ⟨_, hT, hl, hr⟩ := ht.eq_inv
    have eT := hT.not_endsKind _ rfl
    have kT := isKind_of_endsKind_false eT
    have hsg : ∀ ρ, Models M s.ctx ρ → ∀ β, (Sg M p t ρ β ↔ (eval M ρ β l = eval M ρ β r ↔ p = true)) := by
      intro ρ hρ β
      rw [Sg, e0', tr_eq L hρ ht bmodels_nil]
    have hag : ∀ ρ ρ', Agree s.ctx ρ ρ' → ∀ β, (Sg M p t ρ' β ↔ Sg M p t ρ β) :=
      fun ρ ρ' ha β => Sg.agree (e0' ▸ ht) ha β
    by_cases hmt : ((splitMatch Kn l).isSome || (splitMatch Kn r).isSome) = true
    · exact ⟨none, s, by simp only [singleLit, he, hmt, if_true], rfl⟩
    obtain ⟨U, hU, hUT, _⟩ := typeOf_total hs.good hl
    cases hUT kT
    have plain : ∀ {lit : Literal}, LitTyped Kn.toKCtx s.ctx lit →
        (∀ ρ, Models M s.ctx ρ → ∀ β, (LitHolds M ρ β lit ↔ (eval M ρ β l = eval M ρ β r ↔ p = true))) →
        LitsOk Kn M n s s p t [lit] := by
      intro lit h1 h2
      refine ⟨hs, .refl, typed_one h1, ?_⟩
      refine Means.of L hne hs.good hs.good.le .refl hag fun ρ hρ β => ?_
      rw [lits_one, h2 ρ hρ β, hsg ρ hρ β]
    have neweq : ∀ {l' r' : Term} {Γ : LCtx} {p : Bool} {A : Term}, SHasType Kn.toKCtx Γ l' A → SHasType Kn.toKCtx Γ r' A →
        LitTyped Kn.toKCtx Γ (Literal.new p l' r') ∧ ∀ ρ : Nat → M.D, ∀ β, (LitHolds M ρ β (Literal.new p l' r') ↔
          (eval M ρ β l' = eval M ρ β r' ↔ p = true)) := by
      intro l' r' Γ p A h1 h2
      exact ⟨litTyped_new.2 ⟨_, h1, h2⟩, fun ρ β => by rw [litHolds_new, litHolds_eq]⟩
    by_cases hty : (fnTypes T).1 = []
    · by_cases hb : T = .boolTy
      · subst hb
        cases hbe : boolEqLit l r p with
        | some lit =>
          refine ⟨some lit, s, ?_, ?_⟩
          · simp only [singleLit, he, if_neg hmt, hU, hty, hbe, Bind.bind, Except.bind]
            simp [Pure.pure, Except.pure]
          · obtain ⟨h1, h2⟩ := boolEqLit_spec L hl hr hbe
            exact plain h1 h2
        | none =>
          refine ⟨some (Literal.new p l r), s, ?_, ?_⟩
          · simp only [singleLit, he, if_neg hmt, hU, hty, hbe, Bind.bind, Except.bind]
            simp [Pure.pure, Except.pure]
          · obtain ⟨h1, h2⟩ := neweq (p := p) hl hr
            exact plain h1 fun ρ _ β => h2 ρ β
      · refine ⟨some (Literal.new p l r), s, ?_, ?_⟩
        · simp only [singleLit, he, if_neg hmt, hU, hty, if_neg hb, Bind.bind, Except.bind]
          simp [Pure.pure, Except.pure]
        · obtain ⟨h1, h2⟩ := neweq (p := p) hl hr
          exact plain h1 fun ρ _ β => h2 ρ β
    · obtain ⟨le, s1, e1, hs1, hle1, hxl, hvl, _⟩ := toExt_spec L m s l T hs hl (by omega)
      obtain ⟨re, s2, e2, hs2, hle2, hxr, hvr, _⟩ := toExt_spec L m s1 r T hs1 (hle1.typed hr) (by omega)
      have hle := hle1.trans hle2
      cases p with
      | false =>
        have vl := (hxl _ hl).val L hs1.good hle2 hs2.good
        have vr := (hxr _ (hle1.typed hr)).val L hs2.good .refl hs2.good
        refine ⟨some (Literal.notEquals le.val re.val), s2, ?_, hs2, hle, ?_, ?_⟩
        · simp only [singleLit, he, if_neg hmt, hU, e1, e2, vl.1, vr.1, Bind.bind, Except.bind]
          simp [hty, Pure.pure, Except.pure]
        · exact typed_one (neweq (p := false) (hle2.typed vl.2.typed) vr.2.typed).1
        · refine Means.of L hne hs2.good hs.good.le hle hag fun ρ hρ β => ?_
          rw [lits_one, Literal.notEquals, (neweq (p := false) (hle2.typed vl.2.typed) vr.2.typed).2,
            hsg ρ (hle.models hρ) β, (vl.2.mono hle2).eval ρ hρ β, vr.2.eval ρ hρ β]
      | true =>
        obtain ⟨hs3, hle3, hres, hlx, hrx, hxs, hfe⟩ := funExt L T s2 l r hs2 (hle.typed hT) (hle.typed hl) (hle.typed hr)
        have hxs' : ∀ x ∈ (s2.freshAll (fnTypes T).1).1, ∃ i, x = Term.fvar i ∧ s2.ctx.length ≤ i :=
          fun x hx => by obtain ⟨i, h1, h2, _⟩ := hxs x hx; exact ⟨i, h1, h2⟩
        generalize hf : s2.freshAll (fnTypes T).1 = f at hs3 hle3 hres hlx hrx hxs hfe hxs'
        obtain ⟨xs, s3⟩ := f
        simp only at hs3 hle3 hres hlx hrx hxs hfe hxs'
        have vl := ExtOk.applyVars L hs3 hle hle3 hl eT ((hxl _ hl).mono hle2) hvl hlx hxs'
        have vr := ExtOk.applyVars L hs3 hle2 hle3 (hle1.typed hr) eT (hxr _ (hle1.typed hr)) hvr hrx hxs'
        have hle' := hle.trans hle3
        have fin : ∀ {lit : Literal}, LitTyped Kn.toKCtx s3.ctx lit →
            (∀ ρ, Models M s3.ctx ρ → ∀ β, (LitHolds M ρ β lit ↔
              eval M ρ β (le.apply xs).val = eval M ρ β (re.apply xs).val)) →
            LitsOk Kn M n s s3 true t [lit] := by
          intro lit h1 h2
          refine ⟨hs3, hle', typed_one h1, ?_⟩
          have hh : ∀ ρ, Models M s3.ctx ρ → ∀ β, (LitsHold M ρ β [lit] ↔
              eval M ρ β (l.apply xs) = eval M ρ β (r.apply xs)) := by
            intro ρ hρ β
            rw [lits_one, h2 ρ hρ β, vl.2.eval ρ hρ β, vr.2.eval ρ hρ β]
          intro ρ hρ β
          constructor
          · intro h ρ' hρ' ha
            rw [hh ρ' hρ' β]
            refine (hfe ρ' (hle3.models hρ') β).1 ?_ ρ' hρ' .refl
            have := (hsg ρ' (hle'.models hρ') β).1 ((hag _ _ ha β).2 h)
            exact this.2 rfl
          · intro h
            obtain ⟨ρ2, hm2, ha2⟩ := hs2.good.extend L hne hle hs.good.le hρ
            refine (hag _ _ ha2 β).1 ((hsg ρ2 (hle.models hm2) β).2 ⟨fun _ => rfl, fun _ => ?_⟩)
            refine (hfe ρ2 hm2 β).2 fun ρ' hρ' ha' => ?_
            exact (hh ρ' hρ' β).1 (h ρ' hρ' (ha2.trans ha' hle.length))
        have heq : LitsOk Kn M n s s3 true t [Literal.equals (le.apply xs).val (re.apply xs).val] := by
          obtain ⟨h1, h2⟩ := neweq (p := true) vl.2.typed vr.2.typed
          refine fin h1 fun ρ hρ β => ?_
          rw [Literal.equals, h2]
          simp
        by_cases hb : (fnTypes T).2 = .boolTy
        · cases hbe : boolEqLit (le.apply xs).val (re.apply xs).val true with
          | some lit =>
            refine ⟨some lit, s3, ?_, ?_⟩
            · simp only [singleLit, he, if_neg hmt, hU, e1, e2, hf, vl.1, vr.1, hbe, Bind.bind, Except.bind]
              simp [hty, hb, Pure.pure, Except.pure]
            · rw [hb] at vl vr
              obtain ⟨h1, h2⟩ := boolEqLit_spec L vl.2.typed vr.2.typed hbe
              refine fin h1 fun ρ hρ β => ?_
              rw [h2 ρ hρ β]; simp
          | none =>
            refine ⟨some (Literal.equals (le.apply xs).val (re.apply xs).val), s3, ?_, heq⟩
            simp only [singleLit, he, if_neg hmt, hU, e1, e2, hf, vl.1, vr.1, hbe, Bind.bind, Except.bind]
            simp [hty, hb, Pure.pure, Except.pure]
        · refine ⟨some (Literal.equals (le.apply xs).val (re.apply xs).val), s3, ?_, heq⟩
          simp only [singleLit, he, if_neg hmt, hU, e1, e2, hf, vl.1, vr.1, Bind.bind, Except.bind]
          simp [hty, hb, Pure.pure, Except.pure]

theorem shallowLit_spec (L : Lawful Kn.toKCtx M) (hne : NoEmptyTypes M) {m : Nat} {s : St} {t : Term}
    {p : Bool} (hs : StOk Kn.toKCtx n s) (ht : SHasType Kn.toKCtx s.ctx t .boolTy) (hm : t.size ≤ m) :
    ∃ l s', shallowLit Kn m s t p = .ok (l, s') ∧ LitsOk Kn M n s s' p t [l] := by
  obtain ⟨o, s1, e1, h⟩ := singleLit_spec L hne (p := p) hs ht hm
  cases o with
  | some l => exact ⟨l, s1, by simp only [shallowLit, e1, Bind.bind, Except.bind]; rfl, h⟩
  | none =>
    cases (h : s1 = s)
    obtain ⟨u, s2, e2, hs2, hle, hu⟩ := toInline_spec (n := n) L hs ht hm
    refine ⟨Literal.fromSigned u p, s2, by simp only [shallowLit, e1, e2, Bind.bind, Except.bind]; rfl, hs2, hle,
      typed_one (typed_fromSigned hu.typed), ?_⟩
    refine Means.of L hne hs2.good hs.good.le hle (fun ρ ρ' ha β => Sg.agree ht ha β) fun ρ hρ β => ?_
    rw [lits_one, holds_fromSigned, Sg, Tr, Tr, hu.eval ρ hρ β]

theorem disjLits_spec (L : Lawful Kn.toKCtx M) (hne : NoEmptyTypes M) {m : Nat} : ∀ (k : Nat) (s : St) (t : Term)
    (p : Bool), StOk Kn.toKCtx n s → SHasType Kn.toKCtx s.ctx t .boolTy → t.size ≤ m → t.size ≤ k →
    ∃ ls s', disjLits Kn m k s t p = .ok (ls, s') ∧ LitsOk Kn M n s s' p t ls := by
  intro k
  induction k with
  | zero => intro s t p _ _ _ h; have := size_pos t; omega
  | succ k ih =>
    intro s t p hs ht hm hk
    by_cases hn : ∃ as, splitSym t .not_ 1 = some as
    · obtain ⟨as, hn⟩ := hn
      obtain ⟨e0, e1⟩ := STyped.splitSym rfl ht hn
      match as, e1 with
      | [x], _ =>
        have e0' : t = .not x := e0
        have hsx := size_args_lt hn x (by simp)
        rw [e0'] at ht
        obtain ⟨_, hx⟩ := ht.not_inv
        obtain ⟨ls, s', e, h⟩ := ih s x (!p) hs hx (by omega) (by omega)
        refine ⟨ls, s', by simp only [disjLits, hn]; exact e, h.ok, h.le, h.typed, h.means.congr fun ρ hρ β => ?_⟩
        rw [e0', Sg, Sg, tr_not L hρ hx bmodels_nil]
        cases p <;> simp
    have hn' : splitSym t .not_ 1 = none := by
      cases h : splitSym t .not_ 1 with
      | none => rfl
      | some as => exact absurd ⟨as, h⟩ hn
    by_cases ho : ∃ as, splitSym t (if p then .or_ else .and_) 2 = some as
    · obtain ⟨as, ho⟩ := ho
      have hvs : valueSym (if p then .or_ else .and_) = true := by cases p <;> rfl
      obtain ⟨e0, e2⟩ := STyped.splitSym hvs ht ho
      match as, e2 with
      | [x, y], _ =>
        have hsx := size_args_lt ho x (by simp)
        have hsy := size_args_lt ho y (by simp)
        have hb : SHasType Kn.toKCtx s.ctx x .boolTy ∧ SHasType Kn.toKCtx s.ctx y .boolTy ∧
            ∀ ρ, Models M s.ctx ρ → ∀ β, (Sg M p t ρ β ↔ Sg M p x ρ β ∨ Sg M p y ρ β) := by
          cases p with
          | true =>
            have e0' : t = .or x y := e0
            subst e0'
            obtain ⟨_, hx, hy⟩ := ht.or_inv
            refine ⟨hx, hy, fun ρ hρ β => ?_⟩
            simp only [Sg, iff_true, tr_or L hρ hx hy bmodels_nil]
          | false =>
            have e0' : t = .and x y := e0
            subst e0'
            obtain ⟨_, hx, hy⟩ := ht.and_inv
            refine ⟨hx, hy, fun ρ hρ β => ?_⟩
            simp only [Sg, Bool.false_eq_true, iff_false, tr_and L hρ hx hy bmodels_nil]
            exact Classical.not_and_iff_not_or_not
        obtain ⟨hx, hy, hiff⟩ := hb
        obtain ⟨xs, s1, e1, h1⟩ := ih s x p hs hx (by omega) (by omega)
        obtain ⟨ys, s2, e2, h2⟩ := ih s1 y p h1.ok (h1.le.typed hy) (by omega) (by omega)
        refine ⟨xs ++ ys, s2, ?_, h2.ok, h1.le.trans h2.le, ?_, ?_⟩
        · simp only [disjLits, hn', ho, e1, e2, Bind.bind, Except.bind]; rfl
        · intro l hl
          rcases List.mem_append.1 hl with hl | hl
          · exact h2.le.lits h1.typed l hl
          · exact h2.typed l hl
        · refine (Means.append h1.le h2.le h1.typed (fun ρ ρ' ha β => Sg.agree hy ha β) h1.means h2.means).congr ?_
          intro ρ hρ β
          exact (hiff ρ hρ β).symm
    have ho' : splitSym t (if p then .or_ else .and_) 2 = none := by
      cases h : splitSym t (if p then .or_ else .and_) 2 with
      | none => rfl
      | some as => exact absurd ⟨as, h⟩ ho
    obtain ⟨l, s', e, h⟩ := shallowLit_spec L hne (p := p) hs ht hm
    exact ⟨[l], s', by simp only [disjLits, hn', ho', e, Bind.bind, Except.bind]; rfl, h⟩

theorem oneClause_spec (L : Lawful Kn.toKCtx M) (hne : NoEmptyTypes M) (hg : GoodCtx Kn.toKCtx n Γ)
    {ls : List Literal} (h : LitsTyped Kn.toKCtx Γ ls) :
    ∃ cs, oneClause ls Γ n = .ok cs ∧ ((∀ ρ, Models M Γ ρ → ∀ β, LitsHold M ρ β ls) ↔ ClausesTrue M cs) := by
  obtain ⟨c, e, hc⟩ := hg.normalize L hne h
  by_cases ht : c.isTautology = true
  · refine ⟨[], by simp only [oneClause, e, orPanic, ht, Bind.bind, Except.bind]; rfl, ?_⟩
    rw [hc]
    refine ⟨(fun _ _ h => by cases h), fun _ ρ _ β => ?_⟩
    exact tautology_holds (normalizePinned_negFirst e) ht ρ β
  · refine ⟨[c], by simp only [oneClause, e, orPanic, ht, Bind.bind, Except.bind]; rfl, ?_⟩
    rw [hc]
    simp [ClausesTrue]

theorem endsKind_inst_var (i : Nat) : ∀ (A : Term) (d : Nat), endsKind (Term.inst d (.fvar i) A) = endsKind A := by
  intro A
  induction A with
  | atom a =>
    intro d
    cases a with
    | bvar j =>
      simp only [Term.inst]
      split
      · rfl
      · split <;> rfl
    | _ => rfl
  | app f a => intro d; rfl
  | bind bd A B _ ih =>
    intro d
    cases bd with
    | pi => exact ih _
    | _ => rfl

theorem QuantifiesValues.inst (i : Nat) : ∀ (b : Term) (d : Nat), QuantifiesValues b →
    QuantifiesValues (Term.inst d (.fvar i) b) := by
  intro b
  induction b with
  | atom a =>
    intro d _
    cases a with
    | bvar j =>
      simp only [Term.inst]
      split
      · trivial
      · split <;> trivial
    | _ => trivial
  | app f a => intro d _; trivial
  | bind bd A B _ ih =>
    intro d h
    cases bd with
    | all => exact ⟨(endsKind_inst_var i A d).trans h.1, ih _ h.2⟩
    | _ => trivial

theorem inst_var_atom (i d : Nat) (a : Atom) : ∃ b, Term.inst d (.fvar i) (.atom a) = .atom b ∧
    ∀ s, b = .sym s ↔ a = .sym s := by
  cases a with
  | bvar j =>
    simp only [Term.inst]
    split
    · exact ⟨_, rfl, fun s => ⟨fun e => by simp_all, fun e => by cases e⟩⟩
    · split
      · exact ⟨.fvar i, by simp only [fvar, up], fun s => ⟨fun e => by simp_all, fun e => by cases e⟩⟩
      · exact ⟨_, rfl, fun s => ⟨fun e => by simp_all, fun e => by cases e⟩⟩
  | fvar j => exact ⟨_, rfl, fun _ => Iff.rfl⟩
  | sym s => exact ⟨_, rfl, fun _ => Iff.rfl⟩

theorem headAtom_inst_var (i : Nat) : ∀ (t : Term) (d : Nat) (s : Symbol),
    (Term.inst d (.fvar i) t).headAtom = .sym s ↔ t.headAtom = .sym s := by
  intro t
  induction t with
  | atom a => intro d s; obtain ⟨b, e, h⟩ := inst_var_atom i d a; rw [e]; exact h s
  | app f a ih _ => intro d s; exact ih d s
  | bind b A B ih _ => intro d s; exact ih d s

theorem spineHead_inst_var (i : Nat) : ∀ (t : Term) (d : Nat),
    (Term.inst d (.fvar i) t).spineHead = Term.inst d (.fvar i) t.spineHead := by
  intro t
  induction t with
  | atom a => intro d; obtain ⟨b, e, _⟩ := inst_var_atom i d a; simp only [spineHead]; rw [e]; rfl
  | app f a ih _ => intro d; exact ih d
  | bind b A B _ _ => intro d; rfl

theorem args_inst_var (i : Nat) : ∀ (t : Term) (d : Nat),
    (Term.inst d (.fvar i) t).args = t.args.map (Term.inst d (.fvar i)) := by
  intro t
  induction t with
  | atom a => intro d; obtain ⟨b, e, _⟩ := inst_var_atom i d a; rw [e]; rfl
  | app f a ih _ =>
    intro d
    show (Term.inst d (.fvar i) f).args ++ [_] = (f.args ++ [a]).map _
    rw [ih d]; simp
  | bind b A B _ _ => intro d; rfl

theorem splitSym_inst_var (i : Nat) (t : Term) (d : Nat) (s : Symbol) (k : Nat) :
    splitSym (Term.inst d (.fvar i) t) s k = (splitSym t s k).map (List.map (Term.inst d (.fvar i))) := by
  cases t with
  | atom a => obtain ⟨b, e, _⟩ := inst_var_atom i d a; rw [e]; rfl
  | bind b A B => rfl
  | app f a =>
    have h1 := args_inst_var i (.app f a) d
    have h2 := spineHead_inst_var i (.app f a) d
    have h3 := headAtom_inst_var i (Term.app f a).spineHead d s
    rw [← h2] at h3
    have e : Term.inst d (.fvar i) (.app f a) = .app (Term.inst d (.fvar i) f) (Term.inst d (.fvar i) a) := rfl
    rw [e] at h1 h3 ⊢
    simp only [splitSym, h1, List.length_map, h3]
    split <;> simp_all

theorem splitMatch_inst_var (K : Kernel) (i : Nat) (t : Term) (d : Nat) :
    (splitMatch K (Term.inst d (.fvar i) t)).isSome = (splitMatch K t).isSome := by
  cases t with
  | atom a => obtain ⟨b, e, _⟩ := inst_var_atom i d a; rw [e]; rfl
  | bind b A B => rfl
  | app f a =>
    have h1 := args_inst_var i (.app f a) d
    have h2 := spineHead_inst_var i (.app f a) d
    have h3 := headAtom_inst_var i (Term.app f a).spineHead d
    rw [← h2] at h3
    have e : Term.inst d (.fvar i) (.app f a) = .app (Term.inst d (.fvar i) f) (Term.inst d (.fvar i) a) := rfl
    rw [e] at h1 h3 ⊢
    simp only [splitMatch, h1, List.length_map]
    cases hh : (Term.app f a).spineHead.headAtom with
    | sym s =>
      rw [(h3 s).2 hh]
      simp only
      cases K.matchInfo s <;> cases K.toKCtx.symbolType s <;> simp only [Option.isSome_none]
      split <;> simp
    | fvar j =>
      cases hh' : ((Term.inst d (.fvar i) f).app (Term.inst d (.fvar i) a)).spineHead.headAtom with
      | sym s => rw [(h3 s).1 hh'] at hh; cases hh
      | _ => rfl
    | bvar j =>
      cases hh' : ((Term.inst d (.fvar i) f).app (Term.inst d (.fvar i) a)).spineHead.headAtom with
      | sym s => rw [(h3 s).1 hh'] at hh; cases hh
      | _ => rfl

/-- The test of `clausify_term_to_single_clause`, on the opened statement. -/
def isMatchEq (K : Kernel) (t : Term) : Bool :=
  match splitSym t .eq_ 3 with
  | some [_, l, r] => (splitMatch K l).isSome || (splitMatch K r).isSome
  | _ => false

theorem isMatchEq_inst_var (K : Kernel) (i : Nat) (t : Term) (d : Nat) :
    isMatchEq K (Term.inst d (.fvar i) t) = isMatchEq K t := by
  simp only [isMatchEq, splitSym_inst_var]
  match splitSym t .eq_ 3 with
  | none => rfl
  | some [] => rfl
  | some [_] => rfl
  | some [_, _] => rfl
  | some [_, l, r] => simp only [Option.map_some, List.map_cons, List.map_nil, splitMatch_inst_var]
  | some (_ :: _ :: _ :: _ :: _) => rfl

theorem equalsMatch_of (K : Kernel) {t : Term} (h : ∀ A b, t ≠ .all A b) : EqualsMatch K t = isMatchEq K t := by
  unfold EqualsMatch
  split
  · exact absurd rfl (h _ _)
  · rfl

theorem equalsMatch_inst_var (K : Kernel) (i : Nat) : ∀ (t : Term) (d : Nat),
    EqualsMatch K (Term.inst d (.fvar i) t) = EqualsMatch K t := by
  intro t
  induction t with
  | bind b A B _ ih =>
    intro d
    cases b with
    | all => exact ih _
    | _ => rfl
  | atom a =>
    intro d
    obtain ⟨b, e, _⟩ := inst_var_atom i d a
    rw [e]; rfl
  | app f a =>
    intro d
    rw [equalsMatch_of K (t := .app f a) (fun _ _ e => by cases e), ← isMatchEq_inst_var K i _ d]
    exact equalsMatch_of K fun _ _ e => by cases e

theorem openForalls_match (Kn : Kernel) : ∀ (k : Nat) (s s' : St) (t u : Term), t.size ≤ k →
    openForalls k s t = some (u, s') → isMatchEq Kn u = EqualsMatch Kn t := by
  intro k
  induction k with
  | zero => intro s s' t u h; have := size_pos t; omega
  | succ k ih =>
    intro s s' t u hk e
    by_cases ha : ∃ A b, t = .all A b
    · obtain ⟨A, b, rfl⟩ := ha
      simp only [openForalls, Term.all, openBound_eq, Option.bind_eq_bind, Option.bind_some] at e
      have hsb : (Term.inst 0 (.fvar s.next) b).size = b.size := size_openBound_fvar b _ _ (openBound_eq _ _)
      have := ih _ _ _ _ (by simp only [Term.all, size] at hk; omega) e
      rw [this, equalsMatch_inst_var]
      rfl
    · have : openForalls (k + 1) s t = some (t, s) := by
        unfold openForalls
        split
        · exact absurd ⟨_, _, rfl⟩ ha
        · rfl
      rw [this] at e
      cases e
      exact (equalsMatch_of Kn fun A b e => ha ⟨A, b, e⟩).symm

theorem openForalls_spec (L : Lawful K M) : ∀ (k : Nat) (s : St) (t : Term), StOk K n s →
    SHasType K s.ctx t .boolTy → QuantifiesValues t →
    ∃ u s', openForalls k s t = some (u, s') ∧ StOk K n s' ∧ s.Le s' ∧ SHasType K s'.ctx u .boolTy ∧
      u.size ≤ t.size ∧ (StatementTrue M s.ctx t ↔ StatementTrue M s'.ctx u) := by
  intro k
  induction k with
  | zero => intro s t hs ht _; exact ⟨t, s, by simp [openForalls], hs, .refl, ht, Nat.le_refl _, Iff.rfl⟩
  | succ k ih =>
    intro s t hs ht hq
    by_cases ha : ∃ A b, t = .all A b
    · obtain ⟨A, b, rfl⟩ := ha
      obtain ⟨_, hA, hb⟩ := ht.quant_inv (.inl rfl)
      have kA : endsKind A = false := hq.1
      have hs1 := hs.fresh hA kA
      have hle1 : s.Le (s.fresh A).2 := .push A
      have hb1 : SHasType K (s.fresh A).2.ctx (Term.inst 0 (.fvar s.next) b) .boolTy := by
        rw [hs.next]; exact open_typed hA hb
      obtain ⟨u, s', e, hs', hle', hu, hsz, hiff⟩ := ih (s.fresh A).2 _ hs1 hb1 (QuantifiesValues.inst _ b 0 hq.2)
      have hsb : (Term.inst 0 (.fvar s.next) b).size = b.size := size_openBound_fvar b _ _ (openBound_eq _ _)
      refine ⟨u, s', ?_, hs', hle1.trans hle', hu, ?_, ?_⟩
      · simp only [openForalls, Term.all, openBound_eq, Option.bind_eq_bind, Option.bind_some]; exact e
      · simp only [Term.all, size]; omega
      · rw [← hiff]
        constructor
        · intro h ρ hρ β
          have h1 := (tr_all L (hle1.models hρ) hb (β := β) bmodels_nil).1 (h ρ (hle1.models hρ) β)
          refine open_tr.2 (h1 _ ?_)
          rw [hs.next]
          exact hρ _ _ (by simp [St.fresh, LCtx.get, LCtx.pushTy]) β
        · intro h ρ hρ β
          refine (tr_all L hρ hb bmodels_nil).2 fun d hd => ?_
          have h1 := h _ (models_push hs.good.ok hA hρ hd) β
          rw [hs.next] at h1
          exact (open_setAt hb).1 h1
    · refine ⟨t, s, ?_, hs, .refl, ht, Nat.le_refl _, Iff.rfl⟩
      unfold openForalls
      split
      · exact absurd ⟨_, _, rfl⟩ ha
      · rfl

theorem initial_ok {tyvars : List Term} (h : ∀ T ∈ tyvars, isKind T = true) :
    StOk K tyvars.length (initial tyvars) := ⟨GoodCtx.typeVars h, by simp [initial]⟩

/-- Lowering to one clause. -/
theorem clausify_spec (L : Lawful Kn.toKCtx M) (hne : NoEmptyTypes M) {tyvars : List Term}
    (hk : ∀ T ∈ tyvars, isKind T = true) {t : Term} (ht : SHasType Kn.toKCtx (TypeVars tyvars) t .boolTy)
    (hq : QuantifiesValues t) (hm : EqualsMatch Kn t = false) {fuel : Nat} (hf : t.size ≤ fuel) :
    ∃ cs, clausify Kn fuel tyvars t = .ok cs ∧ (StatementTrue M (TypeVars tyvars) t ↔ ClausesTrue M cs) := by
  obtain ⟨u, s, e, hs, hle, hu, hsz, hiff⟩ := openForalls_spec L t.size (initial tyvars) t (initial_ok hk) ht hq
  have hmu := openForalls_match Kn _ _ _ _ _ (Nat.le_refl _) e
  rw [hm] at hmu
  obtain ⟨ls, s1, e1, h1⟩ := disjLits_spec L hne (n := tyvars.length) (m := fuel) (u.size + 1) s u true hs hu (by omega) (by omega)
  obtain ⟨cs, e2, h2⟩ := oneClause_spec L hne h1.ok.good h1.typed
  refine ⟨cs, ?_, ?_⟩
  · simp only [clausify, e, orPanic, Bind.bind, Except.bind]
    rw [if_neg (by show ¬ isMatchEq Kn u = true; rw [hmu]; simp)]
    simp only [e1]
    exact e2
  · rw [← h2]
    refine hiff.trans ⟨fun h ρ hρ β => ?_, fun h ρ hρ β => ?_⟩
    · exact (h1.means ρ (h1.le.models hρ) β).1 (by simpa [Sg, Tr] using h ρ (h1.le.models hρ) β) ρ hρ .refl
    · have := (h1.means ρ hρ β).2 fun ρ' hρ' _ => h ρ' hρ' β
      simpa [Sg, Tr] using this

end Clausify
end Acorn
