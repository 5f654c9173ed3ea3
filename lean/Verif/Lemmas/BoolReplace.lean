/-
Every kind of boolean reduction replaces a literal by literals it implies, and the kinds that are used
alone or in pairs lose nothing.
-/
import Verif.Lemmas.BoolReduce
namespace Acorn
namespace Spec
open Term

universe u

/-- Kinds that the checker uses together with a second one. -/
def isHalf : BoolKind → Bool
  | .iteLeftThen | .iteLeftElse | .iteRightThen | .iteRightElse | .posAndLeft | .posAndRight
  | .negOrLeft | .negOrRight | .boolEqFirst | .boolEqSecond | .boolNeqFirst | .boolNeqSecond => true
  | _ => false

/-- What a replacement of the literal `l` by `r` in context `Γ'` guarantees. -/
structure ReplOk (K : KCtx) (Γ : LCtx) (M : Interp.{u}) (l : Literal) (r : List Literal) (Γ' : LCtx)
    (whole : Prop) : Prop where
  grow : ∀ i T, Γ.get i = some T → Γ'.get i = some T
  typed : ∀ ρ, Models M Γ' ρ → LitsTyped K Γ' r
  sound : ∀ ρ, Models M Γ' ρ → ∀ β, LitHolds M ρ β l → LitsHold M ρ β r
  complete : whole → ∀ ρ, Models M Γ ρ → ∀ β, (∀ ρ', Models M Γ' ρ' → (∀ i, i < Γ.length → ρ' i = ρ i) →
    LitsHold M ρ' β r) → LitHolds M ρ β l

section
variable {K : KCtx} {Γ : LCtx} {M : Interp.{u}} {l : Literal} {r : List Literal} {w : Prop}

theorem ReplOk.same (ht : ∀ ρ, Models M Γ ρ → LitsTyped K Γ r)
    (h : ∀ ρ, Models M Γ ρ → ∀ β, (LitsHold M ρ β r ↔ LitHolds M ρ β l)) : ReplOk K Γ M l r Γ w :=
  ⟨fun _ _ h => h, ht, fun ρ hρ β => (h ρ hρ β).2,
    fun _ ρ hρ β hr => (h ρ hρ β).1 (hr ρ hρ fun _ _ => rfl)⟩

theorem ReplOk.half (ht : ∀ ρ, Models M Γ ρ → LitsTyped K Γ r)
    (h : ∀ ρ, Models M Γ ρ → ∀ β, (LitHolds M ρ β l → LitsHold M ρ β r)) (hw : ¬ w) :
    ReplOk K Γ M l r Γ w :=
  ⟨fun _ _ h => h, ht, h, fun h => absurd h hw⟩

/-- Replacing one side of a literal by a term with the same type and value. -/
theorem lit_left {ρ : Nat → M.D} {T x y x' : Term} {p : Bool} (hy : SHasType K Γ y T)
    (s : Same K Γ M ρ BCtx.nil x x' (.ty T)) :
    LitTyped K Γ (Literal.new p x' y) ∧
      ∀ β, LitHolds M ρ β (Literal.new p x' y) ↔ LitHolds M ρ β ⟨p, x, y⟩ := by
  refine ⟨litTyped_new.2 ⟨T, s.typed, hy⟩, fun β => ?_⟩
  rw [litHolds_new, litHolds_eq, litHolds_eq, s.eval β bmodels_nil]

theorem lit_right {ρ : Nat → M.D} {T x y y' : Term} {p : Bool} (hx : SHasType K Γ x T)
    (s : Same K Γ M ρ BCtx.nil y y' (.ty T)) :
    LitTyped K Γ (Literal.new p x y') ∧
      ∀ β, LitHolds M ρ β (Literal.new p x y') ↔ LitHolds M ρ β ⟨p, x, y⟩ := by
  refine ⟨litTyped_new.2 ⟨T, hx, s.typed⟩, fun β => ?_⟩
  rw [litHolds_new, litHolds_eq, litHolds_eq, s.eval β bmodels_nil]

/-- Both branches of an if-then-else. -/
theorem ite_branches (L : Lawful K M) {ρ : Nat → M.D} (hρ : Models M Γ ρ) {T c x y : Term} {J : Jdg}
    (h : STyped K Γ BCtx.nil (.ite T c x y) J) (β : Nat → M.D) (P : M.D → Prop) :
    (P (eval M ρ β (.ite T c x y)) → ¬ Tr M ρ β c ∨ P (eval M ρ β x)) ∧
    (P (eval M ρ β (.ite T c x y)) → Tr M ρ β c ∨ P (eval M ρ β y)) ∧
    ((¬ Tr M ρ β c ∨ P (eval M ρ β x)) → (Tr M ρ β c ∨ P (eval M ρ β y)) →
      P (eval M ρ β (.ite T c x y))) := by
  obtain ⟨e1, e2⟩ := eval_ite L hρ h (bmodels_nil (β := β))
  by_cases hc : Tr M ρ β c
  · rw [e1 hc]; simp [hc]
  · rw [e2 hc]; simp [hc]

theorem boolReplace_spec {fuel n : Nat} (L : Lawful K M) (hΓ : CtxOk Γ) (h : LitTyped K Γ l)
    {k : BoolKind} (hfn : k = .fnNeqToExists → FnTyped K Γ l) {Γ' : LCtx}
    (e : boolReplace fuel K Γ n l k = some (r, Γ')) :
    ReplOk K Γ M l r Γ' (isHalf k = false) := by
  obtain ⟨T, hl, hr⟩ := h
  have h : LitTyped K Γ l := ⟨T, hl, hr⟩
  have sgn : ∀ {b : Bool}, (!signedBool K Γ l || b) ≠ true → l.right.isTrue = true ∧ b = false := by
    intro b hb
    cases es : signedBool K Γ l with
    | false => rw [es] at hb; exact absurd rfl hb
    | true =>
      rw [es] at hb
      cases b with
      | true => exact absurd rfl hb
      | false => exact ⟨(signedBool_iff.1 es).2, rfl⟩
  have sgn' : (!signedBool K Γ l) ≠ true → l.right.isTrue = true := by
    intro hb
    exact (sgn (b := false) (by rwa [Bool.or_false])).1
  cases k with
  | falseLit =>
    simp only [boolReplace] at e
    split at e
    · rename_i hf
      cases e
      simp only [falseLiteral, Bool.and_eq_true, Bool.or_eq_true, Bool.not_eq_eq_eq_not, Bool.not_true,
        decide_eq_true_eq] at hf
      refine .same (fun _ _ => by intro l hl; cases hl) fun ρ hρ β => ?_
      rw [signed_holds h hf.1]
      constructor
      · rintro ⟨l, hl, _⟩; cases hl
      · intro hh
        exfalso
        obtain ⟨_, ⟨h1, h2⟩ | ⟨⟨_, h1⟩, h2⟩⟩ := hf
        · have := isTrue_eq hl h1
          rw [this, h2] at hh
          exact absurd (hh.1 rfl) (by simp)
        · rw [h1, h2] at hh
          exact L.tt_ne_ff (hh.2 rfl).symm
    · cases e
  | iteSimplifyLeft =>
    simp only [boolReplace, Option.bind_eq_bind, Option.bind_eq_some_iff] at e
    obtain ⟨x', ex, e⟩ := e
    split at e
    · cases e
    · cases e
      refine .same (fun ρ hρ => typed_one (lit_left hr (simplifyIte_same L hρ fuel hl ex)).1)
        fun ρ hρ β => ?_
      rw [lits_one]
      exact (lit_left hr (simplifyIte_same L hρ fuel hl ex)).2 β
  | iteSimplifyRight =>
    simp only [boolReplace, Option.bind_eq_bind, Option.bind_eq_some_iff] at e
    obtain ⟨x', ex, e⟩ := e
    split at e
    · cases e
    · cases e
      refine .same (fun ρ hρ => typed_one (lit_right hl (simplifyIte_same L hρ fuel hr ex)).1)
        fun ρ hρ β => ?_
      rw [lits_one]
      exact (lit_right hl (simplifyIte_same L hρ fuel hr ex)).2 β
  | iteLeftThen =>
    simp only [boolReplace] at e
    split at e
    · rename_i T' c x y es
      cases e
      obtain ⟨el, _⟩ := splitSymExact_eq es
      rw [el] at hl
      obtain ⟨e1, hT, hc, hx, hy⟩ := STyped.ite_inv hl
      cases e1
      refine .half (fun ρ hρ => typed_two (typed_neg hc) (litTyped_new.2 ⟨_, hx, hr⟩))
        (fun ρ hρ β hh => ?_) (by simp [isHalf])
      rw [lits_two, holds_neg, litHolds_new, litHolds_eq]
      rw [litHolds_eq (l := l.left), el] at hh
      exact (ite_branches L hρ hl β fun v => (v = eval M ρ β l.right ↔ l.positive = true)).1 hh
    · cases e
  | iteLeftElse =>
    simp only [boolReplace] at e
    split at e
    · rename_i T' c x y es
      cases e
      obtain ⟨el, _⟩ := splitSymExact_eq es
      rw [el] at hl
      obtain ⟨e1, hT, hc, hx, hy⟩ := STyped.ite_inv hl
      cases e1
      refine .half (fun ρ hρ => typed_two (typed_pos hc) (litTyped_new.2 ⟨_, hy, hr⟩))
        (fun ρ hρ β hh => ?_) (by simp [isHalf])
      rw [lits_two, holds_pos, litHolds_new, litHolds_eq]
      rw [litHolds_eq (l := l.left), el] at hh
      exact (ite_branches L hρ hl β fun v => (v = eval M ρ β l.right ↔ l.positive = true)).2.1 hh
    · cases e
  | iteRightThen =>
    simp only [boolReplace] at e
    split at e
    · rename_i T' c x y es
      cases e
      obtain ⟨el, _⟩ := splitSymExact_eq es
      rw [el] at hr
      obtain ⟨e1, hT, hc, hx, hy⟩ := STyped.ite_inv hr
      cases e1
      refine .half (fun ρ hρ => typed_two (typed_neg hc) (litTyped_new.2 ⟨_, hl, hx⟩))
        (fun ρ hρ β hh => ?_) (by simp [isHalf])
      rw [lits_two, holds_neg, litHolds_new, litHolds_eq]
      rw [litHolds_eq (r := l.right), el] at hh
      exact (ite_branches L hρ hr β fun v => (eval M ρ β l.left = v ↔ l.positive = true)).1 hh
    · cases e
  | iteRightElse =>
    simp only [boolReplace] at e
    split at e
    · rename_i T' c x y es
      cases e
      obtain ⟨el, _⟩ := splitSymExact_eq es
      rw [el] at hr
      obtain ⟨e1, hT, hc, hx, hy⟩ := STyped.ite_inv hr
      cases e1
      refine .half (fun ρ hρ => typed_two (typed_pos hc) (litTyped_new.2 ⟨_, hl, hy⟩))
        (fun ρ hρ β hh => ?_) (by simp [isHalf])
      rw [lits_two, holds_pos, litHolds_new, litHolds_eq]
      rw [litHolds_eq (r := l.right), el] at hh
      exact (ite_branches L hρ hr β fun v => (eval M ρ β l.left = v ↔ l.positive = true)).2.1 hh
    · cases e
  | fnNeqToExists =>
    simp only [boolReplace, Option.bind_eq_bind, Option.bind_eq_some_iff, fnNeqExists] at e
    obtain ⟨t, et, e⟩ := e
    cases e
    split at et
    · cases et
    · rename_i hp
      split at et
      · rename_i S U eS eU
        split at et
        · cases et
        · split at et
          · rename_i A B
            cases et
            obtain ⟨A', B', h1, h2, h3, h4⟩ := hfn rfl
            have := getType_unique hΓ h1 eS rfl
            injection this with _ e1 e2
            subst e1 e2
            refine .same (fun ρ hρ => typed_one (typed_pos (fn_exists L hρ h1 h2 h3 h4).1))
              fun ρ hρ β => ?_
            rw [lits_one, holds_pos, (fn_exists L hρ h1 h2 h3 h4).2 β]
            simp [LitHolds, hp]
          · cases et
      · cases et
  | signedNot =>
    simp only [boolReplace] at e
    split at e
    · cases e
    · rename_i hs
      have hs := sgn' hs
      split at e
      · rename_i x es
        cases e
        obtain ⟨el, _⟩ := splitSymExact_eq es
        have hl := (signed_parts h hs).1
        rw [el] at hl
        have hx := (STyped.not_inv hl).2
        refine .same (fun ρ hρ => typed_one (typed_fromSigned hx)) fun ρ hρ β => ?_
        rw [lits_one, holds_fromSigned, signed_holds h hs, el]
        have := tr_not L hρ hx (bmodels_nil (β := β))
        simp only [Term.apply, List.foldl]
        rw [this]
        cases l.positive <;> simp
      · cases e
  | boolEqToEquality =>
    simp only [boolReplace] at e
    split at e
    · cases e
    · rename_i hs
      have hs := sgn' hs
      split at e
      · rename_i T' x y es
        cases e
        obtain ⟨el, _⟩ := splitSymExact_eq es
        have hl := (signed_parts h hs).1
        rw [el] at hl
        obtain ⟨_, hT, hx, hy⟩ := STyped.eq_inv hl
        have hlit : ∀ p : Bool, (if p then Literal.equals x y else Literal.notEquals x y) =
            Literal.new p x y := by intro p; cases p <;> rfl
        rw [hlit]
        refine .same (fun ρ hρ => typed_one (litTyped_new.2 ⟨_, hx, hy⟩)) fun ρ hρ β => ?_
        rw [lits_one, litHolds_new, litHolds_eq, signed_holds h hs, el]
        exact iff_congr (tr_eq L hρ hl (bmodels_nil (β := β))).symm Iff.rfl
      · cases e
  | posForallOpen =>
    simp only [boolReplace] at e
    split at e
    · cases e
    · rename_i hs
      obtain ⟨hs, hp⟩ := sgn hs
      simp only [Bool.not_eq_eq_eq_not, Bool.not_false] at hp
      simp only [openForall, Option.bind_eq_bind, Option.bind_eq_some_iff, Prod.exists] at e
      obtain ⟨t, Γ1, et, e⟩ := e
      cases e
      split at et
      · rename_i A body ell
        rw [openBound_eq] at et
        cases et
        have hl := (signed_parts h hs).1
        rw [ell] at hl
        obtain ⟨_, hA, hb⟩ := hl.quant_inv (Or.inl rfl)
        refine ⟨fun _ _ h => get_pushTy h, fun ρ hρ => typed_one (typed_pos (open_typed hA hb)),
          fun ρ hρ β hh => ?_, fun _ ρ hρ β hh => ?_⟩
        · rw [signed_holds h hs, ell, tr_all L (models_push_inv hρ) hb bmodels_nil] at hh
          rw [lits_one, holds_pos, open_tr]
          exact hh.2 hp _ (hρ _ _ get_pushTy_eq β)
        · rw [signed_holds h hs, ell, tr_all L hρ hb bmodels_nil]
          refine ⟨fun _ => hp, fun _ d hd => ?_⟩
          have := hh _ (models_push hΓ hA hρ hd) (by
            intro i hi; simp only [setAt]; rw [if_neg (by omega)])
          rw [lits_one, holds_pos, open_setAt hb] at this
          exact this
      · cases et
  | posExistsWitness =>
    simp only [boolReplace] at e
    split at e
    · cases e
    · rename_i hs
      rw [Bool.or_assoc] at hs
      obtain ⟨hs, hp⟩ := sgn hs
      simp only [Option.bind_eq_bind, Option.bind_eq_some_iff] at e
      obtain ⟨t, et, e⟩ := e
      cases e
      simp only [Bool.or_eq_false_iff, Bool.not_eq_eq_eq_not, Bool.not_false] at hp
      refine .same (fun ρ hρ => typed_one (typed_pos (obviousWitness_spec L hρ hl et).1))
        fun ρ hρ β => ?_
      have := (obviousWitness_spec L hρ hl et).2 β
      rw [lits_one, holds_pos, signed_holds h hs]
      simp [this.1, this.2, hp.1]
  | posExistsOpen => simp [boolReplace] at e
  | negForallToExists =>
    simp only [boolReplace] at e
    split at e
    · cases e
    · rename_i hs
      obtain ⟨hs, hp⟩ := sgn hs
      simp only [Option.bind_eq_bind, Option.bind_eq_some_iff, negForall] at e
      obtain ⟨t, et, e⟩ := e
      cases e
      split at et
      · rename_i A body ell
        cases et
        have hl := (signed_parts h hs).1
        rw [ell] at hl
        obtain ⟨_, hA, hb⟩ := hl.quant_inv (Or.inl rfl)
        refine .same (fun ρ hρ => typed_one (typed_pos (.ex hA (.not hb)))) fun ρ hρ β => ?_
        rw [lits_one, holds_pos, signed_holds h hs, ell, tr_all L hρ hb bmodels_nil,
          tr_ex L hρ hb.not bmodels_nil, hp]
        simp only [Bool.false_eq_true, iff_false, Classical.not_forall, exists_prop]
        exact exists_congr fun d => and_congr_right fun hd =>
          tr_not L hρ hb (BModels.cons bmodels_nil hd)
      · cases et
  | negExistsOpen =>
    simp only [boolReplace] at e
    split at e
    · cases e
    · rename_i hs
      obtain ⟨hs, hp⟩ := sgn hs
      simp only [openExists, Option.bind_eq_bind, Option.bind_eq_some_iff, Prod.exists] at e
      obtain ⟨t, Γ1, et, e⟩ := e
      cases e
      split at et
      · rename_i A body ell
        rw [openBound_eq] at et
        cases et
        have hl := (signed_parts h hs).1
        rw [ell] at hl
        obtain ⟨_, hA, hb⟩ := hl.quant_inv (Or.inr rfl)
        refine ⟨fun _ _ h => get_pushTy h, fun ρ hρ => typed_one (typed_neg (open_typed hA hb)),
          fun ρ hρ β hh => ?_, fun _ ρ hρ β hh => ?_⟩
        · rw [signed_holds h hs, ell, tr_ex L (models_push_inv hρ) hb bmodels_nil, hp] at hh
          rw [lits_one, holds_neg, open_tr]
          intro ht
          exact absurd (hh.1 ⟨_, hρ _ _ get_pushTy_eq β, ht⟩) (by simp)
        · rw [signed_holds h hs, ell, tr_ex L hρ hb bmodels_nil, hp]
          refine ⟨fun ⟨d, hd, ht⟩ => ?_, fun h => by cases h⟩
          have := hh _ (models_push hΓ hA hρ hd) (by
            intro i hi; simp only [setAt]; rw [if_neg (by omega)])
          rw [lits_one, holds_neg, open_setAt hb] at this
          exact absurd ht this
      · cases et
  | posAndLeft =>
    simp only [boolReplace] at e
    split at e
    · cases e
    · rename_i hs
      obtain ⟨hs, hp⟩ := sgn hs
      simp only [Bool.not_eq_eq_eq_not, Bool.not_false] at hp
      split at e
      · rename_i x y es
        cases e
        obtain ⟨el, _⟩ := splitSymExact_eq es
        have hl := (signed_parts h hs).1
        rw [el] at hl
        obtain ⟨_, hx, hy⟩ := STyped.and_inv hl
        refine .half (fun ρ hρ => typed_one (typed_pos hx)) (fun ρ hρ β hh => ?_) (by simp [isHalf])
        rw [signed_holds h hs, el] at hh
        rw [lits_one, holds_pos]
        exact ((tr_and L hρ hx hy bmodels_nil).1 (hh.2 hp)).1
      · cases e
  | posAndRight =>
    simp only [boolReplace] at e
    split at e
    · cases e
    · rename_i hs
      obtain ⟨hs, hp⟩ := sgn hs
      simp only [Bool.not_eq_eq_eq_not, Bool.not_false] at hp
      split at e
      · rename_i x y es
        cases e
        obtain ⟨el, _⟩ := splitSymExact_eq es
        have hl := (signed_parts h hs).1
        rw [el] at hl
        obtain ⟨_, hx, hy⟩ := STyped.and_inv hl
        refine .half (fun ρ hρ => typed_one (typed_pos hy)) (fun ρ hρ β hh => ?_) (by simp [isHalf])
        rw [signed_holds h hs, el] at hh
        rw [lits_one, holds_pos]
        exact ((tr_and L hρ hx hy bmodels_nil).1 (hh.2 hp)).2
      · cases e
  | negAnd =>
    simp only [boolReplace] at e
    split at e
    · cases e
    · rename_i hs
      obtain ⟨hs, hp⟩ := sgn hs
      split at e
      · rename_i x y es
        cases e
        obtain ⟨el, _⟩ := splitSymExact_eq es
        have hl := (signed_parts h hs).1
        rw [el] at hl
        obtain ⟨_, hx, hy⟩ := STyped.and_inv hl
        refine .same (fun ρ hρ => typed_two (typed_neg hx) (typed_neg hy)) fun ρ hρ β => ?_
        rw [lits_two, holds_neg, holds_neg, signed_holds h hs, el, hp]
        have := tr_and L hρ hx hy (bmodels_nil (β := β))
        simp only [Term.apply, List.foldl]
        rw [this, ← Classical.not_and_iff_not_or_not]
        simp
      · cases e
  | posOr =>
    simp only [boolReplace] at e
    split at e
    · cases e
    · rename_i hs
      obtain ⟨hs, hp⟩ := sgn hs
      simp only [Bool.not_eq_eq_eq_not, Bool.not_false] at hp
      split at e
      · rename_i x y es
        cases e
        obtain ⟨el, _⟩ := splitSymExact_eq es
        have hl := (signed_parts h hs).1
        rw [el] at hl
        obtain ⟨_, hx, hy⟩ := STyped.or_inv hl
        refine .same (fun ρ hρ => typed_two (typed_pos hx) (typed_pos hy)) fun ρ hρ β => ?_
        rw [lits_two, holds_pos, holds_pos, signed_holds h hs, el, hp]
        have := tr_or L hρ hx hy (bmodels_nil (β := β))
        simp only [Term.apply, List.foldl]
        rw [this]
        simp
      · cases e
  | negOrLeft =>
    simp only [boolReplace] at e
    split at e
    · cases e
    · rename_i hs
      obtain ⟨hs, hp⟩ := sgn hs
      split at e
      · rename_i x y es
        cases e
        obtain ⟨el, _⟩ := splitSymExact_eq es
        have hl := (signed_parts h hs).1
        rw [el] at hl
        obtain ⟨_, hx, hy⟩ := STyped.or_inv hl
        refine .half (fun ρ hρ => typed_one (typed_neg hx)) (fun ρ hρ β hh => ?_) (by simp [isHalf])
        rw [signed_holds h hs, el, hp] at hh
        rw [lits_one, holds_neg]
        intro ht
        exact absurd (hh.1 ((tr_or L hρ hx hy bmodels_nil).2 (Or.inl ht))) (by simp)
      · cases e
  | negOrRight =>
    simp only [boolReplace] at e
    split at e
    · cases e
    · rename_i hs
      obtain ⟨hs, hp⟩ := sgn hs
      split at e
      · rename_i x y es
        cases e
        obtain ⟨el, _⟩ := splitSymExact_eq es
        have hl := (signed_parts h hs).1
        rw [el] at hl
        obtain ⟨_, hx, hy⟩ := STyped.or_inv hl
        refine .half (fun ρ hρ => typed_one (typed_neg hy)) (fun ρ hρ β hh => ?_) (by simp [isHalf])
        rw [signed_holds h hs, el, hp] at hh
        rw [lits_one, holds_neg]
        intro ht
        exact absurd (hh.1 ((tr_or L hρ hx hy bmodels_nil).2 (Or.inr ht))) (by simp)
      · cases e
  | boolEqFirst =>
    simp only [boolReplace] at e
    split at e
    · cases e
    · rename_i hs
      cases e
      simp only [ne_eq, Bool.not_eq_eq_eq_not, Bool.not_true, not_or, Decidable.not_not,
        Bool.not_eq_true, Bool.not_eq_false] at hs
      have := getType_unique hΓ hl hs.1 rfl
      subst this
      refine .half (fun ρ hρ => typed_two (typed_pos hl) (typed_neg hr)) (fun ρ hρ β hh => ?_)
        (by simp [isHalf])
      rw [litHolds_eq, hs.2.2] at hh
      rw [lits_two, holds_pos, holds_neg, Tr, Tr, hh.2 rfl]
      exact Classical.em _
  | boolEqSecond =>
    simp only [boolReplace] at e
    split at e
    · cases e
    · rename_i hs
      cases e
      simp only [ne_eq, Bool.not_eq_eq_eq_not, Bool.not_true, not_or, Decidable.not_not,
        Bool.not_eq_true, Bool.not_eq_false] at hs
      have := getType_unique hΓ hl hs.1 rfl
      subst this
      refine .half (fun ρ hρ => typed_two (typed_neg hl) (typed_pos hr)) (fun ρ hρ β hh => ?_)
        (by simp [isHalf])
      rw [litHolds_eq, hs.2.2] at hh
      rw [lits_two, holds_pos, holds_neg, Tr, Tr, hh.2 rfl]
      exact (Classical.em _).symm
  | boolNeqFirst =>
    simp only [boolReplace] at e
    split at e
    · cases e
    · rename_i hs
      cases e
      simp only [ne_eq, not_or, Decidable.not_not, Bool.not_eq_true] at hs
      have := getType_unique hΓ hl hs.1 rfl
      subst this
      refine .half (fun ρ hρ => typed_two (typed_neg hl) (typed_neg hr)) (fun ρ hρ β hh => ?_)
        (by simp [isHalf])
      rw [litHolds_eq, hs.2.2] at hh
      rw [lits_two, holds_neg, holds_neg, ← Classical.not_and_iff_not_or_not]
      rintro ⟨h1, h2⟩
      exact absurd (hh.1 (h1.trans h2.symm)) (by simp)
  | boolNeqSecond =>
    simp only [boolReplace] at e
    split at e
    · cases e
    · rename_i hs
      cases e
      simp only [ne_eq, not_or, Decidable.not_not, Bool.not_eq_true] at hs
      have := getType_unique hΓ hl hs.1 rfl
      subst this
      refine .half (fun ρ hρ => typed_two (typed_pos hl) (typed_pos hr)) (fun ρ hρ β hh => ?_)
        (by simp [isHalf])
      rw [litHolds_eq, hs.2.2] at hh
      rw [lits_two, holds_pos, holds_pos]
      have m1 := hl.bool_mem L hρ (bmodels_nil (β := β))
      have m2 := hr.bool_mem L hρ (bmodels_nil (β := β))
      rw [L.mem_bool] at m1 m2
      rcases m1 with m1 | m1
      · exact Or.inl m1
      · rcases m2 with m2 | m2
        · exact Or.inr m2
        · exact absurd (hh.1 (m1.trans m2.symm)) (by simp)

end
end Spec
end Acorn
