/-
C61: giving a name to the witness of an existential statement is a conservative step.
-/
import Verif.Lemmas.WitnessTyped
import Verif.Spec.DemoBox
namespace Acorn
open Term Spec Opening

universe u

section
variable {K K' : KCtx} {M : Interp.{u}} {c d : Clause} {cs ds : List Clause} {A body : Term} {As : List Term} {n : Nat} {o : Opened}

/-- Only a clause that is one statement `exists(x: A) { body }` is opened, and only if it has no obvious witness. -/
theorem C61_opens (h : PlainClause K c) (e : existsReduction K c false = some (some (A, body))) :
    c.lits = [⟨true, .ex A body, .tt⟩] ∧ (Term.ex A body).obviousWitness = none := by
  obtain ⟨⟨T, h1, h2⟩, -, h3⟩ := existsReduction_lits e
  obtain ⟨U, -, -, u⟩ := h.lits ⟨true, .ex A body, T⟩ (by rw [h1]; simp)
  have hT : T = .tt := isTrue_eq u h2
  subst hT
  exact ⟨h1, h3 rfl⟩

/-- The arguments of the witness are all variables of the clause, each one once.  The variables for types come first, and
no variable comes before a variable that its type mentions. -/
theorem C61_order (Γ : LCtx) :
    (hoistOrder Γ).Nodup ∧ (∀ i, i ∈ hoistOrder Γ ↔ i < Γ.length) ∧
      (∀ i j, j ∈ hoistOrder Γ → (Γ.get i).any isTypeParamKind = true → (Γ.get j).any isTypeParamKind = false →
        (hoistOrder Γ).idxOf i < (hoistOrder Γ).idxOf j) ∧
      (CtxOrdered Γ → ∀ i j T, Γ.get i = some T → T.hasVar j = true → (hoistOrder Γ).idxOf j < (hoistOrder Γ).idxOf i) :=
  ⟨hoistOrder_nodup, fun _ => mem_hoistOrder, fun _ _ => hoistOrder_params, fun ho _ _ _ hi hj => hoistOrder_respects ho hi hj⟩

/-- Opening does not panic. -/
theorem C61_total (ho : CtxOrdered c.ctx) (hcl : CtxClosed c.ctx) (hg : ∀ i, i < c.ctx.length → (c.ctx.get i).isSome = true)
    (hc : c.lits = [⟨true, .ex A body, .tt⟩]) (ht : HasType K c.ctx (.ex A body) .boolTy) (s : Symbol) :
    ∃ o, openPositiveExists c A body s = some o := open_total ho hcl hg hc ht s

/-- The new constant can be given a meaning: if the clause is true, there is a value for the constant that has the
type declared for it, and with this value, all other meanings kept, the opened statement is true.  The variables may be values
and types, and their types may mention other variables. -/
theorem C61_witness (L : Lawful K M) (hc : c.lits = [⟨true, .ex A body, .tt⟩]) (ho : CtxOrdered c.ctx) (hcl : CtxClosed c.ctx)
    (ht : HasType K c.ctx (.ex A body) .boolTy) (ha : Avoids (.scoped n) c) (hu : Undeclared K n)
    (e : openPositiveExists c A body (.scoped n) = some o) (hT : ClauseTrue M c) :
    ∃ v, Lawful (declare K n o.type) (M.set (.scoped n) v) ∧
      ClauseTrue (M.set (.scoped n) v) ⟨[Literal.pos (inst 0 o.witness body)], c.ctx⟩ := by
  obtain ⟨v, h1, h2⟩ := opened_true L hc ho hcl ht ha hu e hT
  obtain ⟨-, -, -, -, -, -, -, -, e6, -⟩ := openPositiveExists_parts e
  exact ⟨v, h1, e6 ▸ h2⟩

/-- For a clause about values, the constant is a function of the values, and the opened statement is the body of the
existential about the value of this function. -/
theorem C61_shape (h : PlainClause K c) {s : Symbol} (hctx : c.ctx = As.map some) (hc : c.lits = [⟨true, .ex A body, .tt⟩])
    (e : openPositiveExists c A body s = some o) :
    o.type = arrows As A ∧ o.witness = (Term.sym s).apply (firstVars As.length) ∧
      o.literal = Literal.pos (inst 0 ((Term.sym s).apply (firstVars As.length)) body) := opened_shape h hctx hc e

/-- The new constant has a closed type, the witness has the type of the bound variable, and the opened statement is a statement
about it.  The variables may be values and types in any order. -/
theorem C61_typed (ho : CtxOrdered c.ctx) (hcl : CtxClosed c.ctx) (ht : HasType K c.ctx (.ex A body) .boolTy)
    (hn : K.scopedType n = none) (e : openPositiveExists c A body (.scoped n) = some o) :
    o.type.Ground ∧ HasType (declare K n o.type) c.ctx o.witness A ∧
      HasType (declare K n o.type) c.ctx (inst 0 o.witness body) .boolTy := by
  obtain ⟨h1, h2⟩ := opened_typed ho hcl ht e
  exact ⟨h1, h2, ((declare_typed_any hn (Typed.quant_inv ht (.inr rfl)).2.1).inst0 h2 :)⟩

/-- Nothing is lost: wherever the opened statement is true, the existential statement is true. -/
theorem C61_back (L : Lawful (declare K n o.type) M) (hc : c.lits = [⟨true, .ex A body, .tt⟩]) (ho : CtxOrdered c.ctx)
    (hcl : CtxClosed c.ctx) (ht : HasType K c.ctx (.ex A body) .boolTy) (hn : K.scopedType n = none)
    (e : openPositiveExists c A body (.scoped n) = some o)
    (hT : ClauseTrue M ⟨[Literal.pos (inst 0 o.witness body)], c.ctx⟩) : ClauseTrue M c := by
  obtain ⟨-, hw⟩ := opened_typed ho hcl ht e
  have tB := declare_typed_any (T0 := o.type) hn (Typed.quant_inv ht (.inr rfl)).2.1
  intro ρ hρ β
  obtain ⟨l, hl, hh⟩ := hT ρ hρ β
  rw [List.mem_singleton] at hl
  subst hl
  rw [holds_pos, Tr, eval_inst_zero] at hh
  refine ⟨_, by rw [hc]; exact List.mem_singleton.2 rfl, ?_⟩
  simp only [LitHolds, if_true]
  refine (L.ex_tt _ _ fun a ha => ?_).2 ⟨eval M ρ β o.witness, ?_, hh⟩
  · exact Typed.mem L hρ tB _ (Opening.bmodels_nil.cons ha)
  · exact Typed.mem L hρ hw _ Opening.bmodels_nil

/-- For a clause about values, the type of the constant is a type of values. -/
theorem C61_typed_values (h : PlainClause K c) (hn : K.scopedType n = none) (hc : c.lits = [⟨true, .ex A body, .tt⟩])
    (e : openPositiveExists c A body (.scoped n) = some o) :
    SHasType K [] o.type .type0 ∧ SHasType (declare K n o.type) c.ctx o.witness A ∧
      SHasType (declare K n o.type) c.ctx (inst 0 o.witness body) .boolTy := by
  obtain ⟨h1, -, h3⟩ := opened_plain h hn hc e
  obtain ⟨T, -, hex, -⟩ := h.lits ⟨true, .ex A body, .tt⟩ (by rw [hc]; simp)
  exact ⟨h1, h3, ((declare_typed hn (STyped.quant_inv hex (.inr rfl)).2.2).inst0 h3 :)⟩

/-- The clause that the search gets is well typed with the new constant, and it is the opened statement: in every
interpretation of the new constant it implies the existential statement, and if the existential statement is true, it is
true for some value of the constant.  Missing: clauses with variables for types, and types without elements. -/
theorem C61_clause_partial (h : PlainClause K c) (hK : WellDeclared K) (hn : K.scopedType n = none) (hc : c.lits = [⟨true, .ex A body, .tt⟩])
    (e : openPositiveExists c A body (.scoped n) = some o) :
    (∀ M : Interp.{u}, Lawful (declare K n o.type) M → NoEmptyTypes M →
      PlainClause (declare K n o.type) o.trace.clause ∧ (ClauseTrue M o.trace.clause → ClauseTrue M c)) ∧
    ∀ M : Interp.{u}, Lawful K M → NoEmptyTypes M → ClauseTrue M c →
      ∃ v, Lawful (declare K n o.type) (M.set (.scoped n) v) ∧ ClauseTrue (M.set (.scoped n) v) o.trace.clause := by
  obtain ⟨sT, pl, -⟩ := opened_plain h hn hc e
  obtain ⟨-, -, -, -, -, -, -, -, -, et⟩ := openPositiveExists_parts e
  rw [hc] at et
  constructor
  · intro M L hN
    have R := renewed_boolReduction L (noEmpty_of L hN) (ls := [o.literal]) pl et
    exact ⟨R.plain, fun hT => opened_back h hn hc e L (R.truth.1 hT)⟩
  · intro M L hN hT
    obtain ⟨U, -, u1, u2⟩ := h.lits ⟨true, .ex A body, .tt⟩ (by rw [hc]; simp)
    have hU : U = .boolTy := tt_type u2
    subst hU
    have hcx := Small.ctxOk h.vars
    have ho : CtxOrdered c.ctx := fun i T hi j hj => by rw [Small.noVars (h.vars i T hi) j] at hj; cases hj
    obtain ⟨v, L', c'⟩ := opened_true L hc ho (fun i T hi => (hcx i T hi).1) u1.typed (plain_declared hn h) (hK n hn) e hT
    have hN' : NoEmptyTypes (Interp.set M (.scoped n) v) := hN
    have R := renewed_boolReduction L' (noEmpty_of L' hN') (ls := [o.literal]) pl et
    exact ⟨v, L', R.truth.2 c'⟩

/-- However many inferences a search makes and however many witnesses it names: every interpretation of the given
clauses, with other meanings for constants that were not declared, satisfies everything that was derived.  Missing: clauses with variables for types, and types without elements. -/
theorem C61_search_partial (hK : WellDeclared K) (hp : ∀ c ∈ cs, PlainClause K c) (h : Derives.{u} K cs K' ds) (L : Lawful K M)
    (hN : NoEmptyTypes M) (hT : ∀ c ∈ cs, ClauseTrue M c) :
    ∃ M' : Interp.{u}, Expands K M M' ∧ Lawful K' M' ∧ NoEmptyTypes M' ∧ ∀ d ∈ ds, PlainClause K' d ∧ ClauseTrue M' d := by
  obtain ⟨-, -, p, M', h1, h2, h3, h4⟩ := derives_reached hK hp L hN hT h
  exact ⟨M', h1, h2, h3, fun d hd => ⟨p d hd, h4 d hd⟩⟩

/-- A derived clause that is about the constants declared at the start follows from the given clauses.  Missing: as
above. -/
theorem C61_conservative_partial (hK : WellDeclared K) (hp : ∀ c ∈ cs, PlainClause K c) (h : Derives.{u} K cs K' ds) (hd : d ∈ ds)
    (hdp : PlainClause K d) (L : Lawful K M) (hN : NoEmptyTypes M) (hT : ∀ c ∈ cs, ClauseTrue M c) : ClauseTrue M d := by
  obtain ⟨-, -, -, M', ⟨f, rfl, hf⟩, -, -, h4⟩ := derives_reached hK hp L hN hT h
  exact clauseTrue_agree hdp hf (h4 d hd)

/-- If the search derives the impossible clause, the given clauses are not all true.  Missing: as above. -/
theorem C61_refutation_partial (hK : WellDeclared K) (hp : ∀ c ∈ cs, PlainClause K c) (h : Derives.{u} K cs K' ds) (hd : ⟨[], []⟩ ∈ ds)
    (L : Lawful K M) (hN : NoEmptyTypes M) : ¬ ∀ c ∈ cs, ClauseTrue M c := by
  intro hT
  have hdp : PlainClause K ⟨[], []⟩ := ⟨fun i T h => by simp [LCtx.get] at h, fun l h => by simp at h, fun l h => by simp at h⟩
  obtain ⟨l, hl, -⟩ := C61_conservative_partial hK hp h hd hdp L hN hT (fun _ => vtt M) (fun i T h => by simp [LCtx.get] at h) (fun _ => vtt M)
  simp at hl

end

/-! ### An example -/

namespace OpeningDemo

open DemoBox

/-- `exists(x: Box) { unbox(x) = b }`, for `b: Bool`. -/
def body : Term := .eq .boolTy (.app unbox (.bvar 0)) (.fvar 0)
def box1 : Clause := ⟨[⟨true, .ex box body, .tt⟩], [some .boolTy]⟩

theorem body_ty {Γ : LCtx} (h : Γ.get 0 = some .boolTy) : STyped DemoBox.K.toKCtx Γ (BCtx.cons box BCtx.nil) body (.ty .boolTy) :=
  .eq s_bool (s_unbox (.bvar rfl)) (.fvar h rfl)

theorem plain : PlainClause DemoBox.K.toKCtx box1 := by
  refine ⟨?_, ?_, ?_⟩
  · intro i T h
    match i, h with
    | 0, h => cases h; exact s_bool
    | i + 1, h => simp [box1, LCtx.get] at h
  · intro l hl
    simp only [box1, List.mem_singleton] at hl
    subst hl
    exact ⟨.boolTy, .inl s_bool, .ex (.tyOf s_box) (body_ty rfl), s_sym rfl rfl⟩
  · intro l hl a ha
    simp only [box1, List.mem_singleton] at hl
    subst hl
    simp only [Term.ex, body, Term.eq, atoms, List.mem_append, List.mem_singleton, Term.tt] at ha
    rcases ha with ((h | ((h | h) | (h | h)) | h)) | h <;> subst h <;> exact ⟨by decide, by intro m n h; cases h⟩

theorem wellDeclared : WellDeclared DemoBox.K.toKCtx := by
  intro n _
  refine ⟨rfl, ?_, by intro c s t h; cases h⟩
  intro s T h1 h2 h3
  have hs : STyped DemoBox.K.toKCtx [] BCtx.nil (.sym s) (.ty T) := s_sym h1 h2
  match s, h2 with
  | .true_, h2 | .false_, h2 | .not_, h2 | .and_, h2 | .or_, h2 | .eq_, h2 | .ite_, h2 | .bool, h2 | .type0, h2 | .typeclass _ _, h2
  | .type _ _, h2 => cases h2; revert h3; simp [atoms, KCtx.eqType, KCtx.iteType, Term.pi, KCtx.typeKind, DemoBox.K, Clausify.Kernel.toKCtx]
  | .scoped l, h2 => cases h2
  | .global m l, h2 =>
    simp only [KCtx.symbolType, DemoBox.K] at h2
    split at h2
    · match l, h2 with
      | 0, h2 | 1, h2 | 2, h2 | 3, h2 | 4, h2 | 5, h2 => cases h2; simp [atoms, Term.pi] at h3
      | l + 6, h2 => cases h2
    · cases h2

theorem unbox_val {a : SetModel.S} (h : a ∈ SetModel.bool) : DemoBox.M.app (DemoBox.M.sym (.global 0 4)) a = a := SetModel.app_lam h

theorem true_ : ClauseTrue DemoBox.M box1 := by
  intro ρ hρ β
  refine ⟨_, by simp only [box1]; exact List.mem_singleton.2 rfl, ?_⟩
  simp only [LitHolds, if_true]
  have h0 : DemoBox.M.mem (ρ 0) (vbool DemoBox.M) := hρ 0 .boolTy rfl β
  have key : ∀ a, DemoBox.M.mem a (vbool DemoBox.M) → eval DemoBox.M ρ (push a β) body =
      DemoBox.M.app (DemoBox.M.app (DemoBox.M.app (DemoBox.M.sym .eq_) (vbool DemoBox.M)) a) (ρ 0) := by
    intro a ha
    have e : DemoBox.M.app (DemoBox.M.sym (.global 0 4)) a = a := unbox_val ha
    show DemoBox.M.app (DemoBox.M.app (DemoBox.M.app (DemoBox.M.sym .eq_) (vbool DemoBox.M))
      (DemoBox.M.app (DemoBox.M.sym (.global 0 4)) a)) (ρ 0) = _
    rw [e]
  refine (DemoBox.lawful.ex_tt _ _ fun a ha => ?_).2 ⟨ρ 0, h0, ?_⟩
  · exact Typed.mem DemoBox.lawful hρ (body_ty (Γ := box1.ctx) rfl).typed _ (Opening.bmodels_nil.cons ha)
  · rw [key _ h0]
    exact (DemoBox.lawful.eq_tt _ _ _ SetModel.V_bool h0 h0).2 rfl

/-- For `A: Type0` and `x: A`, after `b: Bool`: `exists(y: A) { only(y) = only(x) }`. -/
def poly : Clause := ⟨[⟨true, .ex (.fvar 1) (.eq .boolTy (.app (.app only (.fvar 1)) (.bvar 0)) (.app (.app only (.fvar 1)) (.fvar 2))), .tt⟩],
  [some .boolTy, some .type0, some (.fvar 1)]⟩

end OpeningDemo

open OpeningDemo in
/-- `unbox(w(b)) = b` for the new constant `w: Bool -> Box`. -/
example : PlainClause DemoBox.K.toKCtx box1 ∧ Lawful DemoBox.K.toKCtx DemoBox.M ∧ NoEmptyTypes DemoBox.M ∧ WellDeclared DemoBox.K.toKCtx ∧
    ClauseTrue DemoBox.M box1 ∧ existsReduction DemoBox.K.toKCtx box1 false = some (some (DemoBox.box, body)) ∧
    (openPositiveExists box1 DemoBox.box body (.scoped 0)).map (fun o => (o.type, o.witness, o.trace.clause)) =
      some (.pi .boolTy DemoBox.box, .app (.sym (.scoped 0)) (.fvar 0),
        ⟨[Literal.new true (.app DemoBox.unbox (.app (.sym (.scoped 0)) (.fvar 0))) (.fvar 0)], [some .boolTy]⟩) :=
  ⟨plain, DemoBox.lawful, DemoBox.noEmptyTypes, wellDeclared, true_, by decide +kernel, by decide +kernel⟩

open OpeningDemo in
/-- A search that names a witness, and so derives a clause about a constant that was not declared. -/
example : ∃ K' ds, Derives DemoBox.K.toKCtx [box1] K' ds ∧ ds.length = 2 ∧ K'.scopedType 0 = some (.pi .boolTy DemoBox.box) := by
  obtain ⟨o, ho⟩ := C61_total (K := DemoBox.K.toKCtx) (c := box1) (A := DemoBox.box) (body := body)
    (fun i T hi j hj => by rw [Small.noVars (plain.vars i T hi) j] at hj; cases hj)
    (fun i T hi => Small.closed (plain.vars i T hi))
    (fun i hi => by
      have hi' : i < 1 := hi
      obtain rfl : i = 0 := by omega
      rfl) rfl
    (STyped.typed (.ex (.tyOf DemoBox.s_box) (body_ty rfl))) (.scoped 0)
  refine ⟨_, _, .openExists .start (c := box1) (by simp) (by decide +kernel : _ = some (some (DemoBox.box, body))) rfl ho, rfl, ?_⟩
  have := (C61_shape plain (As := [.boolTy]) rfl rfl ho).1
  rw [this]
  rfl

open OpeningDemo in
/-- With a variable for a type: the constant takes the type first, though it is the second variable of the clause. -/
example : hoistOrder poly.ctx = [1, 0, 2] ∧
    (openPositiveExists poly (.fvar 1) (.eq .boolTy (.app (.app DemoBox.only (.fvar 1)) (.bvar 0)) (.app (.app DemoBox.only (.fvar 1)) (.fvar 2)))
      (.scoped 0)).map (fun o => (o.type, o.witness)) =
      some (.pi .type0 (.pi .boolTy (.pi (.bvar 1) (.bvar 2))),
        .app (.app (.app (.sym (.scoped 0)) (.fvar 1)) (.fvar 0)) (.fvar 2)) := by decide +kernel

open OpeningDemo in
/-- This clause meets what `C61_witness` asks for. -/
example : CtxOrdered poly.ctx ∧ CtxClosed poly.ctx ∧ Avoids (.scoped 0) poly ∧ Undeclared DemoBox.K.toKCtx 0 ∧ ClauseTrue DemoBox.M poly ∧
    HasType DemoBox.K.toKCtx poly.ctx (.ex (.fvar 1) (.eq .boolTy (.app (.app DemoBox.only (.fvar 1)) (.bvar 0))
      (.app (.app DemoBox.only (.fvar 1)) (.fvar 2)))) .boolTy := by
  have cases3 : ∀ {P : Nat → Term → Prop}, P 0 .boolTy → P 1 .type0 → P 2 (.fvar 1) → ∀ i T, poly.ctx.get i = some T → P i T := by
    intro P h0 h1 h2 i T hi
    match i, hi with
    | 0, hi => cases hi; exact h0
    | 1, hi => cases hi; exact h1
    | 2, hi => cases hi; exact h2
    | i + 3, hi => simp [poly, LCtx.get] at hi
  have only_ty : ∀ {Δ : BCtx} {t : Term}, Typed DemoBox.K.toKCtx poly.ctx Δ t (.ty (.fvar 1)) →
      Typed DemoBox.K.toKCtx poly.ctx Δ (.app (.app DemoBox.only (.fvar 1)) t) (.ty .boolTy) := by
    intro Δ t h
    have h1 : Typed DemoBox.K.toKCtx poly.ctx Δ (.app DemoBox.only (.fvar 1)) (.ty (.pi (.fvar 1) .boolTy)) :=
      .app (B := .pi (.bvar 0) .boolTy) (DemoBox.s_sym rfl rfl).typed (.fvar rfl rfl)
    exact .app (B := .boolTy) h1 h
  have eq_ty : ∀ {Δ : BCtx} {x y : Term}, Typed DemoBox.K.toKCtx poly.ctx Δ x (.ty .boolTy) →
      Typed DemoBox.K.toKCtx poly.ctx Δ y (.ty .boolTy) → Typed DemoBox.K.toKCtx poly.ctx Δ (.eq .boolTy x y) (.ty .boolTy) := by
    intro Δ x y hx hy
    exact .app (B := .boolTy) (.app (B := .pi .boolTy .boolTy) (.app (B := .pi (.bvar 0) (.pi (.bvar 1) .boolTy)) (DemoBox.s_sym rfl rfl).typed
      DemoBox.s_bool.typed) hx) hy
  have tB : Typed DemoBox.K.toKCtx poly.ctx (BCtx.cons (.fvar 1) BCtx.nil) (.eq .boolTy (.app (.app DemoBox.only (.fvar 1)) (.bvar 0))
      (.app (.app DemoBox.only (.fvar 1)) (.fvar 2))) (.ty .boolTy) := eq_ty (only_ty (.bvar rfl)) (only_ty (.fvar rfl rfl))
  refine ⟨?_, ?_, ⟨?_, ?_⟩, wellDeclared 0 rfl, ?_, .ex (.tyOf (.fvar rfl rfl)) tB⟩
  · refine cases3 ?_ ?_ ?_ <;> intro j hj <;> simp [hasVar, atoms] at hj
    subst hj
    exact ⟨by omega, rfl⟩
  · exact cases3 rfl rfl rfl
  · intro l hl
    simp only [poly, List.mem_singleton] at hl
    subst hl
    decide
  · exact cases3 (by decide) (by decide) (by decide)
  · intro ρ hρ β
    refine ⟨_, by simp only [poly]; exact List.mem_singleton.2 rfl, ?_⟩
    simp only [LitHolds, if_true]
    refine (DemoBox.lawful.ex_tt _ _ fun a ha => ?_).2 ⟨ρ 2, hρ 2 (.fvar 1) rfl β, ?_⟩
    · exact Typed.mem DemoBox.lawful hρ tB _ (Opening.bmodels_nil.cons ha)
    · have h2 := Typed.mem DemoBox.lawful hρ (only_ty (Δ := BCtx.nil) (.fvar rfl rfl : Typed _ _ _ (.fvar 2) _)) β Opening.bmodels_nil
      exact (DemoBox.lawful.eq_tt _ _ _ SetModel.V_bool h2 h2).2 rfl

/-- A search that derives the impossible clause: from `exists(x: Box) { false }` for `b: Bool`, by naming the witness. -/
example : ∃ K' ds, Derives DemoBox.K.toKCtx [⟨[⟨true, .ex DemoBox.box .ff, .tt⟩], [some .boolTy]⟩] K' ds ∧ ⟨[], []⟩ ∈ ds := by
  have ff_ty : ∀ {Γ : LCtx} {Δ : BCtx}, STyped DemoBox.K.toKCtx Γ Δ .ff (.ty .boolTy) := DemoBox.s_sym rfl rfl
  obtain ⟨o, ho⟩ := C61_total (K := DemoBox.K.toKCtx) (c := ⟨[⟨true, .ex DemoBox.box .ff, .tt⟩], [some .boolTy]⟩) (A := DemoBox.box)
    (body := .ff)
    (fun i T hi j hj => by match i, hi with
      | 0, hi => cases hi; simp [hasVar, atoms] at hj
      | i + 1, hi => simp [LCtx.get] at hi)
    (fun i T hi => by match i, hi with
      | 0, hi => cases hi; rfl
      | i + 1, hi => simp [LCtx.get] at hi)
    (fun i hi => by
      have hi' : i < 1 := hi
      obtain rfl : i = 0 := by omega
      rfl) rfl
    (STyped.typed (.ex (.tyOf DemoBox.s_box) ff_ty)) (.scoped 0)
  have ho' : (openPositiveExists ⟨[⟨true, .ex DemoBox.box .ff, .tt⟩], [some .boolTy]⟩ DemoBox.box .ff (.scoped 0)).map
      (fun o => o.trace.clause) = some ⟨[⟨true, .ff, .tt⟩], []⟩ := by decide +kernel
  rw [ho] at ho'
  refine ⟨_, _, .infer (.openExists .start List.mem_cons_self (by decide +kernel : _ = some (some (DemoBox.box, .ff))) rfl ho)
    (d := ⟨[], []⟩) ⟨fun i T h => by simp [LCtx.get] at h, fun l h => by simp at h, fun l h => by simp at h⟩ ?_, List.mem_cons_self⟩
  intro M L _ h
  have h1 := h _ List.mem_cons_self
  have e : o.trace.clause = ⟨[⟨true, .ff, .tt⟩], []⟩ := Option.some.inj ho'
  rw [e] at h1
  obtain ⟨l, hl, hh⟩ := h1 (fun _ => vtt M) (fun i T h => by simp [LCtx.get] at h) (fun _ => vtt M)
  rw [List.mem_singleton] at hl
  subst hl
  exact absurd hh.symm L.tt_ne_ff

end Acorn
