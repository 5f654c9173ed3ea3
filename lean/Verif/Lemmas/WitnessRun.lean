/-
Lemmas about searches that name witnesses.
-/
import Verif.Lemmas.WitnessOpening
namespace Acorn.Opening

open Term Spec

universe u

variable {K : KCtx} {M : Interp.{u}} {Γ : LCtx}

/-- A new constant does not change the types of the old terms. -/
theorem declare_typed {n : Nat} {T0 : Term} (hn : K.scopedType n = none) {Δ : BCtx} {t : Term} {J : Jdg} (h : STyped K Γ Δ t J) :
    STyped (declare K n T0) Γ Δ t J := by
  induction h with
  | fvar h1 h2 => exact .fvar h1 h2
  | bvar h1 => exact .bvar h1
  | sym h1 h2 h3 =>
    rename_i s T
    refine .sym h1 ?_ h3
    cases s
    case «scoped» m =>
      have h4 : K.scopedType m = some T := h2
      show (if m = n then some T0 else K.scopedType m) = some T
      split
      · rename_i e; rw [e, hn] at h4; cases h4
      · exact h4
    all_goals exact h2
  | appVal _ _ h1 h2 ih1 ih2 => exact .appVal ih1 ih2 h1 h2
  | appTy _ _ h1 ih1 ih2 => exact .appTy ih1 ih2 h1
  | lam _ _ h1 h2 ih1 ih2 => exact .lam ih1 ih2 h1 h2
  | all _ _ ih1 ih2 => exact .all ih1 ih2
  | ex _ _ ih1 ih2 => exact .ex ih1 ih2
  | pi _ _ ih1 ih2 => exact .pi ih1 ih2
  | inst h1 h2 => exact .inst h1 h2
  | scheme φ h1 h2 h3 _ _ ih1 ih2 => exact .scheme φ h1 h2 h3 ih1 ih2
  | extend _ h ih => exact .extend ih h
  | forget _ ih => exact .forget ih
  | tyType0 => exact .tyType0
  | tyClass => exact .tyClass
  | tyOf _ ih => exact .tyOf ih
  | tyPi _ _ ih1 ih2 => exact .tyPi ih1 ih2

/-- Well-typed terms mention declared constants. -/
theorem typed_declared {n : Nat} (hn : K.scopedType n = none) {Δ : BCtx} {t : Term} {J : Jdg} (h : STyped K Γ Δ t J) :
    .sym (.scoped n) ∉ t.atoms := by
  induction h with
  | fvar _ _ => simp [atoms]
  | bvar _ => simp [atoms]
  | sym h1 h2 h3 =>
    rename_i s T
    simp only [atoms, List.mem_singleton, Atom.sym.injEq]
    rintro rfl
    have h4 : K.scopedType n = some T := h2
    rw [hn] at h4
    cases h4
  | appVal _ _ _ _ ih1 ih2 => simp only [atoms, List.mem_append, not_or]; exact ⟨ih1, ih2⟩
  | appTy _ _ _ ih1 ih2 => simp only [atoms, List.mem_append, not_or]; exact ⟨ih1, ih2⟩
  | lam _ _ _ _ ih1 ih2 => simp only [atoms, Term.lam, List.mem_append, not_or]; exact ⟨ih1, ih2⟩
  | all _ _ ih1 ih2 => simp only [atoms, Term.all, List.mem_append, not_or]; exact ⟨ih1, ih2⟩
  | ex _ _ ih1 ih2 => simp only [atoms, Term.ex, List.mem_append, not_or]; exact ⟨ih1, ih2⟩
  | pi _ _ ih1 ih2 => simp only [atoms, Term.pi, List.mem_append, not_or]; exact ⟨ih1, ih2⟩
  | inst _ _ => simp [atoms]
  | scheme _ _ _ _ _ _ _ ih => exact ih
  | extend _ _ ih => exact ih
  | forget _ ih => exact ih
  | tyType0 => simp [atoms]
  | tyClass => simp [atoms]
  | tyOf _ ih => exact ih
  | tyPi _ _ ih1 ih2 => simp only [atoms, Term.pi, List.mem_append, not_or]; exact ⟨ih1, ih2⟩

theorem plain_declared {n : Nat} (hn : K.scopedType n = none) {c : Clause} (h : PlainClause K c) : Avoids (.scoped n) c := by
  refine ⟨fun l hl => ?_, fun i T hi => typed_declared hn (h.vars i T hi)⟩
  obtain ⟨T, -, h1, h2⟩ := h.lits l hl
  exact ⟨typed_declared hn h1, typed_declared hn h2⟩

theorem declare_plain {n : Nat} {T0 : Term} (hn : K.scopedType n = none) {c : Clause} (h : PlainClause K c) :
    PlainClause (declare K n T0) c := by
  refine ⟨fun i T hi => declare_typed hn (h.vars i T hi), fun l hl => ?_, h.noSorts⟩
  obtain ⟨T, h0, h1, h2⟩ := h.lits l hl
  exact ⟨T, h0.imp (declare_typed hn) id, declare_typed hn h1, declare_typed hn h2⟩

theorem convertAt_closed {n : Nat} {t : Term} (hv : NoVars t) : ∀ {d : Nat}, escapesAt d t = false → t.convertFreeToBoundAt n d = t := by
  induction t with
  | atom a =>
    intro d h
    cases a with
    | fvar i => have := hv i; simp [hasVar, atoms] at this
    | bvar i =>
      simp only [convertFreeToBoundAt]
      split
      · simp [escapesAt] at h; omega
      · rfl
    | sym s => rfl
  | app f a ihf iha =>
    intro d h
    simp only [escapesAt, Bool.or_eq_false_iff] at h
    obtain ⟨v1, v2⟩ := NoVars.app.1 hv
    simp only [convertFreeToBoundAt, ihf v1 h.1, iha v2 h.2]
  | bind b A B ihA ihB =>
    intro d h
    simp only [escapesAt, Bool.or_eq_false_iff] at h
    obtain ⟨v1, v2⟩ := NoVars.bind.1 hv
    simp only [convertFreeToBoundAt, ihA v1 h.1, ihB v2 h.2]

theorem small_convert {n : Nat} {T : Term} (h : Small K T) : T.convertFreeToBound n = T := by
  unfold convertFreeToBound
  split
  · rfl
  · exact convertAt_closed h.noVars h.closed

theorem small_byIds {ids : List Nat} {T : Term} (h : Small K T) : T.byIds ids = T := by
  have e : T.byIds ids = T.vmap id := vmap_congr T fun i hi => by rw [h.noVars i] at hi; cases hi
  rw [e, vmap]
  exact sub_id T

theorem small_arrow {A B : Term} (hA : Small K A) (hB : Small K B) : Small K (.pi A B) := by
  refine .pi hA ?_
  have := STyped.ren hB Nat.succ (BCtx.cons A BCtx.nil) (by intro i T h; cases h)
  simp only [Jdg.ren, ren_closed Nat.succ B hB.closed] at this
  exact this

/-- The types of the tails of the list of arguments. -/
theorem tails_small {H : Nat → Term} {R : Term} {n : Nat} (hH : ∀ i, i < n → Small K (H i)) (hR : Small K R) :
    ∀ {m}, m ≤ n → Small K (tails H R n m)
  | 0, _ => by simp only [tails, small_convert hR]; exact hR
  | m + 1, hm => by
    simp only [tails, small_convert (hH _ (show n - (m + 1) < n by omega))]
    exact small_arrow (hH _ (by omega)) (tails_small hH hR (by omega))

/-- The witness has the type of the bound variable. -/
theorem apply_tails {H : Nat → Term} {R : Term} {n : Nat} (hH : ∀ i, i < n → Small K (H i)) (hR : Small K R) {order : List Nat}
    (ho : ∀ k i, order[k]? = some i → Γ.get i = some (H k)) (hl : order.length = n) {f : Term} (hf : SHasType K Γ f (tails H R n n)) :
    ∀ k, k ≤ n → SHasType K Γ (f.apply ((order.take k).map Term.fvar)) (tails H R n (n - k)) := by
  intro k
  induction k with
  | zero => intro _; exact hf
  | succ k ih =>
    intro hk
    have hlt : k < order.length := by omega
    have h1 := ih (by omega)
    have e : n - k = (n - (k + 1)) + 1 := by omega
    rw [e] at h1
    have e2 : n - (n - (k + 1) + 1) = k := by omega
    simp only [tails, e2, small_convert (hH k (by omega))] at h1
    have hs := tails_small hH hR (m := n - (k + 1)) (by omega)
    have h2 : SHasType K Γ (.fvar order[k]) (H k) := .fvar (ho k _ (List.getElem?_eq_getElem hlt)) (hH k (by omega)).closed
    have h3 := STyped.appVal (by rw [ren_closed Nat.succ _ hs.closed]; exact h1) h2 (hH k (by omega)).not_endsKind hs.not_endsKind
    rw [List.take_succ_eq_append_getElem hlt, List.map_append, apply_append]
    exact h3

/-- What is known about opening a clause about values. -/
theorem opened_plain {c : Clause} (h : PlainClause K c) {A body : Term} {n : Nat} {o : Opened} (hn : K.scopedType n = none)
    (hc : c.lits = [⟨true, .ex A body, .tt⟩]) (e : openPositiveExists c A body (.scoped n) = some o) :
    Small K o.type ∧ PlainClause (declare K n o.type) ⟨[o.literal], c.ctx⟩ ∧
      SHasType (declare K n o.type) c.ctx o.witness A := by
  obtain ⟨H, R, body', e1, e2, e3, e4, e5, e6, -⟩ := openPositiveExists_parts e
  have hcx := Small.ctxOk h.vars
  have ho : CtxOrdered c.ctx := fun i T hi j hj => by rw [Small.noVars (h.vars i T hi) j] at hj; cases hj
  obtain ⟨hl, F, f1, f2, f3, f4⟩ := hoisted ho (fun i T hi => (hcx i T hi).1) e1
  obtain ⟨r1, r2⟩ := renumber_spec A R e2
  have hlit : (⟨true, .ex A body, .tt⟩ : Literal) ∈ c.lits := by rw [hc]; simp
  obtain ⟨T, -, hex, -⟩ := h.lits _ hlit
  obtain ⟨-, tA, tB⟩ := STyped.quant_inv hex (.inr rfl)
  have sf : SortFree (.ex A body) := (h.neat hlit).left
  have sf' := SortFree.bind.1 sf
  have sA : Small K A := Small.of_ctx h.vars (small_of_isTy tA rfl sf'.1)
  have eR : R = A := by rw [r2, small_byIds sA]
  subst eR
  have hF : ∀ k i, (hoistOrder c.ctx)[k]? = some i → c.ctx.get i = some (F k) ∧ Small K (F k) := by
    intro k i hk
    obtain ⟨T, t1, -, t3, -⟩ := f4 k i hk
    have sT : Small K T := h.vars i T t1
    rw [small_byIds sT] at t3
    rw [t3]
    exact ⟨t1, sT⟩
  have hS : ∀ i, i < c.ctx.length → Small K (F i) := fun i hi =>
    (hF i _ (List.getElem?_eq_getElem (by rw [hoistOrder_length]; exact hi))).2
  have ty : o.type = tails F R c.ctx.length c.ctx.length := by
    have h1 := wrapPis_tails (R := R) f1 0 (Nat.zero_le _)
    simp only [witnessType, hl] at e4
    simp only [Nat.sub_zero, tails] at h1
    rw [h1] at e4
    exact (Option.some.inj e4).symm
  have sT : Small K o.type := by rw [ty]; exact tails_small hS sA (Nat.le_refl _)
  have hsym : SHasType (declare K n o.type) c.ctx (Term.sym (.scoped n)) o.type := by
    refine .sym rfl ?_ ?_
    · show (if n = n then some o.type else K.scopedType n) = some o.type
      rw [if_pos rfl]
    · exact ⟨sT.closed, sT.noVars⟩
  have hw : SHasType (declare K n o.type) c.ctx o.witness R := by
    have h1 := apply_tails (K := declare K n o.type) (Γ := c.ctx) (fun i hi => declare_typed hn (hS i hi)) (declare_typed hn sA)
      (fun k i hk => (hF k i hk).1) hoistOrder_length (by rw [← ty]; exact hsym) c.ctx.length (Nat.le_refl _)
    rw [List.take_of_length_le (by rw [hoistOrder_length])] at h1
    simp only [Nat.sub_self, tails, small_convert sA] at h1
    rw [e5]
    exact h1
  refine ⟨sT, plainClause_iff.2 ⟨(declare_plain hn h).vars, ?_⟩, hw⟩
  intro l hl'
  rw [List.mem_singleton] at hl'
  subst hl'
  rw [e6]
  refine neat_signed ?_ (sf'.2.inst ?_)
  · exact (declare_typed hn tB).inst0 hw
  · rw [e5]
    refine SortFree.apply (.sym rfl) fun a ha => ?_
    obtain ⟨i, -, rfl⟩ := List.mem_map.1 ha
    exact .fvar

/-- Closed types have elements. -/
theorem noEmpty_of (L : Lawful K M) (hN : NoEmptyTypes M) : NoEmpty K M := by
  intro T hT
  have ρ0 : Nat → M.D := fun _ => vtt M
  have h1 : M.mem (eval M ρ0 ρ0 T) (vtype0 M) :=
    Typed.mem L (Γ := []) (by intro i T h; simp [LCtx.get] at h) hT.typed ρ0 bmodels_nil
  obtain ⟨d, hd⟩ := hN _ h1
  exact ⟨d, fun ρ β => by rw [small_value hT ρ ρ0 β ρ0]; exact hd⟩

theorem existsReduction_lits {c : Clause} {b : Bool} {A body : Term} (e : existsReduction K c b = some (some (A, body))) :
    (∃ T, c.lits = [⟨true, .ex A body, T⟩] ∧ T.isTrue = true) ∧ Term.getType K c.ctx (.ex A body) = some .boolTy ∧
      (b = false → (Term.ex A body).obviousWitness = none) := by
  simp only [existsReduction] at e
  split at e
  · rename_i l hl
    split at e
    · cases e
    · rename_i T hT
      split at e
      · cases e
      · rename_i hb
        split at e
        · cases e
        · rename_i hp
          split at e
          · cases e
          · rename_i ho
            split at e
            · rename_i A' body' hs
              simp only [Option.some.injEq, Prod.mk.injEq] at e
              obtain ⟨rfl, rfl⟩ := e
              obtain ⟨p, x, y⟩ := l
              dsimp only at hs hT hp ho
              subst hs
              simp only [ne_eq, Decidable.not_not] at hb
              subst hb
              simp only [Bool.or_eq_true, Bool.not_eq_true', not_or, Bool.not_eq_false] at hp
              refine ⟨⟨y, by rw [hl, hp.2], hp.1⟩, hT, ?_⟩
              rintro rfl
              simp only [Bool.not_false, Bool.true_and, Bool.not_eq_true, Option.isSome_eq_false_iff, Option.isNone_iff_eq_none] at ho
              exact ho
            · cases e
  · cases e

/-! ### Other meanings of the constants -/

variable {f : Symbol → M.D}

theorem eval_agree {t : Term} : ∀ {ρ β : Nat → M.D}, (∀ s, .sym s ∈ t.atoms → f s = M.sym s) →
    eval { M with sym := f } ρ β t = eval M ρ β t := by
  induction t with
  | atom a =>
    intro ρ β h
    cases a with
    | fvar i => rfl
    | bvar i => rfl
    | sym s => exact h s (by simp [atoms])
  | app g a ihf iha =>
    intro ρ β h
    show M.app _ _ = M.app _ _
    rw [ihf fun s hs => h s (by simp [atoms, hs]), iha fun s hs => h s (by simp [atoms, hs])]
  | bind b A B ihA ihB =>
    intro ρ β h
    show M.bind b _ _ = M.bind b _ _
    rw [ihA fun s hs => h s (by simp [atoms, hs])]
    congr 1
    funext d
    exact ihB fun s hs => h s (by simp [atoms, hs])

theorem clauseTrue_agree {c : Clause} (h : PlainClause K c)
    (hf : ∀ s, (∀ n, s = .scoped n → K.scopedType n ≠ none) → f s = M.sym s) (hT : ClauseTrue { M with sym := f } c) : ClauseTrue M c := by
  have key : ∀ {Γ : LCtx} {t T : Term}, SHasType K Γ t T → ∀ ρ β : Nat → M.D, eval { M with sym := f } ρ β t = eval M ρ β t := by
    intro Γ t T ht ρ β
    refine eval_agree fun s hs => hf s ?_
    rintro n rfl hn
    exact typed_declared hn ht hs
  intro ρ hρ β
  have hρ' : Models { M with sym := f } c.ctx ρ := by
    intro i T hi γ
    show M.mem _ _
    rw [key (h.vars i T hi)]
    exact hρ i T hi γ
  obtain ⟨l, hl, hh⟩ := hT ρ hρ' β
  obtain ⟨T, -, h1, h2⟩ := h.lits l hl
  refine ⟨l, hl, ?_⟩
  simp only [LitHolds] at hh ⊢
  rw [key h1, key h2] at hh
  exact hh

/-! ### Searches -/

theorem declare_wellDeclared {n : Nat} {T : Term} (hK : WellDeclared K) (hT : Small K T) : WellDeclared (declare K n T) := by
  intro m hm
  have h1 : (if m = n then some T else K.scopedType m) = none := hm
  split at h1
  · cases h1
  · have hu := hK m h1
    refine ⟨hm, ?_, hu.schemes⟩
    intro s U h2 h3
    cases s
    case «scoped» l =>
      have h4 : (if l = n then some T else K.scopedType l) = some U := h3
      split at h4
      · cases h4; exact typed_declared h1 hT
      · exact hu.types (.scoped l) U h2 h4
    all_goals exact hu.types _ U h2 h3

structure Reached (K : KCtx) (M : Interp.{u}) (K' : KCtx) (ds : List Clause) : Prop where
  well : WellDeclared K'
  keeps : ∀ n, K'.scopedType n = none → K.scopedType n = none
  plain : ∀ d ∈ ds, PlainClause K' d
  model : ∃ M' : Interp.{u}, Expands K M M' ∧ Lawful K' M' ∧ NoEmptyTypes M' ∧ ∀ d ∈ ds, ClauseTrue M' d

theorem derives_reached (hK : WellDeclared K) {cs : List Clause} (hp : ∀ c ∈ cs, PlainClause K c) (L : Lawful K M)
    (hN : NoEmptyTypes M) (hT : ∀ c ∈ cs, ClauseTrue M c) {K' : KCtx} {ds : List Clause} (h : Derives.{u} K cs K' ds) :
    Reached K M K' ds := by
  induction h with
  | start => exact ⟨hK, fun _ h => h, hp, M, ⟨M.sym, rfl, fun _ _ => rfl⟩, L, hN, hT⟩
  | infer _ h1 h2 ih =>
    obtain ⟨w, k, p, M', m1, m2, m3, m4⟩ := ih
    refine ⟨w, k, ?_, M', m1, m2, m3, ?_⟩
    · intro d hd
      rcases List.mem_cons.1 hd with rfl | hd
      · exact h1
      · exact p d hd
    · intro d hd
      rcases List.mem_cons.1 hd with rfl | hd
      · exact h2 M' m2 m3 m4
      · exact m4 d hd
  | openExists _ hc he hn e ih =>
    rename_i K' ds c A body n o _
    obtain ⟨w, k, p, M', ⟨f, rfl, m1⟩, m2, m3, m4⟩ := ih
    have pc := p c hc
    obtain ⟨⟨T, hl, ht⟩, hty, -⟩ := existsReduction_lits he
    obtain ⟨U, -, u1, u2⟩ := pc.lits ⟨true, .ex A body, T⟩ (by rw [hl]; simp)
    have := isTrue_eq u2 ht
    subst this
    have hU : U = .boolTy := tt_type u2
    subst hU
    have hcx := Small.ctxOk pc.vars
    have ho : CtxOrdered c.ctx := fun i T hi j hj => by rw [Small.noVars (pc.vars i T hi) j] at hj; cases hj
    obtain ⟨v, L', c'⟩ := opened_true m2 hl ho (fun i T hi => (hcx i T hi).1) u1.typed (plain_declared hn pc) (w n hn) e (m4 c hc)
    obtain ⟨sT, pl, -⟩ := opened_plain pc hn hl e
    have hN' : NoEmptyTypes (Interp.set { M with sym := f } (.scoped n) v) := m3
    obtain ⟨-, -, -, -, -, -, -, -, -, et⟩ := openPositiveExists_parts e
    rw [hl] at et
    have R := renewed_boolReduction L' (noEmpty_of L' hN') (ls := [o.literal]) pl et
    refine ⟨declare_wellDeclared w sT, ?_, ?_, _, ⟨_, rfl, ?_⟩, L', hN', ?_⟩
    · intro m hm
      have h1 : (if m = n then some o.type else K'.scopedType m) = none := hm
      split at h1
      · cases h1
      · exact k m h1
    · intro d hd
      rcases List.mem_cons.1 hd with rfl | hd
      · exact R.plain
      · exact declare_plain hn (p d hd)
    · intro s hs
      by_cases es : s = .scoped n
      · exact absurd (k n hn) (hs n es)
      · show (if s = .scoped n then v else f s) = M.sym s
        rw [if_neg es]
        exact m1 s hs
    · intro d hd
      rcases List.mem_cons.1 hd with rfl | hd
      · exact R.truth.2 c'
      · exact (clauseTrue_set (plain_declared hn (p d hd))).2 (m4 d hd)

/-- A model of the opened clause is a model of the existential. -/
theorem opened_back {c : Clause} (h : PlainClause K c) {A body : Term} {n : Nat} {o : Opened} (hn : K.scopedType n = none)
    (hc : c.lits = [⟨true, .ex A body, .tt⟩]) (e : openPositiveExists c A body (.scoped n) = some o)
    (L : Lawful (declare K n o.type) M) (hT : ClauseTrue M ⟨[o.literal], c.ctx⟩) : ClauseTrue M c := by
  obtain ⟨-, -, hw⟩ := opened_plain h hn hc e
  obtain ⟨H, R, body', -, -, -, -, e5, e6, -⟩ := openPositiveExists_parts e
  obtain ⟨T, -, hex, -⟩ := h.lits ⟨true, .ex A body, .tt⟩ (by rw [hc]; simp)
  obtain ⟨-, tA, tB⟩ := STyped.quant_inv (declare_typed (T0 := o.type) hn hex) (.inr rfl)
  intro ρ hρ β
  obtain ⟨l, hl, hh⟩ := hT ρ hρ β
  rw [List.mem_singleton] at hl
  subst hl
  rw [e6, holds_pos, Tr, eval_inst_zero] at hh
  refine ⟨_, by rw [hc]; exact List.mem_singleton.2 rfl, ?_⟩
  simp only [LitHolds, if_true]
  refine (L.ex_tt _ _ fun a ha => ?_).2 ⟨eval M ρ β o.witness, ?_, hh⟩
  · exact Typed.mem L hρ tB.typed _ (bmodels_nil.cons ha)
  · exact Typed.mem L hρ hw.typed _ bmodels_nil

end Acorn.Opening
