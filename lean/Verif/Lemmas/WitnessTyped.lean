/-
The witness is well typed, also with variables for types.
-/
import Verif.Lemmas.WitnessTotal
namespace Acorn.Opening

open Term Spec

variable {K : KCtx} {Γ : LCtx}

theorem convertAt_sub (n : Nat) (t : Term) : ∀ d, t.convertFreeToBoundAt n d =
    sub (fun i => if i < n then bvar (d + n - 1 - i) else fvar i) (fun i => if d ≤ i then bvar (i + n) else bvar i) t := by
  induction t with
  | atom a => intro d; cases a <;> rfl
  | app f a ihf iha => intro d; simp only [convertFreeToBoundAt, sub, ihf, iha]
  | bind b A B ihA ihB =>
    intro d
    simp only [convertFreeToBoundAt, sub, ihA, ihB]
    congr 2
    · funext i
      simp only [lift]
      split
      · simp only [ren]; congr 1; omega
      · rfl
    · funext i
      cases i with
      | zero => simp [ups]
      | succ i =>
        simp only [ups, Nat.add_le_add_iff_right]
        split <;> simp only [ren]
        congr 1; omega

theorem convert_sub (n : Nat) (t : Term) : t.convertFreeToBound n =
    sub (fun i => if i < n then bvar (n - 1 - i) else fvar i) (fun i => bvar (i + n)) t := by
  unfold convertFreeToBound
  split
  · rename_i h
    subst h
    simp only [Nat.not_lt_zero, if_false, Nat.add_zero]
    exact (sub_id t).symm
  · rw [convertAt_sub]
    congr 1
    · funext i; simp

/-- Giving the bound variables the names of the variables. -/
theorem convert_back {order : List Nat} {T : Term} {k : Nat} (hc : T.escapes = false) (hv : ∀ i, T.hasVar i = true → i ∈ order ∧ order.idxOf i < k)
    {τ : Nat → Term} (hτ : ∀ i, i ∈ order → order.idxOf i < k → τ (k - 1 - order.idxOf i) = .fvar i) :
    sub fid τ ((T.byIds order).convertFreeToBound k) = T := by
  rw [convert_sub, sub_sub, Term.byIds, vmap, sub_sub, sub_closed _ _ bid T hc]
  have := sub_fvars T (fun i => sub (fun i => sub fid τ (if i < k then bvar (k - 1 - i) else fvar i)) (fun i => sub fid τ (bvar (i + k)))
    (fvar (order.idxOf i))) fid bid fun i hi => by
      obtain ⟨h1, h2⟩ := hv i hi
      simp only [sub, h2, if_true]
      exact hτ i h1 h2
  rw [sub_id] at this
  exact this

/-- The names of the first `k` arguments. -/
def names (order : List Nat) (k : Nat) : Nat → Term := fun j => if j < k then .fvar (order.getD (k - 1 - j) 0) else .bvar (j - k)

theorem names_zero (order : List Nat) : names order 0 = bid := by
  funext j; simp [names, bid]

theorem names_succ (order : List Nat) (k : Nat) (B : Term) :
    inst 0 (.fvar (order.getD k 0)) (sub fid (ups (names order k)) B) = sub fid (names order (k + 1)) B := by
  rw [inst_zero_eq, sub_sub]
  congr 1
  funext j
  cases j with
  | zero => simp [ups, sub, one, names]
  | succ j =>
    have h1 := inst_up (.fvar (order.getD k 0)) (names order k j)
    rw [inst_zero_eq] at h1
    simp only [ups]
    rw [h1]
    have e : k - (j + 1) = k - 1 - j := by omega
    simp [names, e]

theorem names_idx {order : List Nat} {k i : Nat} (hi : i ∈ order) (hk : order.idxOf i < k) :
    names order k (k - 1 - order.idxOf i) = .fvar i := by
  have h1 := List.idxOf_lt_length_iff.2 hi
  have e : k - 1 - (k - 1 - order.idxOf i) = order.idxOf i := by omega
  have h2 : k - 1 - order.idxOf i < k := by omega
  simp only [names, h2, if_true, e]
  rw [List.getD_eq_getElem?_getD, List.getElem?_eq_getElem h1, List.getElem_idxOf h1]
  rfl

theorem escapes_convertAt {n : Nat} {t : Term} (hv : ∀ i, t.hasVar i = true → i < n) : ∀ {d : Nat}, escapesAt d t = false →
    escapesAt (d + n) (t.convertFreeToBoundAt n d) = false ∧ ∀ i, (t.convertFreeToBoundAt n d).hasVar i = false := by
  induction t with
  | atom a =>
    intro d h
    cases a with
    | fvar i =>
      have := hv i (by simp [hasVar, atoms])
      simp only [convertFreeToBoundAt, this, if_true]
      exact ⟨by simp only [escapesAt, decide_eq_false_iff_not]; omega, fun i => by simp [hasVar, atoms]⟩
    | bvar i =>
      simp only [escapesAt, decide_eq_false_iff_not] at h
      have h' : ¬ d ≤ i := by omega
      simp only [convertFreeToBoundAt, h', if_false]
      exact ⟨by simp only [escapesAt, decide_eq_false_iff_not]; omega, fun i => by simp [hasVar, atoms]⟩
    | sym s => exact ⟨rfl, fun i => by simp [hasVar, atoms, convertFreeToBoundAt]⟩
  | app f a ihf iha =>
    intro d h
    simp only [escapesAt, Bool.or_eq_false_iff] at h
    have h1 := ihf (fun i hi => hv i (by rw [hasVar_app, hi]; rfl)) h.1
    have h2 := iha (fun i hi => hv i (by rw [hasVar_app, hi]; simp)) h.2
    simp only [convertFreeToBoundAt, escapesAt, hasVar_app, h1.1, h2.1, h1.2, h2.2]
    exact ⟨rfl, fun _ => rfl⟩
  | bind b f a ihf iha =>
    intro d h
    simp only [escapesAt, Bool.or_eq_false_iff] at h
    have h1 := ihf (fun i hi => hv i (by rw [hasVar_bind, hi]; rfl)) h.1
    have h2 := iha (fun i hi => hv i (by rw [hasVar_bind, hi]; simp)) h.2
    have e : d + n + 1 = d + 1 + n := by omega
    simp only [convertFreeToBoundAt, escapesAt, hasVar_bind, h1.1, e, h2.1, h1.2, h2.2]
    exact ⟨rfl, fun _ => rfl⟩

theorem escapes_convert {n : Nat} {t : Term} (hv : ∀ i, t.hasVar i = true → i < n) (h : t.escapes = false) :
    escapesAt n (t.convertFreeToBound n) = false ∧ ∀ i, (t.convertFreeToBound n).hasVar i = false := by
  unfold convertFreeToBound
  split
  · rename_i hn
    subst hn
    refine ⟨h, fun i => ?_⟩
    cases e : t.hasVar i with
    | false => rfl
    | true => have := hv i e; omega
  · have := escapes_convertAt hv (d := 0) h
    rwa [Nat.zero_add] at this

theorem tails_closed {H : Nat → Term} {R : Term} {n : Nat} (hc : ∀ i, i < n → (H i).escapes = false)
    (hv : ∀ i, i < n → ∀ j, (H i).hasVar j = true → j < i) (hRc : R.escapes = false) (hRv : ∀ j, R.hasVar j = true → j < n) :
    ∀ m, m ≤ n → escapesAt (n - m) (tails H R n m) = false ∧ ∀ i, (tails H R n m).hasVar i = false := by
  intro m
  induction m with
  | zero => intro _; exact escapes_convert hRv hRc
  | succ m ih =>
    intro hm
    have h1 := ih (by omega)
    have h2 := escapes_convert (hv (n - (m + 1)) (by omega)) (hc (n - (m + 1)) (by omega))
    have e : n - m = n - (m + 1) + 1 := by omega
    rw [e] at h1
    simp only [tails, Term.pi, escapesAt, hasVar_bind, h1.1, h1.2, h2.1, h2.2]
    exact ⟨rfl, fun _ => rfl⟩

/-- The witness, for any context. -/
theorem opened_typed {c : Clause} {A body : Term} {n : Nat} {o : Opened}
    (ho : CtxOrdered c.ctx) (hcl : CtxClosed c.ctx) (ht : HasType K c.ctx (.ex A body) .boolTy)
    (e : openPositiveExists c A body (.scoped n) = some o) :
    o.type.Ground ∧ HasType (declare K n o.type) c.ctx o.witness A := by
  obtain ⟨H, R, body', e1, e2, e3, e4, e5, e6, -⟩ := openPositiveExists_parts e
  obtain ⟨hl, F, f1, f2, f3, f4⟩ := hoisted ho hcl e1
  obtain ⟨r1, r2⟩ := renumber_spec A R e2
  obtain ⟨tA, tB, -⟩ := Typed.quant_inv ht (.inr rfl)
  have cA : A.escapes = false := (tA.closed 0 BScoped.nil).1
  have ty : o.type = tails F R c.ctx.length c.ctx.length := by
    have h1 := wrapPis_tails (R := R) f1 0 (Nat.zero_le _)
    simp only [witnessType, hl] at e4
    simp only [Nat.sub_zero, tails] at h1
    rw [h1] at e4
    exact (Option.some.inj e4).symm
  have hg : o.type.Ground := by
    have := tails_closed f2 f3 (R := R) (by rw [r2, Term.byIds, escapes, escapes_vmap]; exact cA)
      (by
        intro j hj
        rw [r2, Term.byIds] at hj
        obtain ⟨x, hx, rfl⟩ := hasVar_vmap hj
        have := List.idxOf_lt_length_iff.2 (r1 x hx)
        rwa [hoistOrder_length] at this) c.ctx.length (Nat.le_refl _)
    rw [← ty, Nat.sub_self] at this
    exact this
  refine ⟨hg, ?_⟩
  have hsym : HasType (declare K n o.type) c.ctx (Term.sym (.scoped n)) o.type := by
    refine .sym rfl ?_ hg
    show (if n = n then some o.type else K.scopedType n) = some o.type
    rw [if_pos rfl]
  have key : ∀ k, k ≤ c.ctx.length → HasType (declare K n o.type) c.ctx ((Term.sym (.scoped n)).apply (((hoistOrder c.ctx).take k).map Term.fvar))
      (sub fid (names (hoistOrder c.ctx) k) (tails F R c.ctx.length (c.ctx.length - k))) := by
    intro k
    induction k with
    | zero =>
      intro _
      rw [names_zero, sub_id, Nat.sub_zero, ← ty]
      exact hsym
    | succ k ih =>
      intro hk
      have hlt : k < (hoistOrder c.ctx).length := by rw [hoistOrder_length]; omega
      have h1 := ih (by omega)
      have e' : c.ctx.length - k = (c.ctx.length - (k + 1)) + 1 := by omega
      have e2 : c.ctx.length - (c.ctx.length - (k + 1) + 1) = k := by omega
      rw [e'] at h1
      simp only [tails, e2, Term.pi, sub, lift_fid] at h1
      obtain ⟨T, t1, t2, t3, -⟩ := f4 k _ (List.getElem?_eq_getElem hlt)
      have hidx : (hoistOrder c.ctx).idxOf (hoistOrder c.ctx)[k] = k := hoistOrder_nodup.idxOf_getElem k hlt
      rw [t3, convert_back (hcl _ T t1) (fun i hi => ⟨t2 i hi, by
          have := hoistOrder_respects ho t1 hi
          rwa [hidx] at this⟩) (fun i hi hk => names_idx hi hk)] at h1
      have h2 : HasType (declare K n o.type) c.ctx (.fvar (hoistOrder c.ctx)[k]) T := .fvar t1 (hcl _ T t1)
      have h3 := Typed.app h1 h2
      have ed : (hoistOrder c.ctx)[k] = (hoistOrder c.ctx).getD k 0 := by
        rw [List.getD_eq_getElem?_getD, List.getElem?_eq_getElem hlt]; rfl
      rw [List.take_succ_eq_append_getElem hlt, List.map_append, apply_append, ← names_succ, ← ed]
      exact h3
  have hfin := key c.ctx.length (Nat.le_refl _)
  rw [List.take_of_length_le (by rw [hoistOrder_length]), Nat.sub_self, tails, r2, convert_back cA (fun i hi => ⟨r1 i hi, by
    have := List.idxOf_lt_length_iff.2 (r1 i hi)
    rwa [hoistOrder_length] at this⟩) (fun i hi hk => names_idx hi hk)] at hfin
  rw [e5]
  exact hfin

/-- A new constant does not change the types of the old terms. -/
theorem declare_typed_any {n : Nat} {T0 : Term} (hn : K.scopedType n = none) {Δ : BCtx} {t : Term} {J : Jdg} (h : Typed K Γ Δ t J) :
    Typed (declare K n T0) Γ Δ t J := by
  induction h with
  | fvar h1 h2 => exact .fvar h1 h2
  | bvar h1 => exact .bvar h1
  | sym h1 h2 h3 =>
    rename_i s T
    refine .sym h1 ?_ h3
    cases s
    case «scoped» m =>
      have h4 : K.scopedType m = some T := h2
      show (if m = n then some T0 else K.scopedType m) = some T
      split
      · rename_i e; rw [e, hn] at h4; cases h4
      · exact h4
    all_goals exact h2
  | app _ _ ih1 ih2 => exact .app ih1 ih2
  | lam _ _ h ih1 ih2 => exact .lam ih1 ih2 h
  | all _ _ ih1 ih2 => exact .all ih1 ih2
  | ex _ _ ih1 ih2 => exact .ex ih1 ih2
  | pi _ _ ih1 ih2 => exact .pi ih1 ih2
  | inst h1 h2 => exact .inst h1 h2
  | scheme φ h1 h2 h3 _ _ ih1 ih2 => exact .scheme φ h1 h2 h3 ih1 ih2
  | extend _ h ih => exact .extend ih h
  | forget _ ih => exact .forget ih
  | tyType0 => exact .tyType0
  | tyClass => exact .tyClass
  | tyOf _ ih => exact .tyOf ih
  | tyPi _ _ ih1 ih2 => exact .tyPi ih1 ih2

end Acorn.Opening
