/-
Extended terms stand for the terms they come from.
-/
import Verif.Lemmas.ClausifyLambda
namespace Acorn
namespace Clausify
open Spec Term

universe u
variable {Kn : Kernel} {M : Interp.{u}} {n : Nat}

/-- The state is consistent. -/
structure StOk (K : KCtx) (n : Nat) (s : St) : Prop where
  good : GoodCtx K n s.ctx
  next : s.next = s.ctx.length

/-- The context of the second state extends that of the first. -/
abbrev St.Le (s s' : St) : Prop := Ctx.Le s.ctx s'.ctx

theorem StOk.fresh {K : KCtx} {s : St} (h : StOk K n s) {A : Term} (hA : STyped K s.ctx BCtx.nil A .isTy)
    (kA : endsKind A = false) : StOk K n (s.fresh A).2 :=
  ⟨h.good.push hA kA, by simp [St.fresh, LCtx.pushTy, h.next]⟩

theorem openLams_spec {K : KCtx} (L : Lawful K M) : ∀ (m : Nat) (s : St) (t T : Term), StOk K n s → SHasType K s.ctx t T →
    endsKind T = false → ∃ args body s', openLams m s t = some (args, body, s') ∧ StOk K n s' ∧ s.Le s' ∧
      (∀ x ∈ args.map (·.1), s.ctx.length ≤ x) ∧ (args.map (·.1)).Nodup ∧
      body.size + args.length ≤ t.size ∧ (∀ A b, t = .lam A b → 0 < m → args ≠ []) ∧
      LamOk K M n s'.ctx (fun ρ β => eval M ρ β t) T args body ∧
      ∃ T', SHasType K s'.ctx body T' ∧ endsKind T' = false := by
  intro m
  induction m with
  | zero =>
    intro s t T hs ht kT
    refine ⟨[], t, s, by simp [openLams], hs, .refl, by simp, by simp, by simp, fun _ _ _ h => absurd h (Nat.lt_irrefl 0),
      ⟨ht, fun _ _ _ => rfl⟩, T, ht, kT⟩
  | succ m ih =>
    intro s t T hs ht kT
    by_cases hl : ∃ A b, t = .lam A b
    · obtain ⟨A, b, rfl⟩ := hl
      obtain ⟨B, e, hA, hb, kA, kB⟩ := ht.lam_inv
      cases e
      have hb' := hb.open_fresh (isTy_closed hA)
      simp only [Jdg.sub] at hb'
      rw [← inst_zero_eq, inst_up] at hb'
      have hs1 := hs.fresh hA kA
      have hx : s.next = s.ctx.length := hs.next
      have hle1 : s.Le (s.fresh A).2 := .push A
      have e1 : (s.fresh A).2.ctx = s.ctx.pushTy A := rfl
      obtain ⟨args, body, s', e2, hs', hle, hge, hnd, hsz, _, hok, T', hT', kT'⟩ :=
        ih (s.fresh A).2 (Term.inst 0 (.fvar s.ctx.length) b) B hs1 hb' kB
      have hlt : ∀ y ∈ args.map (·.1), s.ctx.length < y := by
        intro y hy
        have := hge y hy
        rw [e1] at this
        simp [LCtx.pushTy] at this
        omega
      have hget : s'.ctx.get s.ctx.length = some A := hle.get (by rw [e1]; exact get_pushTy_eq)
      have hn := hs.good.le
      refine ⟨(s.ctx.length, A) :: args, body, s', ?_, hs', hle1.trans hle, ?_, ?_, ?_, fun _ _ _ _ => by simp,
        ⟨B, rfl, (hle1.trans hle).typed hA, kA, kB, hn, hget, ?_, ?_, ?_, ?_⟩, T', hT', kT'⟩
      · simp only [openLams, openBound_eq, hx]
        simp [e2]
      · intro y hy
        rcases List.mem_cons.1 hy with rfl | hy
        · exact Nat.le_refl _
        · exact Nat.le_of_lt (hlt y hy)
      · refine List.nodup_cons.2 ⟨fun h => ?_, hnd⟩
        exact Nat.lt_irrefl _ (hlt _ h)
      · rw [size_openBound_fvar b _ _ (openBound_eq _ _)] at hsz
        simp only [List.length_cons, size]
        omega
      · intro y hy; exact hs.good.type_no_var hy ht
      · intro ρ d β
        refine eval_fvars M _ _ _ _ fun j hj => ?_
        have := STyped.lt ht hj
        have : j ≠ s.ctx.length := by omega
        simp [setAt, this]
      · intro ρ hρ β
        exact ht.val_mem L ((hle1.trans hle).models hρ) bmodels_nil
      · refine hok.congr ?_ ?_ hnd
        · intro ρ hρ β
          rw [eval_inst_zero]
          simp only [Acorn.eval]
          rw [L.beta]
          have := hρ _ _ hget β
          exact this
        · intro yA hy ρ d β
          have hne := hlt yA.1 (List.mem_map_of_mem hy)
          have e3 : eval M (setAt ρ yA.1 d) β (.lam A b) = eval M ρ β (.lam A b) := by
            refine eval_fvars M _ _ _ _ fun j hj => ?_
            have := STyped.lt ht hj
            have : j ≠ yA.1 := by omega
            simp [setAt, this]
          show M.app (eval M (setAt ρ yA.1 d) β (.lam A b)) _ = _
          rw [e3]
          have : s.ctx.length ≠ yA.1 := by omega
          simp [setAt, this]
    · refine ⟨[], t, s, ?_, hs, .refl, by simp, by simp, by simp, fun A b e => absurd ⟨A, b, e⟩ hl,
        ⟨ht, fun _ _ _ => rfl⟩, T, ht, kT⟩
      unfold openLams
      split
      · rename_i A b _; exact absurd ⟨A, b, rfl⟩ hl
      · rfl

/-! ### The term of an extended term -/

/-- The term an extended term is turned into (not used for a conditional). -/
def Ext.val : Ext → Term
  | .term t => t
  | .ite _ a _ => a
  | .lam args b => lamTerm args b

theorem ExtOk.val (L : Lawful Kn.toKCtx M) {Γ Γ' : LCtx} (hg : GoodCtx Kn.toKCtx n Γ) (hle : Ctx.Le Γ Γ')
    (hg' : GoodCtx Kn.toKCtx n Γ') {e : Ext} {t : Term} {J : Jdg} (h : ExtOk Kn.toKCtx M n Γ e t J) :
    e.toTerm Kn Γ' = .ok e.val ∧ InlAt Kn.toKCtx M Γ t e.val J := by
  match e, h with
  | .term u, h => exact ⟨rfl, h⟩
  | .lam args b, h =>
    obtain ⟨u, h1, h2⟩ := ExtOk.toTerm L hg h
    obtain ⟨_, _, T, rfl, _, _, h6⟩ := h
    rw [toTerm_lam L hg h6] at h1
    cases h1
    exact ⟨toTerm_lam L hg' (h6.mono hle), h2⟩

/-- Pointwise: extended terms for terms of `Γ0`. -/
inductive ExtAll (K : KCtx) (M : Interp.{u}) (n : Nat) (Γ0 Γ : LCtx) : List Term → List Ext → Prop
  | nil : ExtAll K M n Γ0 Γ [] []
  | cons {t e ts es} : (∃ T, SHasType K Γ0 t T) → (∀ J, STyped K Γ0 BCtx.nil t J → ExtOk K M n Γ e t J) →
      ExtAll K M n Γ0 Γ ts es → ExtAll K M n Γ0 Γ (t :: ts) (e :: es)

theorem ExtAll.inl (L : Lawful Kn.toKCtx M) {Γ0 Γ Γ' : LCtx} (hg : GoodCtx Kn.toKCtx n Γ) (hle : Ctx.Le Γ Γ')
    (hg' : GoodCtx Kn.toKCtx n Γ') {ts : List Term} {es : List Ext} (h : ExtAll Kn.toKCtx M n Γ0 Γ ts es) :
    es.mapM (Ext.toTerm Kn Γ') = .ok (es.map Ext.val) ∧ InlAll Kn.toKCtx M Γ0 Γ ts (es.map Ext.val) ∧
      ∀ u ∈ es.map Ext.val, ∃ T, SHasType Kn.toKCtx Γ u T := by
  induction h with
  | nil => exact ⟨rfl, .nil, by simp⟩
  | cons h0 h _ ih =>
    obtain ⟨T, h0⟩ := h0
    obtain ⟨i1, i2, i3⟩ := ih
    have h1 := (h _ h0).val L hg hle hg'
    refine ⟨?_, .cons (fun J hJ => ((h J hJ).val L hg hle hg').2) i2, ?_⟩
    · rw [List.mapM_cons, h1.1, i1]; rfl
    · intro u hu
      rcases List.mem_cons.1 hu with rfl | hu
      · exact ⟨T, h1.2.typed⟩
      · exact i3 u hu

theorem foldlM_addArg (L : Lawful Kn.toKCtx M) {Γ0 Γ Γ' : LCtx} (hg : GoodCtx Kn.toKCtx n Γ) (hle : Ctx.Le Γ Γ')
    (hg' : GoodCtx Kn.toKCtx n Γ') {ts : List Term} {es : List Ext} (h : ExtAll Kn.toKCtx M n Γ0 Γ ts es) :
    ∀ us, es.foldlM (addArg Kn Γ') ⟨none, us, []⟩ = .ok ⟨none, us ++ es.map Ext.val, []⟩ := by
  induction h with
  | nil => intro us; simp; rfl
  | @cons t e ts es h0 h _ ih =>
    intro us
    obtain ⟨T, h0⟩ := h0
    have h1 := ((h _ h0).val L hg hle hg').1
    have hx := h _ h0
    have : addArg Kn Γ' ⟨none, us, []⟩ e = .ok ⟨none, us ++ [e.val], []⟩ := by
      match e, h1, hx with
      | .term u, _, _ => rfl
      | .lam args b, h1, _ => simp only [addArg, h1]; rfl
    rw [List.foldlM_cons, this]
    show es.foldlM (addArg Kn Γ') ⟨none, us ++ [e.val], []⟩ = _
    rw [ih]
    simp

theorem size_spine (t : Term) : t.spineHead.size + (t.args.map Term.size).sum ≤ t.size := by
  induction t with
  | atom a => simp [spineHead, args]
  | app f a ihf _ => simp [spineHead, args, size]; omega
  | bind b A B _ _ => simp [spineHead, args]

theorem size_pos (t : Term) : 0 < t.size := by cases t <;> simp [size] <;> omega

theorem size_arg {f a x : Term} (h : x ∈ (Term.app f a).args) : x.size < (Term.app f a).size := by
  have h1 := size_spine (.app f a)
  have h2 := size_pos (Term.app f a).spineHead
  have : x.size ≤ ((Term.app f a).args.map Term.size).sum := by
    generalize (Term.app f a).args = l at h
    induction l with
    | nil => simp at h
    | cons y l ih =>
      simp only [List.map_cons, List.sum_cons]
      rcases List.mem_cons.1 h with rfl | h
      · omega
      · have := ih h; omega
  omega

theorem size_head (f a : Term) : (Term.app f a).spineHead.size < (Term.app f a).size := by
  have h1 := size_spine f
  show f.spineHead.size < _
  simp only [size]
  have := size_pos a
  omega

/-- The arguments of a well typed application are well typed. -/
theorem args_typed {K : KCtx} {Γ : LCtx} {Δ : BCtx} : ∀ (t : Term) {J : Jdg}, STyped K Γ Δ t J →
    ∀ a ∈ t.args, ∃ A, STyped K Γ Δ a (.ty A) := by
  intro t
  induction t with
  | atom _ => intro J _ a h; simp [args] at h
  | bind _ _ _ => intro J _ a h; simp [args] at h
  | app f b ih _ =>
    intro J h a ha
    rcases h.app_inv with ⟨A, B, _, h1, h2, _⟩ | ⟨A, B, h1, h2, _⟩
    · simp only [args, List.mem_append, List.mem_singleton] at ha
      rcases ha with ha | rfl
      · exact ih h1 a ha
      · exact ⟨_, h2⟩
    · simp only [args, List.mem_append, List.mem_singleton] at ha
      rcases ha with ha | rfl
      · exact ih h1 a ha
      · exact ⟨_, h2⟩

/-- The statement about `toExt`, for one amount of fuel. -/
def ToExtOk (Kn : Kernel) (M : Interp.{u}) (n : Nat) (rec : St → Term → Except Err (Ext × St)) (m : Nat) :
    Prop :=
  ∀ (s : St) (t T : Term), StOk Kn.toKCtx n s → SHasType Kn.toKCtx s.ctx t T → t.size ≤ m →
    ∃ e s', rec s t = .ok (e, s') ∧ StOk Kn.toKCtx n s' ∧ s.Le s' ∧
      (∀ J, STyped Kn.toKCtx s.ctx BCtx.nil t J → ExtOk Kn.toKCtx M n s'.ctx e t J) ∧
      (∀ args b, e = .lam args b → ∀ x ∈ args.map (·.1), s.ctx.length ≤ x) ∧
      (∀ a, t = .atom a → ∃ u, e = .term u ∧ s' = s) ∧
      (∀ A b, t = .lam A b → ∃ args b', e = .lam args b')

theorem argExt_spec {rec : St → Term → Except Err (Ext × St)} {m : Nat} (hr : ToExtOk Kn M n rec m)
    {s : St} {t T : Term} (hs : StOk Kn.toKCtx n s) (ht : SHasType Kn.toKCtx s.ctx t T) (hm : t.size ≤ m) :
    ∃ e s', argExt rec Kn s t = .ok (e, s') ∧ StOk Kn.toKCtx n s' ∧ s.Le s' ∧
      (∀ J, STyped Kn.toKCtx s.ctx BCtx.nil t J → ExtOk Kn.toKCtx M n s'.ctx e t J) := by
  obtain ⟨e, s', h1, h2, h3, h4, _⟩ := hr s t T hs ht hm
  by_cases hl : ∃ A b, t = .lam A b
  · obtain ⟨A, b, rfl⟩ := hl
    exact ⟨e, s', h1, h2, h3, h4⟩
  · obtain ⟨U, hU, _⟩ := typeOf_total hs.good ht
    have : argExt rec Kn s t = (do
        let T ← typeOf Kn s.ctx t
        if T = .boolTy ∧ (tryInlineTerm t).isNone = true then return (.term t, s) else rec s t) := by
      unfold argExt
      split
      · exact absurd ⟨_, _, rfl⟩ hl
      · rfl
    rw [this, hU]
    by_cases hc : U = .boolTy ∧ (tryInlineTerm t).isNone = true
    · exact ⟨.term t, s, by simp only [Bind.bind, Except.bind, if_pos hc]; rfl, hs, .refl, fun J hJ => InlAt.refl hJ⟩
    · exact ⟨e, s', by simp only [Bind.bind, Except.bind, if_neg hc]; exact h1, h2, h3, h4⟩

theorem argsExt_spec {rec : St → Term → Except Err (Ext × St)} {m : Nat} (hr : ToExtOk Kn M n rec m) :
    ∀ (ts : List Term) (s : St), StOk Kn.toKCtx n s →
      (∀ t ∈ ts, (∃ T, SHasType Kn.toKCtx s.ctx t T) ∧ t.size ≤ m) →
      ∃ es s', argsExt rec Kn s ts = .ok (es, s') ∧ StOk Kn.toKCtx n s' ∧ s.Le s' ∧
        ∀ Γ0, Ctx.Le Γ0 s.ctx → (∀ t ∈ ts, ∃ T, SHasType Kn.toKCtx Γ0 t T) →
          ExtAll Kn.toKCtx M n Γ0 s'.ctx ts es := by
  intro ts
  induction ts with
  | nil => intro s hs _; exact ⟨[], s, rfl, hs, .refl, fun _ _ _ => .nil⟩
  | cons t ts ih =>
    intro s hs h
    obtain ⟨⟨T, ht⟩, hm⟩ := h t (List.mem_cons_self)
    obtain ⟨e, s1, e1, hs1, hle1, he⟩ := argExt_spec hr hs ht hm
    obtain ⟨es, s2, e2, hs2, hle2, hes⟩ := ih s1 hs1 fun t' ht' => by
      obtain ⟨⟨T', h1⟩, h2⟩ := h t' (List.mem_cons_of_mem _ ht')
      exact ⟨⟨T', hle1.typed h1⟩, h2⟩
    refine ⟨e :: es, s2, ?_, hs2, hle1.trans hle2, fun Γ0 h0 hty => ?_⟩
    · simp only [argsExt, e1, e2, Bind.bind, Except.bind]; rfl
    · exact .cons (hty t (List.mem_cons_self)) (fun J hJ => (he J (h0.typed hJ)).mono hle2)
        (hes Γ0 (h0.trans hle1) fun t' ht' => hty t' (List.mem_cons_of_mem _ ht'))

theorem apply_lam_vars {args args' : List (Nat × Term)} {b b' : Term} {ts : List Term}
    (e : Ext.apply (.lam args b) ts = .lam args' b') : ∀ x ∈ args'.map (·.1), x ∈ args.map (·.1) := by
  simp only [Ext.apply] at e
  split at e
  · cases e
    intro x hx
    obtain ⟨y, hy, rfl⟩ := List.mem_map.1 hx
    exact List.mem_map_of_mem (List.mem_of_mem_drop hy)
  · split at e <;> cases e

theorem args_apply (f a : Term) : (Term.app f a).spineHead.apply (Term.app f a).args = .app f a :=
  Spec.apply_args _

/-- `term_to_extended_term` succeeds and keeps the meaning. -/
theorem toExt_spec (L : Lawful Kn.toKCtx M) : ∀ m, ToExtOk Kn M n (toExt Kn m) m := by
  intro m
  induction m with
  | zero => intro s t T _ _ h; have := size_pos t; omega
  | succ m ih =>
    intro s t T hs ht hm
    by_cases hi : ∃ as, splitSym t .ite_ 4 = some as
    · obtain ⟨as, hi⟩ := hi
      obtain ⟨e0, e4⟩ := STyped.splitSym rfl ht hi
      match as, e4 with
      | [A, c, a, b], _ =>
        have e0' : t = .ite A c a b := e0
        have hsa := size_args_lt hi a (by simp)
        have hsb := size_args_lt hi b (by simp)
        rw [e0'] at ht
        obtain ⟨eT, hA, hc, ha, hb⟩ := ht.ite_inv
        cases eT
        have kA := isKind_of_endsKind_false (hA.not_endsKind _ rfl)
        obtain ⟨ae, s1, e1, hs1, hle1, hae, _⟩ := ih s a T hs ha (by omega)
        have va := (hae _ ha).val L hs1.good .refl hs1.good
        obtain ⟨be, s2, e2, hs2, hle2, hbe, _⟩ := ih s1 b T hs1 (hle1.typed hb) (by omega)
        have vb := (hbe _ (hle1.typed hb)).val L hs2.good .refl hs2.good
        have va' := va.2.mono hle2
        obtain ⟨U, hU, hUA, _⟩ := typeOf_total hs2.good va'.typed
        cases hUA kA
        have hle := hle1.trans hle2
        refine ⟨.term (.ite T c ae.val be.val), s2, ?_, hs2, hle, ?_, (fun _ _ e => by cases e), ?_, ?_⟩
        · simp only [toExt, hi, e1, e2, va.1, vb.1, hU, Bind.bind, Except.bind]; rfl
        · intro J hJ
          subst e0'
          cases hJ.ite_inv.1
          have hty := STyped.ite (hle.typed hA) (hle.typed hc) va'.typed vb.2.typed
          refine ⟨hty, fun ρ hρ β => ?_, fun hT => ?_⟩
          · have i1 := eval_ite L hρ hty (β := β) bmodels_nil
            have i2 := eval_ite L hρ (hle.typed ht) (β := β) bmodels_nil
            classical
            by_cases hc : Tr M ρ β c
            · rw [i1.1 hc, i2.1 hc, va'.eval ρ hρ β]
            · rw [i1.2 hc, i2.2 hc, vb.2.eval ρ hρ β]
          · rw [va.2.same hT, vb.2.same hT]
        · intro x e; rw [e0'] at e; cases e
        · intro A' b' e; rw [e0'] at e; cases e
    · have hn : splitSym t .ite_ 4 = none := by
        cases h : splitSym t .ite_ 4 with
        | none => rfl
        | some as => exact absurd ⟨as, h⟩ hi
      cases t with
      | app f a =>
        have hall : ∀ x ∈ (Term.app f a).args, ∃ A, SHasType Kn.toKCtx s.ctx x A :=
          fun x hx => args_typed _ ht x hx
        obtain ⟨es, s1, e1, hs1, hle1, hes⟩ := argsExt_spec ih (Term.app f a).args s hs
          fun x hx => ⟨hall x hx, by have := size_arg hx; omega⟩
        have hes := hes s.ctx .refl hall
        have hap := args_apply f a
        have hne : (Term.app f a).args ≠ [] := by simp [args]
        have hhd : ∃ A B, SHasType Kn.toKCtx s.ctx (Term.app f a).spineHead (.pi A B) := by
          have ht' := ht
          rw [← hap] at ht'
          match (Term.app f a).args, hne, ht' with
          | y :: ys, _, ht' => exact typed_apply_fun' ht'
        obtain ⟨P, Q, hhd⟩ := hhd
        have hsz := size_head f a
        obtain ⟨he, s2, e2, hs2, hle2, hhe, hvs, hat, hlm⟩ := ih s1 (Term.app f a).spineHead _ hs1
          (hle1.typed hhd) (by omega)
        have hle := hle1.trans hle2
        obtain ⟨m1, m2, m3⟩ := hes.inl L hs1.good hle2 hs2.good
        have hto : toExt Kn (m + 1) s (.app f a) =
            applyExt (toExt Kn m) Kn s1 (Term.app f a).spineHead es := by
          simp only [toExt, hn, e1, Bind.bind, Except.bind]
        rw [hto]
        rcases spine_typed ht with ⟨b, hb⟩ | ⟨A, B, hb⟩
        · have hb' : (Term.app f a).spineHead = .atom b := hb
          obtain ⟨u, e3, e4⟩ := hat b hb'
          subst e3 e4
          refine ⟨.term (u.apply (es.map Ext.val)), s2, ?_, hs2, hle, ?_, (fun _ _ e => by cases e),
            (fun _ e => by cases e), fun _ _ e => by cases e⟩
          · rw [hb'] at e2 ⊢
            simp only [applyExt, e2, Bind.bind, Except.bind,
              foldlM_addArg L hs2.good .refl hs2.good hes, List.singleton_append, fromSpine]
            rfl
          · intro J hJ
            have := InlAll.apply hle m2 (f := (Term.app f a).spineHead) (f' := u)
              (fun J hJ => hhe J (hle1.typed hJ))
            rw [hap] at this
            exact this J hJ
        · have hb' : (Term.app f a).spineHead = .lam A B := hb
          obtain ⟨args, b', e3⟩ := hlm A B hb'
          subst e3
          refine ⟨Ext.apply (.lam args b') (es.map Ext.val), s2, ?_, hs2, hle, ?_, ?_,
            (fun _ e => by cases e), fun _ _ e => by cases e⟩
          · rw [hb'] at e2 ⊢
            simp only [applyExt, e2, Bind.bind, Except.bind, m1]
            rfl
          · intro J hJ
            obtain ⟨_, hnd, T', eT', kT, eT, hlam⟩ := hhe _ (hle1.typed hhd)
            have hlt : ∀ {t : Term} {T : Term} {x : Nat}, SHasType Kn.toKCtx s1.ctx t T →
                x ∈ args.map (·.1) → t.hasVar x = false := by
              intro t T x ht hx
              cases hv : t.hasVar x with
              | false => rfl
              | true =>
                have h1 := STyped.lt ht hv
                have h2 := hvs _ _ rfl x hx
                omega
            cases eT'
            rw [← hap] at hJ ⊢
            refine applyLam L hs2.good hle (m2.mono .refl hle2) hlam hhd kT eT hnd hJ ?_
            intro x hx
            refine ⟨hlt (hle1.typed hhd) hx, fun y hy => ?_, fun y hy => ?_⟩
            · obtain ⟨_, h1⟩ := hall y hy
              exact hlt (hle1.typed h1) hx
            · obtain ⟨_, h1⟩ := m3 y hy
              exact hlt h1 hx
          · intro args' b'' e x hx
            have := hvs _ _ rfl x (apply_lam_vars e x hx)
            exact Nat.le_trans hle1.length this
      | bind bd A B =>
        cases bd with
        | lam =>
          obtain ⟨C, eC, hA, hb, kA, kC⟩ := ht.lam_inv
          cases eC
          have kT : endsKind (.pi A (Term.ren Nat.succ C)) = false := by
            simp only [endsKind, endsKind_ren]; exact kC
          obtain ⟨args, body, s1, e1, hs1, hle1, hvs, hnd, hsz, hne, hlam, T', hbt, _⟩ :=
            openLams_spec L (Term.lam A B).size s _ _ hs ht kT
          have hne := hne A B rfl (size_pos _)
          have hlen : 0 < args.length := List.length_pos_iff.2 hne
          obtain ⟨be, s2, e2, hs2, hle2, hbe, _⟩ := ih s1 body T' hs1 hbt (by omega)
          have hv := (hbe _ hbt).val L hs2.good .refl hs2.good
          refine ⟨.lam args be.val, s2, ?_, hs2, hle1.trans hle2, ?_, ?_, (fun _ e => by cases e),
            fun _ _ _ => ⟨_, _, rfl⟩⟩
          · have e1' : openLams (Term.bind .lam A B).size s (Term.bind .lam A B) = some (args, body, s1) := e1
            simp only [toExt, hn, e1', orPanic, e2, hv.1, Bind.bind, Except.bind]
            rfl
          · intro J hJ
            have := jdg_unique hJ ht kT
            refine ⟨hne, hnd, _, this, rfl, kT, ?_⟩
            refine hlam.body hle2 (fun U hU => ?_) hv.2.eval
            exact ((hbe _ hU).val L hs2.good .refl hs2.good).2.typed
          · intro args' b' e x hx
            cases e
            exact hvs x hx
        | all =>
          exact ⟨.term (.bind .all A B), s, by simp only [toExt, hn], hs, .refl, fun J hJ => InlAt.refl hJ,
            (fun _ _ e => by cases e), (fun _ e => by cases e), fun _ _ e => by cases e⟩
        | ex =>
          exact ⟨.term (.bind .ex A B), s, by simp only [toExt, hn], hs, .refl, fun J hJ => InlAt.refl hJ,
            (fun _ _ e => by cases e), (fun _ e => by cases e), fun _ _ e => by cases e⟩
        | pi =>
          obtain ⟨U, hU, _⟩ := typeOf_total hs.good ht
          by_cases hUb : U = .boolTy
          · refine ⟨.term ((tryInlineTerm (.bind .pi A B)).getD (.bind .pi A B)), s, ?_, hs, .refl, ?_,
              (fun _ _ e => by cases e), (fun _ e => by cases e), fun _ _ e => by cases e⟩
            · simp only [toExt, hn, hU, if_pos hUb, Bind.bind, Except.bind, tt, ff]
              rfl
            · intro J hJ
              cases hi : tryInlineTerm (.bind .pi A B) with
              | none => exact InlAt.refl hJ
              | some u => exact tryInlineTerm_spec L .refl hi J hJ
          · refine ⟨.term (.bind .pi A B), s, ?_, hs, .refl, fun J hJ => InlAt.refl hJ,
              (fun _ _ e => by cases e), (fun _ e => by cases e), fun _ _ e => by cases e⟩
            simp only [toExt, hn, hU, if_neg hUb, Bind.bind, Except.bind, tt, ff]
            rfl
      | atom a =>
        by_cases h1 : Term.atom a = tt
        · rw [h1] at hn ⊢
          exact ⟨.term tt, s, by simp [toExt, hn, tt], hs, .refl, fun J hJ => InlAt.refl hJ,
            (fun _ _ e => by cases e), (fun _ _ => ⟨_, rfl, rfl⟩), fun _ _ e => by cases e⟩
        by_cases h2 : Term.atom a = ff
        · rw [h2] at hn ⊢
          exact ⟨.term ff, s, by simp [toExt, hn, tt, ff], hs, .refl, fun J hJ => InlAt.refl hJ,
            (fun _ _ e => by cases e), (fun _ _ => ⟨_, rfl, rfl⟩), fun _ _ e => by cases e⟩
        obtain ⟨U, hU, _⟩ := typeOf_total hs.good ht
        by_cases hUb : U = .boolTy
        · refine ⟨.term ((tryInlineTerm (.atom a)).getD (.atom a)), s, ?_, hs, .refl, ?_,
            (fun _ _ e => by cases e), (fun _ _ => ⟨_, rfl, rfl⟩), fun _ _ e => by cases e⟩
          · simp only [toExt, hn, if_neg h1, if_neg h2, hU, if_pos hUb, Bind.bind, Except.bind]
            rfl
          · intro J hJ
            cases hi : tryInlineTerm (.atom a) with
            | none => exact InlAt.refl hJ
            | some u => exact tryInlineTerm_spec L .refl hi J hJ
        · refine ⟨.term (.atom a), s, ?_, hs, .refl, fun J hJ => InlAt.refl hJ,
            (fun _ _ e => by cases e), (fun _ _ => ⟨_, rfl, rfl⟩), fun _ _ e => by cases e⟩
          simp only [toExt, hn, if_neg h1, if_neg h2, hU, if_neg hUb, Bind.bind, Except.bind]
          rfl

/-- `term_to_inline_term` succeeds and keeps the meaning. -/
theorem toInline_spec (L : Lawful Kn.toKCtx M) {m : Nat} {s : St} {t T : Term} (hs : StOk Kn.toKCtx n s)
    (ht : SHasType Kn.toKCtx s.ctx t T) (hm : t.size ≤ m) :
    ∃ u s', toInline Kn m s t = .ok (u, s') ∧ StOk Kn.toKCtx n s' ∧ s.Le s' ∧
      InlAt Kn.toKCtx M s'.ctx t u (.ty T) := by
  cases hi : tryInlineTerm t with
  | some u =>
    exact ⟨u, s, by simp only [toInline, hi], hs, .refl, tryInlineTerm_spec L .refl hi _ ht⟩
  | none =>
    obtain ⟨e, s1, e1, hs1, hle1, he, _⟩ := toExt_spec L m s t T hs ht hm
    have hv := (he _ ht).val L hs1.good .refl hs1.good
    exact ⟨e.val, s1, by simp only [toInline, hi, e1, hv.1, Bind.bind, Except.bind]; rfl, hs1, hle1, hv.2⟩

end Clausify
end Acorn
