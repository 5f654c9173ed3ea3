/-
Quoting terms keeps their meaning.
-/
import Verif.Lemmas.QuoteTypes
import Verif.Lemmas.ValueReplace
import Verif.Lemmas.Normalize
namespace Acorn
namespace Spec

open Elab Term

universe u

/-! ### Spines -/

/-- A function of type `R` can be applied to the arguments, one after the other, with a result of type `T`. -/
inductive SSpine (K : KCtx) (Γ : LCtx) : Term → List Term → Term → Prop
  | nil {R} : SSpine K Γ R [] R
  | val {A B a as T} : SHasType K Γ a A → endsKind A = false → endsKind B = false → SSpine K Γ B as T →
      SSpine K Γ (.pi A (Term.ren Nat.succ B)) (a :: as) T
  | ty {A B a as T} : SHasType K Γ a A → endsKind A = true → SSpine K Γ (Term.inst 0 a B) as T →
      SSpine K Γ (.pi A B) (a :: as) T

theorem SSpine.append {K : KCtx} {Γ : LCtx} {R T U : Term} {as bs : List Term} (h : SSpine K Γ R as T)
    (h' : SSpine K Γ T bs U) : SSpine K Γ R (as ++ bs) U := by
  induction h with
  | nil => exact h'
  | val h1 h2 h3 _ ih => exact .val h1 h2 h3 (ih h')
  | ty h1 h2 _ ih => exact .ty h1 h2 (ih h')

/-- The first argument, when it is a value. -/
theorem SSpine.val_inv {K : KCtx} {Γ : LCtx} {A B T a : Term} {as : List Term} (h : SSpine K Γ (.pi A B) (a :: as) T)
    (hA : endsKind A = false) : SHasType K Γ a A ∧ SSpine K Γ (Term.inst 0 a B) as T := by
  generalize hR : Term.pi A B = R at h
  cases h with
  | val h1 h2 h3 h4 => cases hR; exact ⟨h1, by rw [inst_up]; exact h4⟩
  | ty h1 h2 h3 => cases hR; rw [hA] at h2; cases h2

/-- The first argument, when it is a type. -/
theorem SSpine.ty_inv {K : KCtx} {Γ : LCtx} {A B T a : Term} {as : List Term} (h : SSpine K Γ (.pi A B) (a :: as) T)
    (hA : endsKind A = true) : SHasType K Γ a A ∧ SSpine K Γ (Term.inst 0 a B) as T := by
  generalize hR : Term.pi A B = R at h
  cases h with
  | val h1 h2 h3 h4 => cases hR; rw [hA] at h2; cases h2
  | ty h1 h2 h3 => cases hR; exact ⟨h1, h3⟩

theorem endsKind_of_inst {a B : Term} (h : endsKind (Term.inst 0 a B) = false) : endsKind B = false := by
  cases e : endsKind B with
  | false => rfl
  | true =>
    rw [inst_zero_eq, endsKind_sub_true _ _ e] at h
    cases h

theorem STyped.spine {K : KCtx} {Γ : LCtx} : ∀ {t T : Term}, SHasType K Γ t T → endsKind T = false →
    ∃ R, SHasType K Γ t.spineHead R ∧ endsKind R = false ∧ SSpine K Γ R t.args T
  | .atom _, T, h, hT => ⟨T, h, hT, .nil⟩
  | .bind _ _ _, T, h, hT => ⟨T, h, hT, .nil⟩
  | .app f a, T, h, hT => by
    rcases h.app_inv with ⟨A, B, e, hf, ha, kA, kB⟩ | ⟨A, B, hf, ha, kA, e⟩
    · cases e
      obtain ⟨R, h1, h2, h3⟩ := STyped.spine hf (by simp only [endsKind, endsKind_ren, kB])
      exact ⟨R, h1, h2, h3.append (.val ha kA kB .nil)⟩
    · rcases e with e | ⟨_, e | ⟨T', e, hk⟩⟩
      · cases e
        obtain ⟨R, h1, h2, h3⟩ := STyped.spine hf (show endsKind B = false from endsKind_of_inst hT)
        exact ⟨R, h1, h2, h3.append (.ty ha kA .nil)⟩
      · cases e
      · cases e
        rw [endsKind_of_isKind hk] at hT
        cases hT

theorem STyped.fvar_value {K : KCtx} {Γ : LCtx} {Δ : BCtx} {i : Nat} {T : Term} (h : STyped K Γ Δ (.fvar i) (.ty T))
    (hT : endsKind T = false) : Γ.get i = some T := by
  generalize ht : Term.fvar i = t at h
  generalize hJ : Jdg.ty T = J at h
  cases h with
  | fvar h1 _ => cases ht; cases hJ; exact h1
  | _ => first | (cases ht; done) | (cases hJ; cases hT; done) | (cases hJ; done)

theorem STyped.sym_value {K : KCtx} {Γ : LCtx} {Δ : BCtx} {s : Symbol} {T : Term} (h : STyped K Γ Δ (.sym s) (.ty T))
    (hT : endsKind T = false) : K.symbolType s = some T ∧ isKindSym s = false := by
  generalize ht : Term.sym s = t at h
  generalize hJ : Jdg.ty T = J at h
  cases h with
  | sym h0 h1 _ => cases ht; cases hJ; exact ⟨h1, h0⟩
  | _ => first | (cases ht; done) | (cases hJ; cases hT; done) | (cases hJ; done)

/-! ### Reducing at the head -/

theorem reduceHead_spec {K : KCtx} {M : Interp.{u}} (h : Lawful K M) {N : Names} {Γ : LCtx} {ρ : Nat → M.D}
    (hρ : Models M Γ ρ) : ∀ {t t' T : Term} {n : Nat}, SHasType K Γ t T → endsKind T = false → Quotable K N n t →
    reduceHead t = some t' →
    SHasType K Γ t' T ∧ Quotable K N n t' ∧ ∀ β, eval M ρ β t' = eval M ρ β t
  | .app f a, t', T, n, ht, hT, hq, e => by
    by_cases hl : ∃ A b, f = .lam A b
    · obtain ⟨A, b, rfl⟩ := hl
      simp only [reduceHead, openBound_eq, Option.some.injEq] at e
      subst e
      have := Same.beta h hρ ht
      exact ⟨this.typed, hq.2.inst 0 (hq.1.2.mono (Nat.zero_le _)), fun β => this.eval β bmodels_nil⟩
    · have e' : (reduceHead f).map (fun f' => Term.app f' a) = some t' := by
        rw [← e]
        match f, hl with
        | .atom _, _ => rfl
        | .app _ _, _ => rfl
        | .bind .lam A b, hl => exact absurd ⟨_, _, rfl⟩ hl
        | .bind .pi _ _, _ => rfl
        | .bind .all _ _, _ => rfl
        | .bind .ex _ _, _ => rfl
      obtain ⟨f', hf', rfl⟩ := Option.map_eq_some_iff.1 e'
      rcases ht.app_inv with ⟨A, B, e, hf, ha, kA, kB⟩ | ⟨A, B, hf, ha, kA, e⟩
      · cases e
        obtain ⟨h1, h2, h3⟩ := reduceHead_spec h hρ hf (by simp only [endsKind, endsKind_ren, kB]) hq.1 hf'
        exact ⟨.appVal h1 ha kA kB, ⟨h2, hq.2⟩, fun β => by simp only [eval, h3]⟩
      · rcases e with e | ⟨_, e | ⟨T', e, hk⟩⟩
        · cases e
          obtain ⟨h1, h2, h3⟩ := reduceHead_spec h hρ hf (show endsKind B = false from endsKind_of_inst hT) hq.1 hf'
          exact ⟨.appTy h1 ha kA, ⟨h2, hq.2⟩, fun β => by simp only [eval, h3]⟩
        · cases e
        · cases e
          rw [endsKind_of_isKind hk] at hT
          cases hT
  | .atom _, _, _, _, _, _, _, e => by cases e
  | .bind _ _ _, _, _, _, _, _, _, e => by cases e

/-! ### The stack -/

theorem nextIndex_append (m : List (Option Nat)) (j : Nat) (hj : ∀ i ∈ m, ∀ k, i = some k → k < j) :
    nextIndex (m ++ [some j]) = j + 1 := by
  unfold nextIndex
  induction m with
  | nil => rfl
  | cons o m ih =>
    simp only [List.cons_append, List.foldr_cons]
    rw [ih fun i hi => hj i (by simp [hi])]
    cases o with
    | none => simp
    | some k => have := hj (some k) (by simp) k rfl; simp only [Option.elim]; omega

theorem nextIndex_lt {m : List (Option Nat)} : ∀ i ∈ m, ∀ k, i = some k → k < nextIndex m := by
  unfold nextIndex
  induction m with
  | nil => intro i hi; simp at hi
  | cons o m ih =>
    intro i hi k hk
    simp only [List.foldr_cons]
    rcases List.mem_cons.1 hi with rfl | hi
    · subst hk; simp only [Option.elim]; omega
    · have := ih i hi k hk; omega

theorem extend_eq {Γ : LCtx} {m : List (Option Nat)} (hm : m.length = Γ.length) :
    Remap.extend Γ.length (some m) = some (m ++ [some (nextIndex m)]) := by
  show some ((m ++ List.replicate (Γ.length + 1 - m.length) none).set Γ.length (some (nextIndex m))) = _
  rw [← hm, Nat.add_sub_cancel_left, List.set_append_right _ _ (Nat.le_refl _)]
  simp

theorem StackOk.push {D : Type u} {Γ : LCtx} {rm : Remap} {env : List D} {ρ ρ' : Nat → D} {A : Term} {d : D}
    (h : StackOk Γ rm env ρ) (hd : ρ' Γ.length = d) (hρ : ∀ i, i < Γ.length → ρ' i = ρ i) :
    StackOk (Γ.pushTy A) (rm.extend Γ.length) (env ++ [d]) ρ' := by
  have hl : (Γ.pushTy A).length = Γ.length + 1 := by simp [LCtx.pushTy]
  cases rm with
  | none =>
    have hs : Γ.length = env.length := h.size
    refine ⟨by simp only [Remap.extend, visibleSize, hl, hs, List.length_append, List.length_singleton], ?_,
      fun m e => by cases e⟩
    intro i j hi hj
    simp only [Remap.extend, Remap.index, Option.some.injEq] at hj
    subst hj
    by_cases hi' : i < Γ.length
    · rw [List.getElem?_append_left (by omega), hρ i hi']
      exact h.get i i hi' rfl
    · have : i = Γ.length := by omega
      subst this
      rw [hs, List.getElem?_append_right (Nat.le_refl _), ← hd, hs]
      simp
  | some m =>
    have hm := h.length m rfl
    have hs : nextIndex m = env.length := h.size
    rw [extend_eq hm]
    refine ⟨?_, ?_, fun m' e => by cases e; simp [hm, hl]⟩
    · simp only [visibleSize, List.length_append, List.length_singleton]
      rw [nextIndex_append _ _ nextIndex_lt, hs]
    · intro i j hi hj
      by_cases hi' : i < Γ.length
      · have hj' : Remap.index i (some m) = some j := by
          simp only [Remap.index] at hj ⊢
          rwa [List.getElem?_append_left (by omega)] at hj
        have := h.get i j hi' hj'
        rw [List.getElem?_append_left (List.getElem?_eq_some_iff.1 this).1, hρ i hi']
        exact this
      · have : i = m.length := by omega
        subst this
        simp only [Remap.index] at hj
        rw [List.getElem?_append_right (Nat.le_refl _)] at hj
        simp only [Nat.sub_self, List.getElem?_cons_zero] at hj
        cases hj
        rw [hs, List.getElem?_append_right (Nat.le_refl _), ← hd, hm]
        simp

/-- What holds of the context, the stack and the assignment while quoting. -/
structure Here (M : Interp.{u}) (θ : String → M.D) (tn : Nat → Option String) (Γ : LCtx) (rm : Remap)
    (env : List M.D) (ρ : Nat → M.D) : Prop where
  ctx : CtxOk Γ
  simple : SimpleVars Γ
  models : Models M Γ ρ
  stack : StackOk Γ rm env ρ
  types : ∀ i T, Γ.get i = some T → isKind T = true → θ (varName tn i) = ρ i

theorem Here.push {K : KCtx} {M : Interp.{u}} {θ : String → M.D} {tn : Nat → Option String} {Γ : LCtx} {rm : Remap}
    {env : List M.D} {ρ : Nat → M.D} (h : Here M θ tn Γ rm env ρ) {A : Term} (hA : STyped K Γ BCtx.nil A .isTy)
    (kA : noKinds A = true) {d : M.D} {β : Nat → M.D} (hd : M.mem d (eval M ρ β A)) :
    Here M θ tn (Γ.pushTy A) (rm.extend Γ.length) (env ++ [d]) (setAt ρ Γ.length d) := by
  refine ⟨h.ctx.push (isTy_closed hA) (Typed.fscoped h.ctx hA.typed (by intro i T hi; cases hi)).1, ?_, models_push h.ctx hA h.models hd,
    h.stack.push (by simp [setAt]) (fun i hi => by simp only [setAt]; rw [if_neg (by omega)]), ?_⟩
  · intro i T hi
    rcases get_pushTy_inv hi with h1 | ⟨rfl, rfl⟩
    · exact h.simple i T h1
    · exact .inr kA
  · intro i T hi hT
    rcases get_pushTy_inv hi with h1 | ⟨rfl, rfl⟩
    · have := get_lt h1
      simp only [setAt]
      rw [if_neg (by omega)]
      exact h.types i T h1 hT
    · rw [noKinds_isKind kA] at hT; cases hT

/-! ### Meanings of the pieces -/

section
variable {F : Frame.{u}} {C : String → List F.T → F.D} {θ : String → F.T}

theorem stackVars_eq : ∀ (ts : List Ty) (n : Nat), stackVars n ts = varsFrom n ts
  | [], _ => rfl
  | t :: ts, n => by simp only [stackVars, varsFrom, stackVars_eq ts]

theorem den_padArgs (env xs : List F.D) (missing : List Ty) (vals : List Value) (hx : xs.length = missing.length) :
    F.denAll C θ (env ++ xs) (padArgs env.length missing vals) = F.denAll C θ env vals ++ xs := by
  unfold padArgs
  have happ : ∀ (us vs : List Value) (e : List F.D), F.denAll C θ e (us ++ vs) = F.denAll C θ e us ++ F.denAll C θ e vs := by
    intro us vs e
    induction us with
    | nil => rfl
    | cons u us ih => simp only [List.cons_append, Frame.denAll, ih]
  rw [happ, stackVars_eq, denAll_vars θ _ _ _ hx, ← hx]
  have := den_insertStackAll (C := C) θ env xs [] vals
  rw [List.append_nil, List.append_nil] at this
  rw [this]

/-- A function that is given its remaining arguments by a lambda. -/
theorem eta_rest : ∀ {vals : List F.D} {ts : List F.T} {r : F.T} {g : F.D} {k : List F.D → F.D},
    F.mem g (F.fnN ts r) → (∀ xs, F.Fits xs ts → k xs = F.appN g xs) → F.Fits vals (ts.take vals.length) →
    F.lamN (ts.drop vals.length) (fun xs => k (vals ++ xs)) = F.appN g vals
  | [], ts, r, g, k, hg, hk, _ => by
    simp only [List.length_nil, List.drop_zero, List.nil_append]
    exact lamN_head hg hk
  | v :: vals, [], r, g, k, hg, hk, hv => hv.elim
  | v :: vals, t :: ts, r, g, k, hg, hk, hv => by
    simp only [List.length_cons, List.drop_succ_cons, List.cons_append]
    exact eta_rest (k := fun xs => k (v :: xs)) (F.mem_app _ _ _ _ hg hv.1)
      (fun xs hxs => hk (v :: xs) ⟨hv.1, hxs⟩) hv.2

theorem den_pad {env : List F.D} {missing : List Ty} {vals parts : List Value} {body : Value} {ts : List F.T} {r : F.T}
    {g : F.D} {k : List F.D → F.D} (hp : padArgs env.length missing vals = parts)
    (hb : ∀ xs, F.den C θ (env ++ xs) body = k (F.denAll C θ (env ++ xs) parts))
    (ht : F.tys θ missing = ts.drop vals.length) (hg : F.mem g (F.fnN ts r))
    (hk : ∀ xs, F.Fits xs ts → k xs = F.appN g xs)
    (hv : F.Fits (F.denAll C θ env vals) (ts.take vals.length)) :
    F.den C θ env (Value.mkLam missing body) = F.appN g (F.denAll C θ env vals) := by
  have hl := denAll_length (C := C) θ env vals
  rw [den_mkLam, ← eta_rest hg hk (by rw [hl]; exact hv), ht, hl]
  refine lamN_congr fun xs hxs => ?_
  rw [hb, ← hp, den_padArgs]
  rw [Fits.length hxs, ← ht, tys_length]

theorem den_merge_lam (env : List F.D) (a : Ty) (v : Value) :
    F.den C θ env (mergeLam a v) =
      F.lam (F.ty θ a) fun x => F.den C θ (env ++ [x]) v := by
  unfold mergeLam
  split
  · simp only [Frame.den, Frame.tys, Frame.lamN, List.append_assoc, List.cons_append, List.nil_append]
  · simp only [Frame.den, Frame.tys, Frame.lamN]

theorem den_merge_all (env : List F.D) (a : Ty) (v : Value) :
    F.den C θ env (mergeAll a v) =
      F.ofProp (∀ x, F.mem x (F.ty θ a) → F.den C θ (env ++ [x]) v = F.tt) := by
  have one : ∀ w, F.den C θ env (.all [a] w) =
      F.ofProp (∀ x, F.mem x (F.ty θ a) → F.den C θ (env ++ [x]) w = F.tt) := by
    intro w
    refine ofProp_congr ⟨fun h x hx => h [x] ⟨hx, trivial⟩, fun h xs hxs => ?_⟩
    obtain ⟨x, rfl, hx⟩ := fits_one hxs
    exact h x hx
  unfold mergeAll
  split
  · rename_i ts w
    refine ofProp_congr ⟨fun h x hx => ofProp_tt.2 fun xs hxs => ?_, fun h xs hxs => ?_⟩
    · have := h (x :: xs) ⟨hx, hxs⟩
      simpa only [List.append_assoc, List.cons_append, List.nil_append] using this
    · cases xs with
      | nil => exact hxs.elim
      | cons x xs =>
        have := ofProp_tt.1 (h x hxs.1) xs hxs.2
        simpa only [List.append_assoc, List.cons_append, List.nil_append] using this
  · exact one _

theorem den_merge_ex (env : List F.D) (a : Ty) (v : Value) :
    F.den C θ env (mergeEx a v) =
      F.ofProp (∃ x, F.mem x (F.ty θ a) ∧ F.den C θ (env ++ [x]) v = F.tt) := by
  have one : ∀ w, F.den C θ env (.ex [a] w) =
      F.ofProp (∃ x, F.mem x (F.ty θ a) ∧ F.den C θ (env ++ [x]) w = F.tt) := by
    intro w
    refine ofProp_congr ⟨fun ⟨xs, hxs, h⟩ => ?_, fun ⟨x, hx, h⟩ => ⟨[x], ⟨hx, trivial⟩, h⟩⟩
    obtain ⟨x, rfl, hx⟩ := fits_one hxs
    exact ⟨x, hx, h⟩
  unfold mergeEx
  split
  · rename_i ts w
    refine ofProp_congr ⟨fun ⟨xs, hxs, h⟩ => ?_, fun ⟨x, hx, h⟩ => ?_⟩
    · cases xs with
      | nil => exact hxs.elim
      | cons x xs =>
        refine ⟨x, hxs.1, ofProp_tt.2 ⟨xs, hxs.2, ?_⟩⟩
        simpa only [List.append_assoc, List.cons_append, List.nil_append] using h
    · obtain ⟨xs, hxs, h⟩ := ofProp_tt.1 h
      refine ⟨x :: xs, ⟨hx, hxs⟩, ?_⟩
      simpa only [List.append_assoc, List.cons_append, List.nil_append] using h
  · exact one _

end

/-! ### Logical operations -/

section
variable {K : KCtx} {M : Interp.{u}} (h : Lawful K M) (L : Tables) {C : String → List M.D → M.D} {θ : String → M.D}
  {env : List M.D}

theorem replicate_tys (F : Frame.{u}) (θ : String → F.T) (n : Nat) (t : Ty) :
    F.tys θ (List.replicate n t) = List.replicate n (F.ty θ t) := by
  induction n with
  | zero => rfl
  | succ n ih => simp only [List.replicate_succ, Frame.tys, ih]

open Classical in
/-- The quoted form of a logical operation means the operation applied to the meanings of the arguments. -/
theorem logical_den {s : Symbol} {tys : List Ty} {vals : List Value} {v : Value}
    (e : quoteLogical env.length s tys vals = some v) {ts : List M.D} {r g : M.D}
    (hg : M.mem g ((kernelFrame h L).fnN ts r))
    (hs : (s = .not_ ∧ ts = [vbool M] ∧ g = M.sym .not_) ∨
      (s = .and_ ∧ ts = [vbool M, vbool M] ∧ g = M.sym .and_) ∨
      (s = .or_ ∧ ts = [vbool M, vbool M] ∧ g = M.sym .or_) ∨
      (∃ T t, s = .eq_ ∧ tys = [t] ∧ (kernelFrame h L).ty θ t = T ∧ M.mem T (vtype0 M) ∧ ts = [T, T] ∧
        g = M.app (M.sym .eq_) T) ∨
      (∃ T t, s = .ite_ ∧ tys = [t] ∧ (kernelFrame h L).ty θ t = T ∧ M.mem T (vtype0 M) ∧ ts = [vbool M, T, T] ∧
        g = M.app (M.sym .ite_) T))
    (hv : (kernelFrame h L).Fits ((kernelFrame h L).denAll C θ env vals) (ts.take vals.length)) :
    (kernelFrame h L).den C θ env v = (kernelFrame h L).appN g ((kernelFrame h L).denAll C θ env vals) := by
  have hlen : ((kernelFrame h L).denAll C θ env vals).length = vals.length := denAll_length (F := kernelFrame h L) θ env vals
  have hx : ∀ {xs : List M.D} {mt : List Ty} , (kernelFrame h L).Fits xs ((kernelFrame h L).tys θ mt) →
      xs.length = mt.length := fun hf => by rw [Fits.length hf, tys_length]
  rcases hs with ⟨rfl, rfl, rfl⟩ | ⟨rfl, rfl, rfl⟩ | ⟨rfl, rfl, rfl⟩ | ⟨T, t, rfl, rfl, hT, hT', rfl, rfl⟩ | ⟨T, t, rfl, rfl, hT, hT', rfl, rfl⟩
  · unfold quoteLogical at e
    split at e <;> try contradiction
    · rename_i a heq
      cases e
      exact (not_den h L hv.1).symm
    · cases e
      rw [den_mkLam]
      refine lamN_head hg fun xs hxs => ?_
      obtain ⟨x, rfl, hx⟩ := fits_one hxs
      refine Eq.trans ?_ (not_den h L hx).symm
      simp [Frame.den]
  · rcases tys with _ | ⟨_, _⟩
    rotate_left
    · simp only [quoteLogical] at e; cases e
    simp only [quoteLogical] at e
    split at e <;> try contradiction
    rename_i a b hp
    cases e
    refine den_pad (F := kernelFrame h L) hp (k := fun xs => (kernelFrame h L).ofProp (xs.getD 0 (vtt M) = vtt M ∧
      xs.getD 1 (vtt M) = vtt M)) (fun xs => rfl) ?_ hg (fun xs hxs => ?_) hv
    · rw [replicate_tys]
      rcases vals with _ | ⟨_, _ | ⟨_, _⟩⟩ <;> simp [Frame.ty]
    · obtain ⟨x, y, rfl, hx, hy⟩ := fits_two hxs
      exact (and_den h L hx hy).symm
  · rcases tys with _ | ⟨_, _⟩
    rotate_left
    · simp only [quoteLogical] at e; cases e
    simp only [quoteLogical] at e
    split at e <;> try contradiction
    rename_i a b hp
    cases e
    refine den_pad (F := kernelFrame h L) hp (k := fun xs => (kernelFrame h L).ofProp (xs.getD 0 (vtt M) = vtt M ∨
      xs.getD 1 (vtt M) = vtt M)) (fun xs => rfl) ?_ hg (fun xs hxs => ?_) hv
    · rw [replicate_tys]
      rcases vals with _ | ⟨_, _ | ⟨_, _⟩⟩ <;> simp [Frame.ty]
    · obtain ⟨x, y, rfl, hx, hy⟩ := fits_two hxs
      exact (or_den h L hx hy).symm
  · simp only [quoteLogical] at e
    split at e <;> try contradiction
    rename_i a b hp
    cases e
    refine den_pad (F := kernelFrame h L) hp (k := fun xs => (kernelFrame h L).ofProp (xs.getD 0 (vtt M) =
      xs.getD 1 (vtt M))) (fun xs => rfl) ?_ hg (fun xs hxs => ?_) hv
    · rw [replicate_tys, hT]
      rcases vals with _ | ⟨_, _ | ⟨_, _⟩⟩ <;> simp
    · obtain ⟨x, y, rfl, hx, hy⟩ := fits_two hxs
      exact (eq_den h L hT' hx hy).symm
  · simp only [quoteLogical] at e
    split at e <;> try contradiction
    rename_i a b c hp
    cases e
    refine den_pad (F := kernelFrame h L) hp (k := fun xs => if xs.getD 0 (vtt M) = vtt M then xs.getD 1 (vtt M) else
      xs.getD 2 (vtt M)) (fun xs => rfl) ?_ hg (fun xs hxs => ?_) hv
    · rcases vals with _ | ⟨_, _ | ⟨_, _ | ⟨_, _⟩⟩⟩ <;> simp [Frame.tys, Frame.ty, hT]
    · obtain ⟨x, y, z, rfl, hx, hy, hz⟩ := fits_three hxs
      exact (ite_den h hT' hx hy hz).symm
end

theorem padArgs_length (n : Nat) (missing : List Ty) (vals : List Value) :
    (padArgs n missing vals).length = vals.length + missing.length := by
  have h1 : ∀ vals : List Value, (Value.insertStackAll n missing.length vals).length = vals.length := by
    intro vals
    induction vals with
    | nil => rfl
    | cons v vals ih => simp only [Value.insertStackAll, List.length_cons, ih]
  have h2 : ∀ (ts : List Ty) (n : Nat), (stackVars n ts).length = ts.length := by
    intro ts
    induction ts with
    | nil => intro n; rfl
    | cons t ts ih => intro n; simp only [stackVars, List.length_cons, ih]
  simp only [padArgs, List.length_append, h1, h2]

/-- How many values an operation takes. -/
def valueArity : Symbol → Nat
  | .not_ => 1
  | .and_ => 2
  | .or_ => 2
  | .eq_ => 2
  | .ite_ => 3
  | _ => 0

theorem quoteLogical_length {n : Nat} {s : Symbol} {tys : List Ty} {vals : List Value} {v : Value}
    (e : quoteLogical n s tys vals = some v) : vals.length ≤ valueArity s ∧
      (s = .eq_ ∨ s = .ite_ → ∃ t, tys = [t]) := by
  unfold quoteLogical at e
  split at e
  · simp [valueArity]
  · simp [valueArity]
  · split at e
    · rename_i hp
      have := congrArg List.length hp
      rw [padArgs_length] at this
      simp only [List.length_replicate, List.length_cons, List.length_nil] at this
      exact ⟨by simp only [valueArity]; omega, by simp⟩
    · cases e
  · split at e
    · rename_i hp
      have := congrArg List.length hp
      rw [padArgs_length] at this
      simp only [List.length_replicate, List.length_cons, List.length_nil] at this
      exact ⟨by simp only [valueArity]; omega, by simp⟩
    · cases e
  · split at e
    · rename_i hp
      have := congrArg List.length hp
      rw [padArgs_length] at this
      simp only [List.length_replicate, List.length_cons, List.length_nil] at this
      exact ⟨by simp only [valueArity]; omega, fun _ => ⟨_, rfl⟩⟩
    · cases e
  · split at e
    · rename_i hp
      have := congrArg List.length hp
      rw [padArgs_length] at this
      simp only [List.length_drop, List.length_cons, List.length_nil] at this
      exact ⟨by simp only [valueArity]; omega, fun _ => ⟨_, rfl⟩⟩
    · cases e
  · cases e

theorem SmallType.up {K : KCtx} {Γ : LCtx} {T : Term} (h : SmallType K Γ T) : ∀ c n, Term.up c n T = T := by
  have hap : ∀ (c n : Nat) (as : List Term) (f : Term),
      Term.up c n (f.apply as) = (Term.up c n f).apply (as.map (Term.up c n)) := by
    intro c n as
    induction as with
    | nil => intro f; rfl
    | cons a as ih => intro f; exact ih (.app f a)
  induction h with
  | bool => intro c n; rfl
  | var _ _ => intro c n; rfl
  | data hl has ih =>
    intro c n
    rw [hap]
    congr 1
    exact (List.map_congr_left fun x hx => ih x hx c n).trans (List.map_id _)
  | pi _ _ ihA ihB => intro c n; simp only [Term.up, ihA, ihB]

/-- The values given to a function of values are of the types it asks for. -/
theorem SSpine.fits {K : KCtx} {M : Interp.{u}} (h : Lawful K M) (L : Tables) {Γ : LCtx} {ρ : Nat → M.D}
    (hρ : Models M Γ ρ) (β : Nat → M.D) : ∀ {ts : List Term} {r T : Term} {args : List Term},
    (∀ t ∈ ts, ∀ a d, Term.inst d a t = t) → (∀ a d, Term.inst d a r = r) → (∀ t ∈ ts, endsKind t = false) →
    args.length ≤ ts.length → SSpine K Γ (ts.foldr Term.pi r) args T →
    (kernelFrame h L).Fits (args.map (eval M ρ β)) ((ts.map (eval M ρ β)).take args.length)
  | ts, r, T, [], _, _, _, _, _ => trivial
  | [], r, T, a :: args, _, _, _, hl, _ => by simp at hl
  | t :: ts, r, T, a :: args, h1, h2, h3, hl, hs => by
    obtain ⟨ha, hs'⟩ := hs.val_inv (h3 t (by simp))
    have hi : ∀ (ts : List Term) (d : Nat), (∀ t ∈ ts, ∀ a d, Term.inst d a t = t) →
        Term.inst d a (ts.foldr Term.pi r) = ts.foldr Term.pi r := by
      intro ts
      induction ts with
      | nil => intro d _; exact h2 a d
      | cons t ts ih =>
        intro d ht
        simp only [List.foldr_cons, Term.inst, ht t (by simp), ih _ fun t' ht' => ht t' (by simp [ht'])]
    rw [show (ts.foldr Term.pi r) = ts.foldr Term.pi r from rfl, hi ts 0 fun t ht => h1 t (by simp [ht])] at hs'
    exact ⟨ha.val_mem h hρ bmodels_nil, SSpine.fits h L hρ β (fun t ht => h1 t (by simp [ht])) h2
      (fun t ht => h3 t (by simp [ht])) (by simpa using hl) hs'⟩

theorem quotable_spine {K : KCtx} {N : Names} : ∀ {t : Term} {n : Nat}, Quotable K N n t →
    Quotable K N (n + t.args.length) t.spineHead ∧ ∀ a ∈ t.args, Quotable K N 0 a
  | .atom _, n, h => ⟨h, by simp [Term.args]⟩
  | .bind _ _ _, n, h => ⟨h, by simp [Term.args]⟩
  | .app f a, n, h => by
    obtain ⟨h1, h2⟩ := quotable_spine h.1
    refine ⟨?_, ?_⟩
    · simp only [Term.args, Term.spineHead, List.length_append, List.length_singleton]
      rw [show n + (f.args.length + 1) = n + 1 + f.args.length by omega]
      exact h1
    · intro b hb
      simp only [Term.args, List.mem_append, List.mem_singleton] at hb
      rcases hb with hb | rfl
      · exact h2 b hb
      · exact h.2

/-! ### Terms -/

section
variable {K : KCtx} {M : Interp.{u}} (h : Lawful K M) (L : Tables) {N : Names} {θ : String → M.D}
  {tn : Nat → Option String}

theorem finishConst_den (I : Inverse K M L N θ) {s : Symbol} {R : Term} {k n : Nat} {tys : List Ty} {vals : List Value} {v : Value}
    {env : List M.D} (hR : K.symbolType s = some R) (kR : endsKind R = false) (hl : isLogical s = false)
    (h1 : s ≠ .true_) (h2 : s ≠ .false_) (he : N.eliminator (N.const s) = none) (ht : tys.length = kindArity R)
    (e : finishConst K N k n s tys vals = some v) :
    (kernelFrame h L).den (constMeaning M L) θ env v =
      (kernelFrame h L).appN ((kernelFrame h L).appN (M.sym s) ((kernelFrame h L).tys θ tys))
        ((kernelFrame h L).denAll (constMeaning M L) θ env vals) := by
  obtain ⟨h3, h4⟩ := I.const s R hR kR hl h1 h2
  simp only [finishConst, he, Option.bind_eq_bind, Option.pure_def] at e
  obtain ⟨c, hc, e⟩ := Option.bind_eq_some_iff.1 e
  cases e
  rw [den_apply]
  congr 1
  have hm : ∀ ts, constMeaning M L (N.const s) ts = ts.foldl M.app (M.sym s) := by
    intro ts; simp only [constMeaning, h3]
  simp only [quoteConst] at hc
  split at hc
  · rename_i names g hp
    rw [hp] at h4
    split at hc
    · rename_i hemp
      cases hc
      have : tys = [] := by simpa using hemp
      subst this
      exact hm _
    · cases hc
      simp only [Frame.den]
      rw [List.take_of_length_le (by simp only at h4; omega)]
      exact hm _
  · rename_i hp
    rw [hp] at h4
    simp only at h4
    have : tys = [] := List.length_eq_zero_iff.1 (by omega)
    subst this
    simp only [Option.bind_eq_bind, Option.pure_def] at hc
    obtain ⟨T, _, hc⟩ := Option.bind_eq_some_iff.1 hc
    obtain ⟨t, _, hc⟩ := Option.bind_eq_some_iff.1 hc
    cases hc
    exact hm _

/-- The values that logical operations are applied to. -/
theorem logical_spine (hK : Prenex K) {Γ : LCtx} {ρ β : Nat → M.D} (hΓ : SimpleVars Γ) (hρ : Models M Γ ρ) {s : Symbol}
    {R T : Term} {targs vargs : List Term} (hl : isLogical s = true) (hR : K.symbolType s = some R)
    (hsp : SSpine K Γ R (targs ++ vargs) T) (hn : targs.length = kindArity R)
    (hq : ∀ a ∈ targs ++ vargs, Quotable K N 0 a) {tys : List Ty}
    (htys : (kernelFrame h L).tys θ tys = targs.map (eval M ρ β)) (hlen : vargs.length ≤ valueArity s) :
    ∃ (ts : List M.D) (r g : M.D), M.mem g ((kernelFrame h L).fnN ts r) ∧
      g = (targs.map (eval M ρ β)).foldl M.app (M.sym s) ∧
      (kernelFrame h L).Fits (vargs.map (eval M ρ β)) (ts.take vargs.length) ∧
      ((s = .not_ ∧ ts = [vbool M] ∧ g = M.sym .not_) ∨
      (s = .and_ ∧ ts = [vbool M, vbool M] ∧ g = M.sym .and_) ∨
      (s = .or_ ∧ ts = [vbool M, vbool M] ∧ g = M.sym .or_) ∨
      (∃ T t, s = .eq_ ∧ tys = [t] ∧ (kernelFrame h L).ty θ t = T ∧ M.mem T (vtype0 M) ∧ ts = [T, T] ∧
        g = M.app (M.sym .eq_) T) ∨
      (∃ T t, s = .ite_ ∧ tys = [t] ∧ (kernelFrame h L).ty θ t = T ∧ M.mem T (vtype0 M) ∧ ts = [vbool M, T, T] ∧
        g = M.app (M.sym .ite_) T)) := by
  have hb1 : ∀ t ∈ [Term.boolTy], ∀ a d, Term.inst d a t = t := by simp [Term.inst]
  have hb2 : ∀ t ∈ [Term.boolTy, Term.boolTy], ∀ a d, Term.inst d a t = t := by simp [Term.inst]
  have one : ∀ {A : Term}, targs = [A] → ∃ t, tys = [t] ∧ (kernelFrame h L).ty θ t = eval M ρ β A := by
    rintro A rfl
    rcases tys with _ | ⟨t, _ | ⟨_, _⟩⟩
    · cases htys
    · simp only [Frame.tys, List.map_cons, List.map_nil, List.cons.injEq, and_true] at htys
      exact ⟨t, rfl, htys⟩
    · simp only [Frame.tys, List.map_cons, List.map_nil] at htys
      exact absurd (congrArg List.length htys) (by simp)
  have symT : ∀ {R : Term}, isKindSym s = false → K.symbolType s = some R → R.Ground → M.mem (M.sym s) (eval M ρ β R) :=
    fun h1 h2 h3 => h.sym_type s _ h1 h2 h3 ρ β
  have gr : ∀ {t : Term}, t.escapes = false → t.hasAnyVar = false → t.Ground := by
    intro t h1 h2
    refine ⟨h1, fun i => ?_⟩
    simp only [hasAnyVar, List.any_eq_false] at h2
    simp only [hasVar, List.any_eq_false]
    intro x hx
    have := h2 x hx
    cases x <;> simp_all
  have small : ∀ {A : Term}, SHasType K Γ A .type0 → Quotable K N 0 A → SmallType K Γ A := fun hA hqA =>
    ((hA.shape hK hΓ (by intro i T hi; cases hi) hqA.noKinds).1 _ rfl rfl).small rfl
  cases s <;> try (cases hl; done)
  · cases hR
    have : targs = [] := List.length_eq_zero_iff.1 hn
    subst this
    refine ⟨[vbool M], vbool M, M.sym .not_, symT rfl rfl (gr rfl rfl), rfl, ?_, .inl ⟨rfl, rfl, rfl⟩⟩
    exact hsp.fits h L hρ β (ts := [.boolTy]) (r := .boolTy) hb1 (by simp [Term.inst]) (by simp [endsKind, isKindSym]) hlen
  · cases hR
    have : targs = [] := List.length_eq_zero_iff.1 hn
    subst this
    refine ⟨[vbool M, vbool M], vbool M, M.sym .and_, symT rfl rfl (gr rfl rfl), rfl, ?_, .inr (.inl ⟨rfl, rfl, rfl⟩)⟩
    exact hsp.fits h L hρ β (ts := [.boolTy, .boolTy]) (r := .boolTy) hb2 (by simp [Term.inst])
      (by simp [endsKind, isKindSym]) hlen
  · cases hR
    have : targs = [] := List.length_eq_zero_iff.1 hn
    subst this
    refine ⟨[vbool M, vbool M], vbool M, M.sym .or_, symT rfl rfl (gr rfl rfl), rfl, ?_,
      .inr (.inr (.inl ⟨rfl, rfl, rfl⟩))⟩
    exact hsp.fits h L hρ β (ts := [.boolTy, .boolTy]) (r := .boolTy) hb2 (by simp [Term.inst])
      (by simp [endsKind, isKindSym]) hlen
  · cases hR
    obtain ⟨A, rfl⟩ := List.length_eq_one_iff.1 hn
    obtain ⟨hA, hs'⟩ := SSpine.ty_inv hsp rfl
    have sA := small hA (hq A (by simp))
    obtain ⟨t, rfl, ht⟩ := one rfl
    have mA : M.mem (eval M ρ β A) (vtype0 M) := hA.val_mem h hρ bmodels_nil
    refine ⟨[eval M ρ β A, eval M ρ β A], vbool M, M.app (M.sym .eq_) (eval M ρ β A), ?_, rfl, ?_,
      .inr (.inr (.inr (.inl ⟨_, t, rfl, rfl, ht, mA, rfl, rfl⟩)))⟩
    · exact ((h.mem_pi _ _ _).1 (symT rfl rfl (gr rfl rfl))).2 _ mA
    · have e : Term.inst 0 A (.pi (.bvar 0) (.pi (.bvar 1) .boolTy)) = [A, A].foldr Term.pi .boolTy := by
        simp [Term.inst, sA.up]
      have hs' : SSpine K Γ _ vargs T := hs'
      rw [e] at hs'
      refine hs'.fits h L hρ β (ts := [A, A]) (r := .boolTy) (by simpa using fun a d => sA.inst a d) (by simp [Term.inst])
        (by simpa using noKinds_endsKind sA.noKinds) hlen
  · cases hR
    obtain ⟨A, rfl⟩ := List.length_eq_one_iff.1 hn
    obtain ⟨hA, hs'⟩ := SSpine.ty_inv hsp rfl
    have sA := small hA (hq A (by simp))
    obtain ⟨t, rfl, ht⟩ := one rfl
    have mA : M.mem (eval M ρ β A) (vtype0 M) := hA.val_mem h hρ bmodels_nil
    refine ⟨[vbool M, eval M ρ β A, eval M ρ β A], eval M ρ β A, M.app (M.sym .ite_) (eval M ρ β A), ?_, rfl, ?_,
      .inr (.inr (.inr (.inr ⟨_, t, rfl, rfl, ht, mA, rfl, rfl⟩)))⟩
    · exact ((h.mem_pi _ _ _).1 (symT rfl rfl (gr rfl rfl))).2 _ mA
    · have e : Term.inst 0 A (.pi .boolTy (.pi (.bvar 1) (.pi (.bvar 2) (.bvar 3)))) =
          [Term.boolTy, A, A].foldr Term.pi A := by
        simp [Term.inst, sA.up]
      have hs' : SSpine K Γ _ vargs T := hs'
      rw [e] at hs'
      refine hs'.fits h L hρ β (ts := [.boolTy, A, A]) (r := A) ?_ (fun a d => sA.inst a d) ?_ hlen
      · intro t ht
        simp only [List.mem_cons, List.not_mem_nil, or_false] at ht
        rcases ht with rfl | rfl | rfl
        · intro a d; rfl
        · exact sA.inst
        · exact sA.inst
      · intro t ht
        simp only [List.mem_cons, List.not_mem_nil, or_false] at ht
        rcases ht with rfl | rfl | rfl
        · rfl
        · exact noKinds_endsKind sA.noKinds
        · exact noKinds_endsKind sA.noKinds

theorem quote_keeps (hK : Prenex K) (I : Inverse K M L N θ) (reduce : Bool) : ∀ k : Nat,
    (∀ Γ rm t v env ρ β T, Here M θ tn Γ rm env ρ → SHasType K Γ t T → endsKind T = false → Quotable K N 0 t →
      quoteTerm K N tn reduce k Γ rm t = some v →
      (kernelFrame h L).den (constMeaning M L) θ env v = eval M ρ β t) ∧
    (∀ Γ rm head args v env ρ β R T, Here M θ tn Γ rm env ρ → SHasType K Γ head R → endsKind R = false →
      SSpine K Γ R args T → endsKind T = false → Quotable K N args.length head → (∀ a ∈ args, Quotable K N 0 a) →
      quoteSpine K N tn reduce k Γ rm head args = some v →
      (kernelFrame h L).den (constMeaning M L) θ env v = (args.map (eval M ρ β)).foldl M.app (eval M ρ β head)) ∧
    (∀ Γ rm args vs env ρ β R T, Here M θ tn Γ rm env ρ → SSpine K Γ R args T → noKinds R = true →
      (∀ a ∈ args, Quotable K N 0 a) → quoteAll K N tn reduce k Γ rm args = some vs →
      (kernelFrame h L).denAll (constMeaning M L) θ env vs = args.map (eval M ρ β)) ∧
    (∀ Γ rm R args tys vs env ρ β T, Here M θ tn Γ rm env ρ → SSpine K Γ R args T → endsKind R = false →
      prenex R = true → kindArity R ≤ args.length → (∀ a ∈ args, Quotable K N 0 a) →
      quoteArgs K N tn reduce k Γ rm R args = some (tys, vs) →
      ∃ targs vargs, args = targs ++ vargs ∧ targs.length = kindArity R ∧
        (kernelFrame h L).tys θ tys = targs.map (eval M ρ β) ∧
        (kernelFrame h L).denAll (constMeaning M L) θ env vs = vargs.map (eval M ρ β)) := by
  intro k
  induction k with
  | zero =>
    refine ⟨?_, ?_, ?_, ?_⟩
    · intro _ _ _ _ _ _ _ _ _ _ _ _ e; cases e
    · intro _ _ _ _ _ _ _ _ _ _ _ _ _ _ _ _ _ e; cases e
    · intro _ _ _ _ _ _ _ _ _ _ _ _ _ e; cases e
    · intro _ _ _ _ _ _ _ _ _ _ _ _ _ _ _ _ e; cases e
  | succ k ih =>
    obtain ⟨ih1, ih2, ih3, ih4⟩ := ih
    refine ⟨?_, ?_, ?_, ?_⟩
    · intro Γ rm t v env ρ β T H ht hT hq e
      unfold quoteTerm at e
      split at e
      · rename_i t' hr
        split at hr
        · obtain ⟨h1, h2, h3⟩ := reduceHead_spec h H.models ht hT hq hr
          rw [← h3 β]
          exact ih1 Γ rm t' v env ρ β T H h1 hT h2 e
        · cases hr
      · split at e
        · rename_i q A b _
          simp only [openBound_eq, Option.bind_eq_bind, Option.bind_some] at e
          obtain ⟨a, ha, e⟩ := Option.bind_eq_some_iff.1 e
          obtain ⟨w, hw, e⟩ := Option.bind_eq_some_iff.1 e
          have kb : noKinds A = true := (hq.1 : Quotable K N 0 A).noKinds
          have body : ∀ {U : Term}, STyped K Γ BCtx.nil A .isTy → STyped K Γ (BCtx.cons A BCtx.nil) b (.ty U) →
              endsKind U = false → ∀ x, M.mem x (eval M ρ β A) →
              (kernelFrame h L).den (constMeaning M L) θ (env ++ [x]) w = eval M ρ (push x β) b := by
            intro U hA hb hU x hx
            have := ih1 _ _ _ w (env ++ [x]) (setAt ρ Γ.length x) β _ (H.push hA kb hx) (hb.open_fresh (isTy_closed hA))
              (by rw [← inst_zero_eq, endsKind_inst_noKinds rfl]; exact hU) (Quotable.inst (a := .fvar Γ.length) trivial 0 hq.2) hw
            rw [this, eval_inst_zero, eval_setAt fun i hi => hb.declared hi]
            simp only [eval, setAt, if_true]
          have hty : STyped K Γ BCtx.nil A .isTy → (kernelFrame h L).ty θ a = eval M ρ β A := fun hA =>
            (quoteType_spec h L I H.types k).1 _ A a β ((hA.shape hK H.simple (by intro i T hi; cases hi) kb).2 rfl) ha
          cases q with
          | lam =>
            obtain ⟨B, eB, hA, hb, kA, kB⟩ := ht.lam_inv
            cases e
            rw [den_merge_lam, hty hA]
            exact h.bind_congr _ _ _ _ fun x hx => body hA hb (by rw [endsKind_ren]; exact kB) x hx
          | pi => cases e
          | all =>
            obtain ⟨_, hA, hb⟩ := ht.quant_inv (.inl rfl)
            cases e
            have hm : ∀ x, M.mem x (eval M ρ β A) → M.mem (eval M ρ (push x β) b) (vbool M) := by
              intro x hx
              exact hb.val_mem h H.models (bmodels_nil.cons hx)
            rw [den_merge_all, hty hA]
            symm
            refine bool_eq (F := kernelFrame h L) (h.all_bool _ _ hm) ((h.all_tt _ _ hm).trans ?_)
            exact forall_congr' fun x => imp_congr_right fun hx => by rw [body hA hb rfl x hx]
          | ex =>
            obtain ⟨_, hA, hb⟩ := ht.quant_inv (.inr rfl)
            cases e
            have hm : ∀ x, M.mem x (eval M ρ β A) → M.mem (eval M ρ (push x β) b) (vbool M) := by
              intro x hx
              exact hb.val_mem h H.models (bmodels_nil.cons hx)
            rw [den_merge_ex, hty hA]
            symm
            refine bool_eq (F := kernelFrame h L) (h.ex_bool _ _ hm) ((h.ex_tt _ _ hm).trans ?_)
            exact exists_congr fun x => and_congr_right fun hx => by rw [body hA hb rfl x hx]
        · obtain ⟨R, h1, h2, h3⟩ := STyped.spine ht hT
          obtain ⟨h4, h5⟩ := quotable_spine hq
          rw [Nat.zero_add] at h4
          rw [ih2 Γ rm _ _ v env ρ β R T H h1 h2 h3 hT h4 h5 e, ← Elab.eval_apply, Spec.apply_args]
    · intro Γ rm head args v env ρ β R T H hh hR hs hT hq hqs e
      unfold quoteSpine at e
      split at e
      · rename_i q A b
        simp only [Option.bind_eq_bind, Option.pure_def] at e
        obtain ⟨f, hf, e⟩ := Option.bind_eq_some_iff.1 e
        obtain ⟨vs, hvs, e⟩ := Option.bind_eq_some_iff.1 e
        cases e
        obtain ⟨p1, p2⟩ := hh.value_type hK H.simple (by intro i T hi; cases hi) 0 R (N := N) hq rfl hR
        have nR := prenex_noKinds p1 (by omega)
        rw [den_apply, ih1 Γ rm _ f env ρ β R H hh hR hq hf, ih3 Γ rm args vs env ρ β R T H hs nR hqs hvs]
        rfl
      · rename_i i
        have hi := STyped.fvar_value hh hR
        simp only [hi, Option.bind_eq_bind, Option.pure_def, Option.bind_some] at e
        have nR : noKinds R = true := by
          rcases H.simple i R hi with hk | hk
          · rw [endsKind_of_isKind hk] at hR; cases hR
          · exact hk
        rw [if_neg (by rw [noKinds_typeParam nR]; simp)] at e
        obtain ⟨ty, hty, e⟩ := Option.bind_eq_some_iff.1 e
        obtain ⟨j, hj, e⟩ := Option.bind_eq_some_iff.1 e
        obtain ⟨⟨tys, vs⟩, hvs, e⟩ := Option.bind_eq_some_iff.1 e
        cases e
        obtain ⟨targs, vargs, rfl, h1, h2, h3⟩ := ih4 Γ rm R args tys vs env ρ β T H hs hR (noKinds_prenex nR)
          (by rw [noKinds_kindArity nR]; exact Nat.zero_le _) hqs hvs
        have : targs = [] := List.length_eq_zero_iff.1 (by rw [h1, noKinds_kindArity nR])
        subst this
        rw [den_apply, h3, List.nil_append]
        have hg := H.stack.get i j (get_lt hi) hj
        simp only [Frame.den, List.getD_eq_getElem?_getD, hg, Option.getD_some]
        rfl
      · rename_i s
        obtain ⟨hi, hks⟩ := STyped.sym_value hh hR
        simp only [hi, Option.bind_eq_bind, Option.pure_def, Option.bind_some] at e
        obtain ⟨p1, p2⟩ := hh.value_type hK H.simple (by intro i T hi; cases hi) args.length R (N := N) hq rfl hR
        have hkp : ¬ R.isTypeParamKind = true := by
          rw [isKind_typeParam]
          intro hk
          rw [endsKind_of_isKind hk] at hR; cases hR
        rw [if_neg hkp] at e
        obtain ⟨⟨tys, vs⟩, hvs, e'⟩ := Option.bind_eq_some_iff.1 e
        clear e
        have e := e'
        clear e'
        obtain ⟨targs, vargs, rfl, h1, h2, h3⟩ := ih4 Γ rm R args tys vs env ρ β T H hs hR p1 p2 hqs hvs
        have hlen : vs.length = vargs.length := by
          rw [← denAll_length (F := kernelFrame h L) (C := constMeaning M L) θ env vs, h3, List.length_map]
        rw [H.stack.size] at e
        have hlog : isLogical s = true → quoteLogical env.length s tys vs = some v →
            (kernelFrame h L).den (constMeaning M L) θ env v =
              ((targs ++ vargs).map (eval M ρ β)).foldl M.app (M.sym s) := by
          intro hl e
          obtain ⟨ts, r, g, hg, eg, hf, hcase⟩ := logical_spine h L hK H.simple H.models hl hi hs h1 hqs h2
            (by rw [← hlen]; exact (quoteLogical_length e).1)
          rw [logical_den h L e hg hcase (by rw [h3, hlen]; exact hf), h3, eg, List.map_append, List.foldl_append]
          rfl
        have hfin : isLogical s = false → s ≠ .true_ → s ≠ .false_ → finishConst K N k env.length s tys vs = some v →
            (kernelFrame h L).den (constMeaning M L) θ env v =
              ((targs ++ vargs).map (eval M ρ β)).foldl M.app (M.sym s) := by
          intro hl n1 n2 e
          rw [finishConst_den h L I hi hR hl n1 n2 hq.2.1 (by
            rw [← tys_length (F := kernelFrame h L) (θ := θ), h2, List.length_map, h1]) e, h2, h3, List.map_append,
            List.foldl_append]
          rfl
        cases s <;> simp only at e
        all_goals first
          | cases e
          | exact hlog rfl e
          | exact hfin rfl (by simp) (by simp) e
          | skip
        all_goals
          cases hi
          have : targs = [] := List.length_eq_zero_iff.1 h1
          subst this
          rw [den_apply, h3, List.nil_append]
          have ht : (kernelFrame h L).den (constMeaning M L) θ env (.bool true) = vtt M := ofProp_tt.2 rfl
          have hf : (kernelFrame h L).den (constMeaning M L) θ env (.bool false) = vff M := if_neg (by simp)
          first
            | rw [ht]; rfl
            | rw [hf]; rfl
      · cases e
    · intro Γ rm args vs env ρ β R T H hs nR hqs e
      cases args with
      | nil => cases e; rfl
      | cons a as =>
        simp only [quoteAll, Option.bind_eq_bind, Option.pure_def] at e
        obtain ⟨v, hv, e⟩ := Option.bind_eq_some_iff.1 e
        obtain ⟨vs', hvs, e⟩ := Option.bind_eq_some_iff.1 e
        cases e
        cases hs with
        | @val A B _ _ _ g1 g2 g3 g4 =>
          simp only [noKinds, Bool.and_eq_true, noKinds_ren] at nR
          simp only [Frame.denAll, List.map_cons]
          rw [ih1 Γ rm a v env ρ β A H g1 g2 (hqs a (by simp)) hv,
            ih3 Γ rm as vs' env ρ β B T H g4 nR.2 (fun b hb => hqs b (by simp [hb])) hvs]
        | @ty A B _ _ _ g1 g2 g3 =>
          simp only [noKinds, Bool.and_eq_true] at nR
          rw [noKinds_endsKind nR.1] at g2
          cases g2
    · intro Γ rm R args tys vs env ρ β T H hs hR pR hn hqs e
      cases args with
      | nil =>
        cases e
        exact ⟨[], [], rfl, by simp at hn; simp [hn], rfl, rfl⟩
      | cons a as =>
        cases hs with
        | @val A B _ _ _ g1 g2 g3 g4 =>
          have kA : isKind A = false := by
            cases hk : isKind A with
            | false => rfl
            | true => rw [endsKind_of_isKind hk] at g2; cases g2
          simp only [prenex, kA, Bool.false_and, Bool.false_or, Bool.and_eq_true, noKinds_ren] at pR
          have hnk : (Term.splitPi (.pi A (Term.ren Nat.succ B))).any (fun p => isKindTerm p.1) = false := by
            simp [Term.splitPi, noKinds_isKindTerm pR.1]
          simp only [quoteArgs, hnk, Bool.false_and, typeApply_pi, inst_up, Option.getD_some, Option.bind_eq_bind,
            Option.pure_def, Bool.false_eq_true, if_false] at e
          obtain ⟨v, hv, e⟩ := Option.bind_eq_some_iff.1 e
          obtain ⟨⟨ts', vs'⟩, hvs, e⟩ := Option.bind_eq_some_iff.1 e
          cases e
          have k0 := noKinds_kindArity pR.2
          obtain ⟨targs, vargs, rfl, h1, h2, h3⟩ := ih4 Γ rm B as _ vs' env ρ β T H g4 g3 (noKinds_prenex pR.2)
            (by rw [k0]; exact Nat.zero_le _) (fun b hb => hqs b (by simp [hb])) hvs
          have : targs = [] := List.length_eq_zero_iff.1 (by rw [h1, k0])
          subst this
          refine ⟨[], a :: vargs, rfl, by simp [kindArity, kA], h2, ?_⟩
          simp only [Frame.denAll, List.map_cons]
          rw [ih1 Γ rm a v env ρ β A H g1 g2 (hqs a (by simp)) hv, h3]
        | @ty A B _ _ _ g1 g2 g3 =>
          have kA : isKind A = true := by
            cases hk : isKind A with
            | true => rfl
            | false =>
              simp only [prenex, hk, Bool.false_and, Bool.false_or, Bool.and_eq_true] at pR
              rw [noKinds_endsKind pR.1] at g2; cases g2
          have na := (hqs a (by simp)).noKinds
          have sa : SmallType K Γ a := ((g1.shape hK H.simple (by intro i T hi; cases hi) na).1 A rfl g2).small kA
          simp only [prenex, kA, Bool.true_and, Bool.or_eq_true, Bool.and_eq_true] at pR
          have pB : prenex B = true := by
            rcases pR with p | p
            · exact p
            · exact noKinds_prenex p.2
          have hk : (Term.splitPi (.pi A B)).any (fun p => isKindTerm p.1) = true := by
            simp [Term.splitPi, isKind_isKindTerm kA]
          simp only [quoteArgs, hk, sa.isTypeTerm, Bool.and_self, typeApply_pi, Option.getD_some, Option.bind_eq_bind,
            Option.pure_def, if_true] at e
          obtain ⟨t, ht, e⟩ := Option.bind_eq_some_iff.1 e
          obtain ⟨⟨ts', vs'⟩, hvs, e⟩ := Option.bind_eq_some_iff.1 e
          cases e
          obtain ⟨q1, q2⟩ := prenex_inst na B 0 pB
          simp only [kindArity, kA, if_true, List.length_cons] at hn
          obtain ⟨targs, vargs, rfl, h1, h2, h3⟩ := ih4 Γ rm _ as _ _ env ρ β T H g3
            (by rw [endsKind_inst_noKinds na]; exact hR) q1 (by omega) (fun b hb => hqs b (by simp [hb])) hvs
          refine ⟨a :: targs, vargs, rfl, by simp [kindArity, kA, h1, q2], ?_, h3⟩
          simp only [Frame.tys, List.map_cons]
          rw [h2, (quoteType_spec h L I H.types k).1 _ a t β sa ht]
end

end Spec
end Acorn
