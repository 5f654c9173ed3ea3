/-
Lowering values to terms keeps their meaning.
-/
import Verif.Lemmas.LoweringTypes
import Verif.Lemmas.LoweringValues
import Verif.Lemmas.Bound
namespace Acorn
namespace Elab

open Spec

universe u

/-! ### Truth values and functions in a frame -/

theorem bool_eq {F : Frame.{u}} {d : F.D} {p : Prop} (hm : F.mem d F.bool) (hp : d = F.tt ↔ p) : d = F.ofProp p := by
  by_cases h : p
  · rw [hp.2 h]
    exact (ofProp_tt.2 h).symm
  · have h1 : F.ofProp p = F.ff := by unfold Frame.ofProp; exact if_neg h
    rw [h1]
    exact ((F.mem_bool d).1 hm).resolve_left fun e => h (hp.1 e)

theorem etaN {F : Frame.{u}} {ts : List F.T} {r : F.T} {f : F.D} (hf : F.mem f (F.fnN ts r)) :
    F.lamN ts (F.appN f) = f :=
  extN (mem_lamN fun _ hxs => mem_appN hf hxs) hf fun _ hxs => appN_lamN hxs

variable {K : KCtx} {M : Interp.{u}} (h : Lawful K M) (L : Tables)

/-! ### The logical symbols -/

section

theorem mem_not_ : M.mem (M.sym .not_) ((kernelFrame h L).fnN [vbool M] (vbool M)) :=
  h.sym_type .not_ _ rfl rfl ⟨rfl, fun _ => rfl⟩ (fun _ => vtt M) (fun _ => vtt M)

theorem mem_and_ : M.mem (M.sym .and_) ((kernelFrame h L).fnN [vbool M, vbool M] (vbool M)) :=
  h.sym_type .and_ _ rfl rfl ⟨rfl, fun _ => rfl⟩ (fun _ => vtt M) (fun _ => vtt M)

theorem mem_or_ : M.mem (M.sym .or_) ((kernelFrame h L).fnN [vbool M, vbool M] (vbool M)) :=
  h.sym_type .or_ _ rfl rfl ⟨rfl, fun _ => rfl⟩ (fun _ => vtt M) (fun _ => vtt M)

theorem mem_eq_ {T : M.D} (hT : M.mem T (vtype0 M)) :
    M.mem (M.app (M.sym .eq_) T) ((kernelFrame h L).fnN [T, T] (vbool M)) :=
  ((h.mem_pi _ _ _).1 (h.sym_type .eq_ _ rfl rfl ⟨rfl, fun _ => rfl⟩ (fun _ => vtt M) (fun _ => vtt M))).2 T hT

theorem mem_ite_ {T : M.D} (hT : M.mem T (vtype0 M)) :
    M.mem (M.app (M.sym .ite_) T) ((kernelFrame h L).fnN [vbool M, T, T] T) :=
  ((h.mem_pi _ _ _).1 (h.sym_type .ite_ _ rfl rfl ⟨rfl, fun _ => rfl⟩ (fun _ => vtt M) (fun _ => vtt M))).2 T hT

theorem not_den {a : M.D} (ha : M.mem a (vbool M)) :
    M.app (M.sym .not_) a = (kernelFrame h L).ofProp (a ≠ vtt M) := by
  refine bool_eq (F := kernelFrame h L) (mem_appN (F := kernelFrame h L) (xs := [a]) (mem_not_ h L) ⟨ha, trivial⟩) ?_
  show M.app (M.sym .not_) a = vtt M ↔ _
  rw [h.not_tt a ha]
  rcases (h.mem_bool a).1 ha with rfl | rfl
  · exact ⟨fun e => absurd e h.tt_ne_ff, fun e => absurd rfl e⟩
  · exact ⟨fun _ => h.tt_ne_ff.symm, fun _ => rfl⟩

theorem and_den {a b : M.D} (ha : M.mem a (vbool M)) (hb : M.mem b (vbool M)) :
    M.app (M.app (M.sym .and_) a) b = (kernelFrame h L).ofProp (a = vtt M ∧ b = vtt M) :=
  bool_eq (F := kernelFrame h L)
    (mem_appN (F := kernelFrame h L) (xs := [a, b]) (mem_and_ h L) ⟨ha, hb, trivial⟩) (h.and_tt a b ha hb)

theorem or_den {a b : M.D} (ha : M.mem a (vbool M)) (hb : M.mem b (vbool M)) :
    M.app (M.app (M.sym .or_) a) b = (kernelFrame h L).ofProp (a = vtt M ∨ b = vtt M) :=
  bool_eq (F := kernelFrame h L)
    (mem_appN (F := kernelFrame h L) (xs := [a, b]) (mem_or_ h L) ⟨ha, hb, trivial⟩) (h.or_tt a b ha hb)

theorem eq_den {T a b : M.D} (hT : M.mem T (vtype0 M)) (ha : M.mem a T) (hb : M.mem b T) :
    M.app (M.app (M.app (M.sym .eq_) T) a) b = (kernelFrame h L).ofProp (a = b) :=
  bool_eq (F := kernelFrame h L)
    (mem_appN (F := kernelFrame h L) (xs := [a, b]) (mem_eq_ h L hT) ⟨ha, hb, trivial⟩) (h.eq_tt T a b hT ha hb)

open Classical in
include h in
theorem ite_den {T c a b : M.D} (hT : M.mem T (vtype0 M)) (hc : M.mem c (vbool M)) (ha : M.mem a T)
    (hb : M.mem b T) : M.app (M.app (M.app (M.app (M.sym .ite_) T) c) a) b = if c = vtt M then a else b := by
  rcases (h.mem_bool c).1 hc with rfl | rfl
  · rw [if_pos rfl]
    exact h.ite_tt T a b hT ha hb
  · rw [if_neg h.tt_ne_ff.symm]
    exact h.ite_ff T a b hT ha hb

/-- The binder `q` over several variables. -/
def bindN (M : Interp.{u}) (q : Binder) : List M.D → (List M.D → M.D) → M.D
  | [], k => k []
  | t :: ts, k => M.bind q t fun x => bindN M q ts fun xs => k (x :: xs)

include h in
theorem bindN_congr (q : Binder) : ∀ {ts : List M.D} {k k' : List M.D → M.D},
    (∀ xs, (kernelFrame h L).Fits xs ts → k xs = k' xs) → bindN M q ts k = bindN M q ts k'
  | [], _, _, hk => hk [] trivial
  | t :: ts, k, k', hk => by
    refine h.bind_congr q t _ _ fun x hx => ?_
    exact bindN_congr q fun xs hxs => hk (x :: xs) ⟨hx, hxs⟩

theorem bindN_lam : ∀ (ts : List M.D) (k : List M.D → M.D), bindN M .lam ts k = (kernelFrame h L).lamN ts k
  | [], _ => rfl
  | t :: ts, k => by
    show M.bind .lam t _ = M.bind .lam t _
    congr 1
    funext x
    exact bindN_lam ts _

theorem all_den : ∀ (ts : List M.D) (k : List M.D → M.D),
    (∀ xs, (kernelFrame h L).Fits xs ts → M.mem (k xs) (vbool M)) →
    M.mem (bindN M .all ts k) (vbool M) ∧
      (bindN M .all ts k = vtt M ↔ ∀ xs, (kernelFrame h L).Fits xs ts → k xs = vtt M)
  | [], k, hk => ⟨hk [] trivial, fun e xs hxs => by
      cases xs with
      | nil => exact e
      | cons _ _ => exact hxs.elim, fun e => e [] trivial⟩
  | t :: ts, k, hk => by
    have ih := fun x hx => all_den ts (fun xs => k (x :: xs)) fun xs hxs => hk (x :: xs) ⟨hx, hxs⟩
    refine ⟨h.all_bool _ _ fun x hx => (ih x hx).1, ?_⟩
    show M.bind .all t _ = vtt M ↔ _
    rw [h.all_tt _ _ fun x hx => (ih x hx).1]
    constructor
    · intro e xs hxs
      cases xs with
      | nil => exact hxs.elim
      | cons x xs => exact (ih x hxs.1).2.1 (e x hxs.1) xs hxs.2
    · exact fun e x hx => (ih x hx).2.2 fun xs hxs => e (x :: xs) ⟨hx, hxs⟩

theorem ex_den : ∀ (ts : List M.D) (k : List M.D → M.D),
    (∀ xs, (kernelFrame h L).Fits xs ts → M.mem (k xs) (vbool M)) →
    M.mem (bindN M .ex ts k) (vbool M) ∧
      (bindN M .ex ts k = vtt M ↔ ∃ xs, (kernelFrame h L).Fits xs ts ∧ k xs = vtt M)
  | [], k, hk => ⟨hk [] trivial, fun e => ⟨[], trivial, e⟩, fun ⟨xs, hxs, e⟩ => by
      cases xs with
      | nil => exact e
      | cons _ _ => exact hxs.elim⟩
  | t :: ts, k, hk => by
    have ih := fun x hx => ex_den ts (fun xs => k (x :: xs)) fun xs hxs => hk (x :: xs) ⟨hx, hxs⟩
    refine ⟨h.ex_bool _ _ fun x hx => (ih x hx).1, ?_⟩
    show M.bind .ex t _ = vtt M ↔ _
    rw [h.ex_tt _ _ fun x hx => (ih x hx).1]
    constructor
    · rintro ⟨x, hx, e⟩
      obtain ⟨xs, hxs, e⟩ := (ih x hx).2.1 e
      exact ⟨x :: xs, ⟨hx, hxs⟩, e⟩
    · rintro ⟨xs, hxs, e⟩
      cases xs with
      | nil => exact hxs.elim
      | cons x xs => exact ⟨x, hxs.1, (ih x hxs.1).2.2 ⟨xs, hxs.2, e⟩⟩

end

/-! ### Terms under binders -/

theorem eval_binds (ρ : Nat → M.D) (q : Binder) (b : Term) : ∀ (Ts : List Term) (As : List M.D) (β : Nat → M.D),
    (∀ β, Ts.map (eval M ρ β) = As) →
    eval M ρ β (Ts.foldr (Term.bind q) b) = bindN M q As fun xs => eval M ρ (pushN xs β) b
  | [], As, β, e => by
    have := e β
    subst this
    rfl
  | T :: Ts, As, β, e => by
    have e1 := e β
    subst e1
    simp only [List.foldr_cons, List.map_cons, bindN, eval]
    congr 1
    funext d
    rw [eval_binds ρ q b Ts (Ts.map (eval M ρ β)) (push d β)]
    · rfl
    · intro γ
      have e1 := e γ
      simp only [List.map_cons, List.cons.injEq] at e1
      exact e1.2

theorem mapM_shift (st : List Term) : st.mapM (Term.shift 0 1) = some (st.map (Term.up 0 1)) := by
  induction st with
  | nil => rfl
  | cons t st ih =>
    simp only [List.mapM_cons, ih, Option.bind_eq_bind, Option.pure_def]
    rw [show (1 : Int) = ((1 : Nat) : Int) from rfl, Term.shift_nonneg]
    rfl

theorem eval_pushVars (ρ : Nat → M.D) : ∀ (xs : List M.D) (st st' : List Term) (β : Nat → M.D),
    Value.pushVars xs.length st = some st' →
    st'.map (eval M ρ (pushN xs β)) = st.map (eval M ρ β) ++ xs
  | [], st, st', β, e => by
    cases e
    simp [pushN]
  | x :: xs, st, st', β, e => by
    simp only [List.length_cons, Value.pushVars, Option.bind_eq_bind, mapM_shift, Option.bind_some] at e
    show st'.map (eval M ρ (pushN xs (push x β))) = _
    rw [eval_pushVars ρ xs _ st' (push x β) e]
    simp only [List.map_append, List.map_map, List.map_cons, List.map_nil, List.append_assoc, List.cons_append,
      List.nil_append]
    congr 1
    apply List.map_congr_left
    intro t _
    exact eval_up M ρ 0 1 t β (push x β) (fun i hi => absurd hi (by omega)) (fun i _ => rfl)

/-! ### Values -/

section main

variable {S : Theory} {tv : List (String × Nat)} {ρ : Nat → M.D} (hR : Registered K L S)
  (hA : Agrees h L S tv ρ)

include hR hA in
theorem sound : Sound (kernelFrame h L) (constMeaning M L) (typeMeaning M L tv ρ) S where
  const _ _ _ _ h1 h2 := const_mem h L hR hA h1 h2
  covers := hA.covers

theorem lowerValueType_ok {K : KCtx} {L : Tables} {S : Theory} (hR : Registered K L S)
    {tv : List (String × Nat)} {Γ : List Ty} {v : Value} {t : Ty} {T : Term}
    (hv : ValueOk S Γ v t) (e : v.lowerValueType L tv = some T) : lowerType L tv t = some T := by
  have hg := getType_ok v Γ t hv
  unfold Value.lowerValueType at e
  simp only [hg, Option.bind_some] at e
  split at e
  · rename_i n t'
    obtain ⟨_, params, g, h1, h2, _⟩ := hv
    have : params = [] := by
      cases params with
      | nil => rfl
      | cons _ _ => exact h2.elim
    subst this
    simp only [hR.bare n g h1] at e
    exact e
  · exact e

/-! ### Lambdas that are partly applied logical operations -/

theorem isLevel_var {i : Nat} {v : Value} (e : v.isLevel i = true) : ∃ t, v = .var i t := by
  cases v <;> simp only [Value.isLevel, beq_iff_eq, Bool.false_eq_true] at e
  subst e
  exact ⟨_, rfl⟩

theorem level_ok {Γ ts : List Ty} {i : Nat} {v : Value} {t : Ty} (e : v.isLevel (Γ.length + i) = true)
    (hv : ValueOk S (Γ ++ ts) v t) : ts[i]? = some t := by
  obtain ⟨t', rfl⟩ := isLevel_var e
  have := hv.2
  rw [List.getElem?_append_right (by omega), Nat.add_sub_cancel_left] at this
  exact this

theorem level_den {F : Frame.{u}} {C : String → List F.T → F.D} {θ : String → F.T} {env xs : List F.D} {n i : Nat}
    {v : Value} {x : F.D} (e : v.isLevel (n + i) = true) (hn : env.length = n) (hx : xs[i]? = some x) :
    F.den C θ (env ++ xs) v = x := by
  obtain ⟨t', rfl⟩ := isLevel_var e
  subst hn
  simp only [Frame.den, List.getD_eq_getElem?_getD]
  rw [List.getElem?_append_right (by omega), Nat.add_sub_cancel_left, hx]
  rfl

theorem fits_one {F : Frame.{u}} {xs : List F.D} {t : F.T} (e : F.Fits xs [t]) : ∃ x, xs = [x] ∧ F.mem x t := by
  cases xs with
  | nil => exact e.elim
  | cons x xs =>
    cases xs with
    | nil => exact ⟨x, rfl, e.1⟩
    | cons _ _ => exact e.2.elim

theorem fits_two {F : Frame.{u}} {xs : List F.D} {t t' : F.T} (e : F.Fits xs [t, t']) :
    ∃ x y, xs = [x, y] ∧ F.mem x t ∧ F.mem y t' := by
  cases xs with
  | nil => exact e.elim
  | cons x xs =>
    obtain ⟨y, rfl, hy⟩ := fits_one e.2
    exact ⟨x, y, rfl, e.1, hy⟩

theorem fits_three {F : Frame.{u}} {xs : List F.D} {t t' t'' : F.T} (e : F.Fits xs [t, t', t'']) :
    ∃ x y z, xs = [x, y, z] ∧ F.mem x t ∧ F.mem y t' ∧ F.mem z t'' := by
  cases xs with
  | nil => exact e.elim
  | cons x xs =>
    obtain ⟨y, z, rfl, hy⟩ := fits_two e.2
    exact ⟨x, y, z, rfl, e.1, hy⟩

theorem lamN_head {F : Frame.{u}} {ts : List F.T} {r : F.T} {f : F.D} {k : List F.D → F.D}
    (hf : F.mem f (F.fnN ts r)) (hk : ∀ xs, F.Fits xs ts → k xs = F.appN f xs) : F.lamN ts k = f := by
  rw [lamN_congr hk, etaN hf]

/-- A part that does not mention the new variables, on the stack with truth values in their place. -/
theorem part_ok {Γ ts : List Ty} {v : Value} {t : Ty} (hr : v.refsRange Γ.length (Γ.length + ts.length) = false)
    (hv : ValueOk S (Γ ++ ts) v t) : ValueOk S (Γ ++ List.replicate ts.length .bool) v t := by
  have := ok_avoid Γ ts (List.replicate ts.length .bool) (by simp) v [] t hr (by rw [List.append_nil]; exact hv)
  rwa [List.append_nil] at this

theorem pad_fits {F : Frame.{u}} {θ : String → F.T} {Γ : List Ty} {env : List F.D} (he : F.Fits env (F.tys θ Γ))
    (k : Nat) : F.Fits (env ++ List.replicate k F.tt) (F.tys θ (Γ ++ List.replicate k .bool)) := by
  rw [tys_append]
  refine Fits.append he ?_
  induction k with
  | zero => exact trivial
  | succ k ih => exact ⟨(F.mem_bool _).2 (.inl rfl), ih⟩

theorem part_den {F : Frame.{u}} {C : String → List F.T → F.D} {θ : String → F.T} {Γ ts : List Ty} {env xs : List F.D}
    {v : Value} (he : F.Fits env (F.tys θ Γ)) (hr : v.refsRange Γ.length (Γ.length + ts.length) = false)
    (hl : xs.length = ts.length) :
    F.den C θ (env ++ xs) v = F.den C θ (env ++ List.replicate ts.length F.tt) v := by
  have hen : env.length = Γ.length := by rw [Fits.length he, tys_length]
  have := den_avoid (C := C) θ env xs (List.replicate ts.length F.tt) (by simp [hl]) v []
    (by rw [hen, hl]; exact hr)
  rwa [List.append_nil, List.append_nil] at this

include hR hA in
theorem partial_den : ∀ (v : Value) (ts : List Ty) (s : Symbol) (o : Option Ty) (parts : List Value) (Γ : List Ty)
    (r : Ty), Value.partialLogical Γ.length ts v = some (s, o, parts) → ValueOk S (Γ ++ ts) v r →
    (∀ p ∈ parts, ∃ t, ValueOk S (Γ ++ List.replicate ts.length .bool) p t) ∧
    ∀ env, (kernelFrame h L).Fits env ((kernelFrame h L).tys (typeMeaning M L tv ρ) Γ) →
      (kernelFrame h L).lamN ((kernelFrame h L).tys (typeMeaning M L tv ρ) ts) (fun xs =>
        (kernelFrame h L).den (constMeaning M L) (typeMeaning M L tv ρ) (env ++ xs) v) =
      ((kernelFrame h L).tys (typeMeaning M L tv ρ) o.toList ++ (kernelFrame h L).denAll (constMeaning M L)
        (typeMeaning M L tv ρ) (env ++ List.replicate ts.length (vtt M)) parts).foldl M.app (M.sym s) := by
  have hS := sound h L hR hA
  intro v
  induction v using Value.rec (motive_2 := fun _ => True) (motive_3 := fun _ => True) (motive_4 := fun _ => True) with
  | group a ih => exact fun ts s o parts Γ r e hv => ih ts s o parts Γ r e hv
  | not a _ =>
    intro ts s o parts Γ r e hv
    simp only [Value.partialLogical] at e
    split at e
    · rename_i t
      split at e
      · rename_i hl
        cases e
        have ht := level_ok (i := 0) (ts := [t]) hl hv.2
        simp only [List.getElem?_cons_zero, Option.some.injEq] at ht
        subst ht
        refine ⟨fun p hp => absurd hp (by simp), fun env he => ?_⟩
        have hen : env.length = Γ.length := by rw [Fits.length he, tys_length]
        refine lamN_head (mem_not_ h L) fun xs hxs => ?_
        obtain ⟨x, rfl, hx⟩ := fits_one hxs
        simp only [Frame.den]
        rw [level_den (F := kernelFrame h L) (i := 0) hl hen rfl]
        exact (not_den h L hx).symm
      · cases e
    · cases e
  | bin op a b _ _ =>
    intro ts s o parts Γ r e ⟨_, u, hva, hvb, hsm, hop⟩
    simp only [Value.partialLogical] at e
    split at e
    · -- and, two variables
      rename_i t t'
      split at e
      · rename_i hl
        cases e
        simp only [Bool.and_eq_true] at hl
        obtain rfl : u = .bool := hop.resolve_left (by simp) |>.resolve_left (by simp)
        have h1 := level_ok (i := 0) (ts := [t, t']) hl.1 hva
        have h2 := level_ok (i := 1) (ts := [t, t']) hl.2 hvb
        simp only [List.getElem?_cons_zero, List.getElem?_cons_succ, Option.some.injEq] at h1 h2
        subst h1 h2
        refine ⟨fun p hp => absurd hp (by simp), fun env he => ?_⟩
        have hen : env.length = Γ.length := by rw [Fits.length he, tys_length]
        refine lamN_head (mem_and_ h L) fun xs hxs => ?_
        obtain ⟨x, y, rfl, hx, hy⟩ := fits_two hxs
        simp only [Frame.den]
        rw [level_den (F := kernelFrame h L) (i := 0) hl.1 hen rfl, level_den (F := kernelFrame h L) (i := 1) hl.2 hen rfl]
        exact (and_den h L hx hy).symm
      · cases e
    · -- and, one variable
      rename_i t
      split at e
      · rename_i hl
        cases e
        simp only [Bool.and_eq_true, Bool.not_eq_true'] at hl
        obtain rfl : u = .bool := hop.resolve_left (by simp) |>.resolve_left (by simp)
        have h2 := level_ok (i := 0) (ts := [t]) hl.1 hvb
        simp only [List.getElem?_cons_zero, Option.some.injEq] at h2
        subst h2
        have hpa := part_ok (ts := [.bool]) hl.2 hva
        refine ⟨fun p hp => by rw [List.mem_singleton.1 hp]; exact ⟨_, hpa⟩, fun env he => ?_⟩
        have hen : env.length = Γ.length := by rw [Fits.length he, tys_length]
        have hma := ok_mem hS a _ _ _ hpa (pad_fits he 1)
        refine lamN_head (mem_appN (F := kernelFrame h L) (ts := [vbool M]) (xs := [_]) (mem_and_ h L) ⟨hma, trivial⟩)
          fun xs hxs => ?_
        obtain ⟨y, rfl, hy⟩ := fits_one hxs
        simp only [Frame.den]
        rw [level_den (F := kernelFrame h L) (i := 0) hl.1 hen rfl, part_den (F := kernelFrame h L) (ts := [.bool]) he hl.2 rfl]
        exact (and_den h L hma hy).symm
      · cases e
    · -- or, two variables
      rename_i t t'
      split at e
      · rename_i hl
        cases e
        simp only [Bool.and_eq_true] at hl
        obtain rfl : u = .bool := hop.resolve_left (by simp) |>.resolve_left (by simp)
        have h1 := level_ok (i := 0) (ts := [t, t']) hl.1 hva
        have h2 := level_ok (i := 1) (ts := [t, t']) hl.2 hvb
        simp only [List.getElem?_cons_zero, List.getElem?_cons_succ, Option.some.injEq] at h1 h2
        subst h1 h2
        refine ⟨fun p hp => absurd hp (by simp), fun env he => ?_⟩
        have hen : env.length = Γ.length := by rw [Fits.length he, tys_length]
        refine lamN_head (mem_or_ h L) fun xs hxs => ?_
        obtain ⟨x, y, rfl, hx, hy⟩ := fits_two hxs
        simp only [Frame.den]
        rw [level_den (F := kernelFrame h L) (i := 0) hl.1 hen rfl, level_den (F := kernelFrame h L) (i := 1) hl.2 hen rfl]
        exact (or_den h L hx hy).symm
      · cases e
    · -- or, one variable
      rename_i t
      split at e
      · rename_i hl
        cases e
        simp only [Bool.and_eq_true, Bool.not_eq_true'] at hl
        obtain rfl : u = .bool := hop.resolve_left (by simp) |>.resolve_left (by simp)
        have h2 := level_ok (i := 0) (ts := [t]) hl.1 hvb
        simp only [List.getElem?_cons_zero, Option.some.injEq] at h2
        subst h2
        have hpa := part_ok (ts := [.bool]) hl.2 hva
        refine ⟨fun p hp => by rw [List.mem_singleton.1 hp]; exact ⟨_, hpa⟩, fun env he => ?_⟩
        have hen : env.length = Γ.length := by rw [Fits.length he, tys_length]
        have hma := ok_mem hS a _ _ _ hpa (pad_fits he 1)
        refine lamN_head (mem_appN (F := kernelFrame h L) (ts := [vbool M]) (xs := [_]) (mem_or_ h L) ⟨hma, trivial⟩)
          fun xs hxs => ?_
        obtain ⟨y, rfl, hy⟩ := fits_one hxs
        simp only [Frame.den]
        rw [level_den (F := kernelFrame h L) (i := 0) hl.1 hen rfl, part_den (F := kernelFrame h L) (ts := [.bool]) he hl.2 rfl]
        exact (or_den h L hma hy).symm
      · cases e
    · -- equality, two variables
      rename_i t t'
      split at e
      · rename_i hl
        cases e
        simp only [Bool.and_eq_true] at hl
        have h1 := level_ok (i := 0) (ts := [t, t']) hl.1 hva
        have h2 := level_ok (i := 1) (ts := [t, t']) hl.2 hvb
        simp only [List.getElem?_cons_zero, List.getElem?_cons_succ, Option.some.injEq] at h1 h2
        subst h1 h2
        have hT := small_mem h L hR hA _ hsm
        refine ⟨fun p hp => absurd hp (by simp), fun env he => ?_⟩
        have hen : env.length = Γ.length := by rw [Fits.length he, tys_length]
        refine lamN_head (mem_eq_ h L hT) fun xs hxs => ?_
        obtain ⟨x, y, rfl, hx, hy⟩ := fits_two hxs
        simp only [Frame.den]
        rw [level_den (F := kernelFrame h L) (i := 0) hl.1 hen rfl, level_den (F := kernelFrame h L) (i := 1) hl.2 hen rfl]
        exact (eq_den h L hT hx hy).symm
      · cases e
    · -- equality, one variable
      rename_i t
      split at e
      · rename_i hl
        cases e
        simp only [Bool.and_eq_true, Bool.not_eq_true'] at hl
        have h2 := level_ok (i := 0) (ts := [t]) hl.1 hvb
        simp only [List.getElem?_cons_zero, Option.some.injEq] at h2
        subst h2
        have hT := small_mem h L hR hA _ hsm
        have hpa := part_ok (ts := [t]) hl.2 hva
        refine ⟨fun p hp => by rw [List.mem_singleton.1 hp]; exact ⟨_, hpa⟩, fun env he => ?_⟩
        have hen : env.length = Γ.length := by rw [Fits.length he, tys_length]
        have hma := ok_mem hS a _ _ _ hpa (pad_fits he 1)
        refine lamN_head (mem_appN (F := kernelFrame h L)
          (ts := [(kernelFrame h L).ty (typeMeaning M L tv ρ) t]) (xs := [_]) (mem_eq_ h L hT) ⟨hma, trivial⟩)
          fun xs hxs => ?_
        obtain ⟨y, rfl, hy⟩ := fits_one hxs
        simp only [Frame.den]
        rw [level_den (F := kernelFrame h L) (i := 0) hl.1 hen rfl, part_den (F := kernelFrame h L) (ts := [t]) he hl.2 rfl]
        exact (eq_den h L hT hma hy).symm
      · cases e
    · cases e
  | ite c a b _ _ _ =>
    intro ts s o parts Γ r e ⟨hsm, hvc, hva, hvb⟩
    have hT := small_mem h L hR hA _ hsm
    simp only [Value.partialLogical] at e
    split at e
    · rename_i t1 t2 t3
      split at e
      · rename_i hl
        cases e
        simp only [Bool.and_eq_true] at hl
        have h0 := level_ok (i := 0) (ts := [t1, t2, t3]) hl.1.1 hvc
        have h1 := level_ok (i := 1) (ts := [t1, t2, t3]) hl.1.2 hva
        have h2 := level_ok (i := 2) (ts := [t1, t2, t3]) hl.2 hvb
        simp only [List.getElem?_cons_zero, List.getElem?_cons_succ, Option.some.injEq] at h0 h1 h2
        subst h0 h1 h2
        refine ⟨fun p hp => absurd hp (by simp), fun env he => ?_⟩
        have hen : env.length = Γ.length := by rw [Fits.length he, tys_length]
        refine lamN_head (mem_ite_ h L hT) fun xs hxs => ?_
        obtain ⟨x, y, z, rfl, hx, hy, hz⟩ := fits_three hxs
        simp only [Frame.den]
        rw [level_den (F := kernelFrame h L) (i := 0) hl.1.1 hen rfl, level_den (F := kernelFrame h L) (i := 1) hl.1.2 hen rfl,
          level_den (F := kernelFrame h L) (i := 2) hl.2 hen rfl]
        exact (ite_den h hT hx hy hz).symm
      · cases e
    · rename_i t1 t2
      split at e
      · rename_i hl
        cases e
        simp only [Bool.and_eq_true, Bool.not_eq_true'] at hl
        have h1 := level_ok (i := 0) (ts := [t1, t2]) hl.1.1 hva
        have h2 := level_ok (i := 1) (ts := [t1, t2]) hl.1.2 hvb
        simp only [List.getElem?_cons_zero, List.getElem?_cons_succ, Option.some.injEq] at h1 h2
        subst h1 h2
        have hpc := part_ok (ts := [t2, t2]) hl.2 hvc
        refine ⟨fun p hp => by rw [List.mem_singleton.1 hp]; exact ⟨_, hpc⟩, fun env he => ?_⟩
        have hen : env.length = Γ.length := by rw [Fits.length he, tys_length]
        have hmc := ok_mem hS c _ _ _ hpc (pad_fits he 2)
        refine lamN_head (mem_appN (F := kernelFrame h L) (ts := [vbool M]) (xs := [_]) (mem_ite_ h L hT)
          ⟨hmc, trivial⟩) fun xs hxs => ?_
        obtain ⟨y, z, rfl, hy, hz⟩ := fits_two hxs
        simp only [Frame.den]
        rw [level_den (F := kernelFrame h L) (i := 0) hl.1.1 hen rfl, level_den (F := kernelFrame h L) (i := 1) hl.1.2 hen rfl,
          part_den (F := kernelFrame h L) (ts := [t2, t2]) he hl.2 rfl]
        exact (ite_den h hT hmc hy hz).symm
      · cases e
    · rename_i t
      split at e
      · rename_i hl
        cases e
        simp only [Bool.and_eq_true, Bool.not_eq_true'] at hl
        have h2 := level_ok (i := 0) (ts := [t]) hl.1.1 hvb
        simp only [List.getElem?_cons_zero, Option.some.injEq] at h2
        subst h2
        have hpc := part_ok (ts := [t]) hl.1.2 hvc
        have hpa := part_ok (ts := [t]) hl.2 hva
        refine ⟨fun p hp => ?_, fun env he => ?_⟩
        · rcases List.mem_cons.1 hp with rfl | hp
          · exact ⟨_, hpc⟩
          · rw [List.mem_singleton.1 hp]
            exact ⟨_, hpa⟩
        have hen : env.length = Γ.length := by rw [Fits.length he, tys_length]
        have hmc := ok_mem hS c _ _ _ hpc (pad_fits he 1)
        have hma := ok_mem hS a _ _ _ hpa (pad_fits he 1)
        refine lamN_head (mem_appN (F := kernelFrame h L)
          (ts := [vbool M, (kernelFrame h L).ty (typeMeaning M L tv ρ) t]) (xs := [_, _]) (mem_ite_ h L hT)
          ⟨hmc, hma, trivial⟩) fun xs hxs => ?_
        obtain ⟨z, rfl, hz⟩ := fits_one hxs
        simp only [Frame.den]
        rw [level_den (F := kernelFrame h L) (i := 0) hl.1.1 hen rfl, part_den (F := kernelFrame h L) (ts := [t]) he hl.1.2 rfl,
          part_den (F := kernelFrame h L) (ts := [t]) he hl.2 rfl]
        exact (ite_den h hT hmc hma hz).symm
      · cases e
    · cases e
  | _ => intros; simp_all [Value.partialLogical]

/-! ### Matches -/

/-- The variables of a case. -/
def caseVars : Case → List Ty
  | .mk ts _ _ _ _ => ts

theorem casesOk_iff {Γ : List Ty} {ks : List (String × List Ty × List Ty)} {t : Ty} : ∀ (cs : List Case),
    CasesOk S Γ cs ks t ↔ ∀ c ∈ cs, CasesOk S Γ [c] ks t
  | [] => by simp [CasesOk]
  | .mk ts p r i n :: cs => by
    constructor
    · intro hc c hcm
      rcases List.mem_cons.1 hcm with rfl | hcm
      · exact ⟨hc.1, hc.2.1, trivial⟩
      · exact (casesOk_iff cs).1 hc.2.2 c hcm
    · intro hc
      have h1 := hc _ List.mem_cons_self
      exact ⟨h1.1, h1.2.1, (casesOk_iff cs).2 fun c hcm => hc c (List.mem_cons_of_mem _ hcm)⟩

theorem caseOk_get {Γ : List Ty} {ks : List (String × List Ty × List Ty)} {t : Ty} {c : Case}
    (hc : CasesOk S Γ [c] ks t) : Value.caseTotal c = ks.length ∧ ∃ k, ks[Value.caseIndex c]? = some k ∧
      k.2.2 = caseVars c ∧ ValueOk S (Γ ++ caseVars c) (Value.caseResult c) t := by
  obtain ⟨ts, p, r, i, n⟩ := c
  obtain ⟨⟨hn, k, ps, ct, hk, hp⟩, hv, _⟩ := hc
  exact ⟨hn, _, hk, rfl, hv⟩

theorem complete_get {cs : List Case} (hc : Value.casesComplete cs = true) {i : Nat} {c : Case}
    (hi : cs[i]? = some c) : Value.caseIndex c = i ∧ Value.caseTotal c = cs.length := by
  unfold Value.casesComplete at hc
  rw [List.all_eq_true] at hc
  have h1 : (c, i) ∈ cs.zipIdx := by
    rw [List.mem_zipIdx_iff_getElem?]
    exact hi
  have h2 := hc _ h1
  simp only [Bool.and_eq_true, beq_iff_eq] at h2
  exact ⟨h2.2, h2.1⟩

theorem insertCase_perm (c : Case) : ∀ cs : List Case, (Value.insertCase c cs).Perm (c :: cs)
  | [] => .refl _
  | d :: ds => by
    simp only [Value.insertCase]
    split
    · exact .refl _
    · exact ((insertCase_perm c ds).cons d).trans (.swap _ _ _)

theorem insertCase_sorted (c : Case) : ∀ cs : List Case,
    (cs.Pairwise fun a b => Value.caseIndex a ≤ Value.caseIndex b) →
    (Value.insertCase c cs).Pairwise fun a b => Value.caseIndex a ≤ Value.caseIndex b
  | [], _ => by simp [Value.insertCase]
  | d :: ds, hs => by
    obtain ⟨hd, hds⟩ := List.pairwise_cons.1 hs
    simp only [Value.insertCase]
    split
    · rename_i hle
      refine List.pairwise_cons.2 ⟨fun b hb => ?_, hs⟩
      rcases List.mem_cons.1 hb with rfl | hb
      · exact hle
      · exact Nat.le_trans hle (hd b hb)
    · rename_i hle
      refine List.pairwise_cons.2 ⟨fun b hb => ?_, insertCase_sorted c ds hds⟩
      rcases List.mem_cons.1 ((insertCase_perm c ds).mem_iff.1 hb) with rfl | hb
      · omega
      · exact hd b hb

theorem sort_perm : ∀ cs : List Case, (Value.sortCases cs).Perm cs
  | [] => .refl _
  | c :: cs => (insertCase_perm c _).trans ((sort_perm cs).cons c)

theorem sort_sorted : ∀ cs : List Case,
    (Value.sortCases cs).Pairwise fun a b => Value.caseIndex a ≤ Value.caseIndex b
  | [] => .nil
  | c :: cs => insertCase_sorted c _ (sort_sorted cs)

theorem fits_of_get {F : Frame.{u}} : ∀ {xs : List F.D} {ts : List F.T}, xs.length = ts.length →
    (∀ (i : Nat) x t, xs[i]? = some x → ts[i]? = some t → F.mem x t) → F.Fits xs ts
  | [], [], _, _ => trivial
  | x :: xs, t :: ts, hl, hg => ⟨hg 0 x t rfl rfl, fits_of_get (by simpa using hl) fun i x t h1 h2 => hg (i + 1) x t h1 h2⟩
  | [], _ :: _, hl, _ => by simp at hl
  | _ :: _, [], hl, _ => by simp at hl

/-- A match means `v` when every case that can be taken does. -/
theorem denCases_eq {F : Frame.{u}} {C : String → List F.T → F.D} {θ : String → F.T} {Γ : List Ty}
    {ks : List (String × List Ty × List Ty)} {t : Ty} {env : List F.D} {d v : F.D} (he : F.Fits env (F.tys θ Γ)) :
    ∀ (cs : List Case), CasesOk S Γ cs ks t →
    (∀ c ∈ cs, ∀ k, ks[Value.caseIndex c]? = some k → ∀ xs, F.Fits xs (F.tys θ k.2.2) →
      F.appN (C k.1 (F.tys θ k.2.1)) xs = d → F.den C θ (env ++ xs) (Value.caseResult c) = v) →
    (∃ c ∈ cs, ∃ k, ks[Value.caseIndex c]? = some k ∧
      ∃ xs, F.Fits xs (F.tys θ k.2.2) ∧ F.appN (C k.1 (F.tys θ k.2.1)) xs = d) →
    F.denCases C θ env d cs = v
  | [], _, _, ⟨c, hc, _⟩ => by simp at hc
  | .mk ts p r i n :: cs, ⟨⟨_, k, ps, ct, hk, hp⟩, hv, hcs⟩, hall, hx => by
    have hpat := case_pattern (C := C) he (θ := θ) hp
    simp only [Frame.denCases, Frame.pick]
    split
    · rename_i hh
      obtain ⟨h1, h2⟩ := Classical.choose_spec hh
      rw [hpat _ h1] at h2
      exact hall _ List.mem_cons_self _ hk _ h1 h2
    · rename_i hh
      refine denCases_eq he cs hcs (fun c hc => hall c (List.mem_cons_of_mem _ hc)) ?_
      obtain ⟨c, hc, k', hk', xs, hxs, e⟩ := hx
      rcases List.mem_cons.1 hc with rfl | hc
      · simp only [Value.caseIndex] at hk'
        rw [hk] at hk'
        injection hk' with hk'
        subst hk'
        exact (hh ⟨xs, hxs, by rw [hpat xs hxs]; exact e⟩).elim
      · exact ⟨c, hc, k', hk', xs, hxs, e⟩

/-- The function of a case. -/
noncomputable def caseFn (F : Frame.{u}) (C : String → List F.T → F.D) (θ : String → F.T) (env : List F.D) (c : Case) : F.D :=
  F.lamN (F.tys θ (caseVars c)) fun xs => F.den C θ (env ++ xs) (Value.caseResult c)

include hR hA in
theorem match_den {Γ : List Ty} {ks : List (String × List Ty × List Ty)} {t : Ty} {env : List M.D} {x : M.D}
    {d : String} {as : List Ty} {cs : List Case} {m : Symbol}
    (he : (kernelFrame h L).Fits env ((kernelFrame h L).tys (typeMeaning M L tv ρ) Γ))
    (hT : M.mem ((kernelFrame h L).ty (typeMeaning M L tv ρ) t) (vtype0 M))
    (hx : M.mem x ((kernelFrame h L).ty (typeMeaning M L tv ρ) (.data d as)))
    (hk : S.constructors d as ks) (hi : ∀ i, i < ks.length → ∃ c ∈ cs, Value.caseIndex c = i)
    (hc : CasesOk S Γ cs ks t) (hcomp : Value.casesComplete (Value.sortCases cs) = true) (hne : cs ≠ [])
    (hm : L.symbol (d ++ ".match") = some m) :
    (kernelFrame h L).appN ((kernelFrame h L).appN (M.sym m) ((kernelFrame h L).tys (typeMeaning M L tv ρ) as))
      ((kernelFrame h L).ty (typeMeaning M L tv ρ) t :: x :: (Value.sortCases cs).map
        (caseFn (kernelFrame h L) (constMeaning M L) (typeMeaning M L tv ρ) env)) =
      (kernelFrame h L).denCases (constMeaning M L) (typeMeaning M L tv ρ) env x cs := by
  have hS := sound h L hR hA
  have hperm := sort_perm cs
  have hok : ∀ c ∈ Value.sortCases cs, CasesOk S Γ [c] ks t := fun c hcm =>
    (casesOk_iff cs).1 hc c (hperm.mem_iff.1 hcm)
  have hlen : (Value.sortCases cs).length = ks.length := by
    obtain ⟨c, hcm⟩ := List.exists_mem_of_ne_nil cs hne
    have hcm := hperm.mem_iff.2 hcm
    obtain ⟨i, hlt, hget⟩ := List.getElem_of_mem hcm
    have h1 := complete_get hcomp (i := i) (c := c) (by rw [List.getElem?_eq_getElem hlt, hget])
    rw [← h1.2]
    exact (caseOk_get (hok c hcm)).1
  have hfits : (kernelFrame h L).Fits ((Value.sortCases cs).map
      (caseFn (kernelFrame h L) (constMeaning M L) (typeMeaning M L tv ρ) env))
      (ks.map fun k => (kernelFrame h L).fnN ((kernelFrame h L).tys (typeMeaning M L tv ρ) k.2.2)
        ((kernelFrame h L).ty (typeMeaning M L tv ρ) t)) := by
    refine fits_of_get (by simp [hlen]) fun i f T h1 h2 => ?_
    rw [List.getElem?_map, Option.map_eq_some_iff] at h1 h2
    obtain ⟨c, hci, rfl⟩ := h1
    obtain ⟨k, hki, rfl⟩ := h2
    have hidx := (complete_get hcomp hci).1
    obtain ⟨_, k', hk', hvars, hv⟩ := caseOk_get (hok c (List.mem_of_getElem? hci))
    rw [hidx, hki] at hk'
    injection hk' with hk'
    subst hk'
    rw [hvars]
    refine mem_lamN fun xs hxs => ok_mem hS _ _ t _ hv ?_
    rw [tys_append]
    exact Fits.append he hxs
  have hch : ∀ c ∈ cs, ∀ k, ks[Value.caseIndex c]? = some k → ∀ xs,
      (kernelFrame h L).Fits xs ((kernelFrame h L).tys (typeMeaning M L tv ρ) k.2.2) →
      (kernelFrame h L).appN (constMeaning M L k.1 ((kernelFrame h L).tys (typeMeaning M L tv ρ) k.2.1)) xs = x →
      (kernelFrame h L).den (constMeaning M L) (typeMeaning M L tv ρ) (env ++ xs) (Value.caseResult c) =
        (kernelFrame h L).appN ((kernelFrame h L).appN (M.sym m) ((kernelFrame h L).tys (typeMeaning M L tv ρ) as))
          ((kernelFrame h L).ty (typeMeaning M L tv ρ) t :: x :: (Value.sortCases cs).map
            (caseFn (kernelFrame h L) (constMeaning M L) (typeMeaning M L tv ρ) env)) := by
    intro c hcm k hki xs hxs e
    have h1 := hA.chooses d as ks m hk hm _ _ hT hfits _ k xs hki hxs
    rw [e] at h1
    rw [h1]
    have hcs := hperm.mem_iff.2 hcm
    obtain ⟨i, hlt, hget⟩ := List.getElem_of_mem hcs
    have hci : (Value.sortCases cs)[i]? = some c := by rw [List.getElem?_eq_getElem hlt, hget]
    have hidx := (complete_get hcomp hci).1
    rw [hidx, List.getD_eq_getElem?_getD, List.getElem?_map, hci]
    obtain ⟨_, k', hk', hvars, hv⟩ := caseOk_get (hok c hcs)
    rw [hki] at hk'
    injection hk' with hk'
    subst hk'
    rw [hvars] at hxs
    exact (appN_lamN (F := kernelFrame h L) (k := fun xs =>
      (kernelFrame h L).den (constMeaning M L) (typeMeaning M L tv ρ) (env ++ xs) (Value.caseResult c)) hxs).symm
  refine (denCases_eq he cs hc hch ?_).symm
  obtain ⟨k, hkm, xs, hxs, e⟩ := hA.covers d as ks hk _ hx
  obtain ⟨i, hlt, hget⟩ := List.getElem_of_mem hkm
  obtain ⟨c, hcm, hci⟩ := hi i hlt
  exact ⟨c, hcm, k, by rw [hci, List.getElem?_eq_getElem hlt, hget], xs, hxs, e⟩

/-! ### The terms of values -/

theorem args_ok {Γ : List Ty} : ∀ {as : List Value} {u t : Ty}, ArgsOk S Γ as u t →
    ∀ a ∈ as, ∃ t, ValueOk S Γ a t
  | [], _, _, _, a, ha => by simp at ha
  | b :: as, _, _, ⟨p, ps, r, _, hb, hs⟩, a, ha => by
    rcases List.mem_cons.1 ha with rfl | ha
    · exact ⟨p, hb⟩
    · exact args_ok hs a ha

include hR hA in
theorem lower_spec (prefer : Bool) : ∀ fuel : Nat,
    (∀ st v term Γ t env β, Value.lower L tv prefer fuel st v = some term → ValueOk S Γ v t →
      (kernelFrame h L).Fits env ((kernelFrame h L).tys (typeMeaning M L tv ρ) Γ) → st.map (eval M ρ β) = env →
      eval M ρ β term = (kernelFrame h L).den (constMeaning M L) (typeMeaning M L tv ρ) env v) ∧
    (∀ st vs terms Γ env β, Value.lowerAll L tv prefer fuel st vs = some terms →
      (∀ v ∈ vs, ∃ t, ValueOk S Γ v t) →
      (kernelFrame h L).Fits env ((kernelFrame h L).tys (typeMeaning M L tv ρ) Γ) → st.map (eval M ρ β) = env →
      terms.map (eval M ρ β) = (kernelFrame h L).denAll (constMeaning M L) (typeMeaning M L tv ρ) env vs) ∧
    (∀ st q ts b term Γ t env β, Value.lowerBinder L tv prefer fuel st q ts b = some term →
      ValueOk S (Γ ++ ts) b t →
      (kernelFrame h L).Fits env ((kernelFrame h L).tys (typeMeaning M L tv ρ) Γ) → st.map (eval M ρ β) = env →
      eval M ρ β term = bindN M q ((kernelFrame h L).tys (typeMeaning M L tv ρ) ts) fun xs =>
        (kernelFrame h L).den (constMeaning M L) (typeMeaning M L tv ρ) (env ++ xs) b) ∧
    (∀ st cs terms Γ ks t env β, Value.lowerCases L tv prefer fuel st cs = some terms →
      CasesOk S Γ cs ks t →
      (kernelFrame h L).Fits env ((kernelFrame h L).tys (typeMeaning M L tv ρ) Γ) → st.map (eval M ρ β) = env →
      terms.map (eval M ρ β) =
        cs.map (caseFn (kernelFrame h L) (constMeaning M L) (typeMeaning M L tv ρ) env)) := by
  have hS := sound h L hR hA
  intro fuel
  induction fuel with
  | zero =>
    refine ⟨fun st v term Γ t env β e => ?_, fun st vs terms Γ env β e => ?_, fun st q ts b term Γ t env β e => ?_,
      fun st cs terms Γ ks t env β e => ?_⟩ <;>
      simp [Value.lower, Value.lowerAll, Value.lowerBinder, Value.lowerCases] at e
  | succ fuel ih =>
    obtain ⟨ih1, ih2, ih3, ih4⟩ := ih
    refine ⟨fun st v term Γ t env β e hv he hst => ?_, fun st vs terms Γ env β e hv he hst => ?_,
      fun st q ts b term Γ t env β e hv he hst => ?_, fun st cs terms Γ ks t env β e hc he hst => ?_⟩
    · have hen : env.length = Γ.length := by rw [Fits.length he, tys_length]
      have hstl : st.length = Γ.length := by rw [← hen, ← hst, List.length_map]
      cases v with
      | var i t' =>
        simp only [Value.lower] at e
        subst hst
        simp only [Frame.den, List.getD_eq_getElem?_getD, List.getElem?_map, e]
        rfl
      | const n ps t' =>
        simp only [Value.lower, Value.lowerConst] at e
        simp only [Frame.den]
        split at e
        · rename_i s hs
          cases e
          split at hs
          · exact hA.alias_ n ps s hs
          · cases hs
        · simp only [Option.bind_eq_bind, Option.pure_def] at e
          obtain ⟨s, hs, e⟩ := Option.bind_eq_some_iff.1 e
          obtain ⟨as, has, e⟩ := Option.bind_eq_some_iff.1 e
          cases e
          rw [eval_apply, eval_lowerTypes h L tv ρ ps as has β]
          simp only [constMeaning, hs]
          rfl
      | app f as =>
        obtain ⟨u, hf, ha⟩ := hv
        simp only [Value.lower, Option.bind_eq_bind, Option.pure_def] at e
        obtain ⟨f', hf', e⟩ := Option.bind_eq_some_iff.1 e
        obtain ⟨as', has, e⟩ := Option.bind_eq_some_iff.1 e
        cases e
        rw [eval_apply, ih1 st f f' Γ u env β hf' hf he hst, ih2 st as as' Γ env β has (args_ok ha) he hst]
        rfl
      | tapp _ _ _ => exact hv.elim
      | lam ts b =>
        obtain ⟨r, _, hb⟩ := hv
        simp only [Value.lower] at e
        split at e
        · rename_i s o parts hp
          rw [hstl] at hp
          obtain ⟨h1, h2⟩ := partial_den h L hR hA b ts s o parts Γ r hp hb
          simp only [Option.bind_eq_bind, Option.pure_def] at e
          obtain ⟨ty, hty, e⟩ := Option.bind_eq_some_iff.1 e
          obtain ⟨ps, hps, e⟩ := Option.bind_eq_some_iff.1 e
          cases e
          have h3 := ih2 _ parts ps _ (env ++ List.replicate ts.length (vtt M)) β hps h1
            (pad_fits (F := kernelFrame h L) he ts.length) (by
              rw [List.map_append, hst, List.map_replicate]
              rfl)
          rw [eval_apply, List.map_append, h3, eval_lowerTypes h L tv ρ _ ty hty β]
          exact (h2 env he).symm
        · rw [ih3 st .lam ts b term Γ r env β e hb he hst, bindN_lam h L]
          rfl
      | all ts b =>
        simp only [Value.lower] at e
        rw [ih3 st .all ts b term Γ _ env β e hv.2 he hst]
        obtain ⟨h1, h2⟩ := all_den h L _ _ (fun xs hxs => ok_mem hS b _ _ (env ++ xs) hv.2
          (by rw [tys_append]; exact Fits.append he hxs))
        exact bool_eq (F := kernelFrame h L) h1 h2
      | ex ts b =>
        simp only [Value.lower] at e
        rw [ih3 st .ex ts b term Γ _ env β e hv.2 he hst]
        obtain ⟨h1, h2⟩ := ex_den h L _ _ (fun xs hxs => ok_mem hS b _ _ (env ++ xs) hv.2
          (by rw [tys_append]; exact Fits.append he hxs))
        exact bool_eq (F := kernelFrame h L) h1 h2
      | group a => exact ih1 st a term Γ t env β e hv he hst
      | bin op a b =>
        obtain ⟨_, u, hva, hvb, hsm, hop⟩ := hv
        have hT := small_mem h L hR hA _ hsm
        simp only [Value.lower, Option.bind_eq_bind, Option.pure_def] at e
        obtain ⟨l, hl, e⟩ := Option.bind_eq_some_iff.1 e
        obtain ⟨r, hr, e⟩ := Option.bind_eq_some_iff.1 e
        have e1 := ih1 st a l Γ u env β hl hva he hst
        have e2 := ih1 st b r Γ u env β hr hvb he hst
        have m1 := ok_mem hS a Γ u env hva he
        have m2 := ok_mem hS b Γ u env hvb he
        cases op with
        | and =>
          obtain rfl : u = .bool := hop.resolve_left (by simp) |>.resolve_left (by simp)
          cases e
          rw [eval_apply]
          simp only [List.map_cons, List.map_nil, List.foldl_cons, List.foldl_nil, e1, e2]
          exact and_den h L m1 m2
        | or =>
          obtain rfl : u = .bool := hop.resolve_left (by simp) |>.resolve_left (by simp)
          cases e
          rw [eval_apply]
          simp only [List.map_cons, List.map_nil, List.foldl_cons, List.foldl_nil, e1, e2]
          exact or_den h L m1 m2
        | implies =>
          obtain rfl : u = .bool := hop.resolve_left (by simp) |>.resolve_left (by simp)
          cases e
          rw [eval_apply]
          simp only [List.map_cons, List.map_nil, List.foldl_cons, List.foldl_nil, e2]
          rw [eval_apply]
          simp only [List.map_cons, List.map_nil, List.foldl_cons, List.foldl_nil, e1]
          show M.app (M.app (M.sym .or_) (M.app (M.sym .not_) _)) _ = _
          rw [not_den h L m1, or_den h L (mem_ofProp (F := kernelFrame h L) _) m2]
          refine ofProp_congr ?_
          show _ ↔ (_ = vtt M → _ = vtt M)
          rw [show ((kernelFrame h L).ofProp _ = vtt M) ↔ _ from ofProp_tt (F := kernelFrame h L)]
          exact ⟨fun hh hp => hh.resolve_left (not_not_intro hp), fun hh => (Classical.em _).elim (fun hp => .inr (hh hp)) .inl⟩
        | equals =>
          obtain ⟨T, hTl, e⟩ := Option.bind_eq_some_iff.1 e
          cases e
          rw [eval_apply]
          simp only [List.map_cons, List.map_nil, List.foldl_cons, List.foldl_nil, e1, e2,
            eval_lowerType h L tv ρ u T (lowerValueType_ok hR hva hTl) β]
          exact eq_den h L hT m1 m2
        | notEquals =>
          obtain ⟨T, hTl, e⟩ := Option.bind_eq_some_iff.1 e
          cases e
          rw [eval_apply]
          simp only [List.map_cons, List.map_nil, List.foldl_cons, List.foldl_nil]
          rw [eval_apply]
          simp only [List.map_cons, List.map_nil, List.foldl_cons, List.foldl_nil, e1, e2,
            eval_lowerType h L tv ρ u T (lowerValueType_ok hR hva hTl) β]
          show M.app (M.sym .not_) (M.app (M.app (M.app (M.sym .eq_) _) _) _) = _
          rw [eq_den h L hT m1 m2, not_den h L (mem_ofProp (F := kernelFrame h L) _)]
          refine ofProp_congr ?_
          rw [show ((kernelFrame h L).ofProp _ ≠ vtt M) ↔ _ from not_congr (ofProp_tt (F := kernelFrame h L))]
          exact Iff.rfl
      | not a =>
        simp only [Value.lower, Option.bind_eq_bind, Option.pure_def] at e
        obtain ⟨l, hl, e⟩ := Option.bind_eq_some_iff.1 e
        cases e
        rw [eval_apply]
        simp only [List.map_cons, List.map_nil, List.foldl_cons, List.foldl_nil, ih1 st a l Γ _ env β hl hv.2 he hst]
        exact not_den h L (ok_mem hS a Γ _ env hv.2 he)
      | try_ _ _ => exact hv.elim
      | bool b =>
        simp only [Value.lower] at e
        cases e
        cases b with
        | true => exact ((ofProp_tt (F := kernelFrame h L)).2 rfl).symm
        | false =>
          simp only [Frame.den, Frame.ofProp, Bool.false_eq_true, if_false]
          rfl
      | ite c a b =>
        obtain ⟨hsm, hvc, hva, hvb⟩ := hv
        simp only [Value.lower, Option.bind_eq_bind, Option.pure_def] at e
        obtain ⟨c', hc, e⟩ := Option.bind_eq_some_iff.1 e
        obtain ⟨a', ha, e⟩ := Option.bind_eq_some_iff.1 e
        obtain ⟨b', hb, e⟩ := Option.bind_eq_some_iff.1 e
        obtain ⟨T, hTl, e⟩ := Option.bind_eq_some_iff.1 e
        cases e
        rw [eval_apply]
        simp only [List.map_cons, List.map_nil, List.foldl_cons, List.foldl_nil,
          ih1 st c c' Γ _ env β hc hvc he hst, ih1 st a a' Γ _ env β ha hva he hst, ih1 st b b' Γ _ env β hb hvb he hst,
          eval_lowerType h L tv ρ t T (lowerValueType_ok hR hva hTl) β]
        exact ite_den h (small_mem h L hR hA _ hsm) (ok_mem hS c Γ _ env hvc he) (ok_mem hS a Γ _ env hva he)
          (ok_mem hS b Γ _ env hvb he)
      | match_ s cs =>
        obtain ⟨hsm, hne, d, as, ks, hs, hk, hi, hc⟩ := hv
        simp only [Value.lower, getType_ok s Γ _ hs] at e
        cases cs with
        | nil => exact absurd rfl hne
        | cons c0 cs0 =>
          obtain ⟨ts0, p0, r0, i0, n0⟩ := c0
          simp only at e
          split at e
          · rename_i hcond
            simp only [Bool.and_eq_true] at hcond
            simp only [Option.bind_eq_bind, Option.pure_def] at e
            obtain ⟨m, hm, e⟩ := Option.bind_eq_some_iff.1 e
            obtain ⟨as', has, e⟩ := Option.bind_eq_some_iff.1 e
            obtain ⟨T, hTl, e⟩ := Option.bind_eq_some_iff.1 e
            obtain ⟨s', hs', e⟩ := Option.bind_eq_some_iff.1 e
            obtain ⟨cs', hcs', e⟩ := Option.bind_eq_some_iff.1 e
            cases e
            have hcs2 := ih4 st _ cs' Γ ks t env β hcs' ((casesOk_iff _).2 fun c hcm =>
              (casesOk_iff _).1 hc c ((sort_perm _).mem_iff.1 hcm)) he hst
            have hmd := match_den h L hR hA he (small_mem h L hR hA _ hsm) (ok_mem hS s Γ _ env hs he) hk hi hc hcond.2
              hne hm
            rw [eval_apply, eval_apply]
            simp only [List.map_cons, List.map_append, List.map_nil, List.foldl_append, List.foldl_cons, List.foldl_nil,
              hcs2, ih1 st s s' Γ _ env β hs' hs he hst, eval_lowerTypes h L tv ρ as as' has β,
              eval_lowerType h L tv ρ t T (lowerValueType_ok hR hc.2.1 hTl) β]
            exact hmd
          · cases e
    · cases vs with
      | nil =>
        simp only [Value.lowerAll] at e
        cases e
        rfl
      | cons v vs =>
        simp only [Value.lowerAll, Option.bind_eq_bind, Option.pure_def] at e
        obtain ⟨v', hv', e⟩ := Option.bind_eq_some_iff.1 e
        obtain ⟨vs', hvs', e⟩ := Option.bind_eq_some_iff.1 e
        cases e
        obtain ⟨t, ht⟩ := hv v List.mem_cons_self
        simp only [List.map_cons, Frame.denAll, ih1 st v v' Γ t env β hv' ht he hst,
          ih2 st vs vs' Γ env β hvs' (fun w hw => hv w (List.mem_cons_of_mem _ hw)) he hst]
    · simp only [Value.lowerBinder, Option.bind_eq_bind, Option.pure_def] at e
      obtain ⟨Ts, hTs, e⟩ := Option.bind_eq_some_iff.1 e
      obtain ⟨st', hst', e⟩ := Option.bind_eq_some_iff.1 e
      obtain ⟨b', hb', e⟩ := Option.bind_eq_some_iff.1 e
      cases e
      rw [eval_binds ρ q b' Ts _ β (eval_lowerTypes h L tv ρ ts Ts hTs)]
      refine bindN_congr h L q fun xs hxs => ?_
      have hl : xs.length = ts.length := by
        rw [Fits.length (F := kernelFrame h L) hxs, tys_length (F := kernelFrame h L)]
      refine ih1 st' b b' (Γ ++ ts) t (env ++ xs) (pushN xs β) hb' hv ?_ ?_
      · rw [tys_append]
        exact Fits.append he hxs
      · rw [eval_pushVars ρ xs st st' β (by rw [hl]; exact hst'), hst]
    · cases cs with
      | nil =>
        simp only [Value.lowerCases] at e
        cases e
        rfl
      | cons c cs =>
        obtain ⟨ts, p, r, i, n⟩ := c
        simp only [Value.lowerCases, Option.bind_eq_bind, Option.pure_def] at e
        obtain ⟨c', hc', e⟩ := Option.bind_eq_some_iff.1 e
        obtain ⟨cs', hcs', e⟩ := Option.bind_eq_some_iff.1 e
        cases e
        simp only [List.map_cons, ih4 st cs cs' Γ ks t env β hcs' hc.2.2 he hst,
          ih3 st .lam ts r c' Γ t env β hc' hc.2.1 he hst, bindN_lam h L]
        rfl


end main
end Elab
end Acorn
