/-
C26: variables are only dropped over inhabited types.
-/
import Verif.Lemmas.Elimination
import Verif.Props.Checker
import Verif.Spec.Zoo
namespace Acorn
open Spec Term

universe u

variable {K : KCtx} {Γ : LCtx} {M : Interp.{u}} {ρ : Nat → M.D} {W : Witnesses} {env : CheckEnv} {s : Checker}

/-- C26: the witness found for a type of values is an element of it, in every interpretation.

Partial: for tables filled from declarations that are `Honest`.  The code records any declaration; for the
others the claim is false (`C26_argument_class_ignored`, `C26_wrong_parameter`). -/
theorem C26_witness_real_partial (hP : TypeParams K) {bases : Id2 → List Id2} {inst : Id2 → Option Id2}
    (hb : ∀ c d, d ∈ bases c → K.tcExtends c d = true) {ds : List (Symbol × Term)} (hd : ∀ d ∈ ds, Honest K d.1 d.2)
    (L : Lawful K M) (hρ : Models M Γ ρ) {allow : Bool} {fuel : Nat} {T w : Term} (hT : STyped K Γ BCtx.nil T .isTy)
    (hv : endsKind T = false)
    (e : findInhabitant K ((Witnesses.empty bases inst).recordAll ds) allow (some Γ) fuel [] T = .done (some w)) :
    Denotes M ρ w T :=
  findInhabitant_sound hP (recordAll_truthful (empty_truthful hb) hd) L hρ (Γ' := some Γ) (fun _ _ h => h) hT hv e

/-- C26: if the test lets the checker drop variables, their types have elements, whatever the values of the
variables before them.

Partial: for variables whose types are types of values and not just type variables.  For type variables it
is false (`C26_own_witness`, `C26_base_instance`), and so it is for values of variable types
(`C26_one_instance_enough`). -/
theorem C26_guard_real_partial (hE : UsesTables K W env) (L : Lawful K M) (hs : KeysTrue M s.inhabited) {t : Trace}
    (ho : CtxOrdered t.preCtx) (hd : ∀ i T, t.preCtx.get i = some T → i ∉ t.varIds → ValueTypeAt K t.preCtx i T)
    (hg : Checker.guard env s t = true) {i : Nat} {T : Term} (hi : t.preCtx.get i = some T) (hn : i ∉ t.varIds)
    (hρ : Models M (t.preCtx.take i) ρ) : ∃ d, ∀ β, M.mem d (eval M ρ β T) :=
  guard_inhabited hE L hs ho hd hg i T hi hn ρ hρ

/-- C26: normalizing a derived clause, which may drop variables, keeps it true, also with empty types.

Partial: for clauses about values. -/
theorem C26_drop_sound_partial (hE : UsesTables K W env) (L : Lawful K M) (hs : KeysTrue M s.inhabited) {c d : Clause}
    (hv : ValueVars K c.ctx) (ht : LitsTyped K c.ctx c.lits) (hc : ClauseTrue M c)
    (e : Checker.normFound env s c.lits c.ctx = some d) : ClauseTrue M d :=
  (Fine.found hE L hs (ls := c.lits) (Γ := c.ctx) ⟨hv, fun _ _ => ht, hc⟩ e).truth

/-- C26: the boolean reductions the checker uses, which may drop variables, are consequences of the clause,
also with empty types.

Partial: for clauses about values. -/
theorem C26_reduction_sound_partial (hE : UsesTables K W env) (L : Lawful K M) (hs : KeysTrue M s.inhabited)
    {c : Clause} (hp : PlainClause K c) (hc : ClauseTrue M c) {rs : List Clause}
    (e : Checker.boolReductions env s c = .done rs) : ∀ r ∈ rs, ClauseTrue M r :=
  fun r hr => (Fine.reductions hE L hs hp hc e r hr).truth

/-- C26: a type is recorded as inhabited only if it is.

Partial: for clauses about values, and only if their own variables have values; otherwise it is false
(`C26_open_claim`). -/
theorem C26_recorded_real_partial (L : Lawful K M) (hs : KeysTrue M s.inhabited) {c : Clause} (hp : PlainClause K c)
    (hc : ClauseTrue M c) (hm : ∃ ρ, Models M c.ctx ρ) {key : Option (Term × LCtx)} {s' : Checker}
    (e : Checker.markInhabited K s c = .done (key, s')) : KeysTrue M s'.inhabited :=
  markInhabited_true L hs hp hc hm e

/-- C22: the tests for types that are said to be empty and to be inhabited report no contradiction while the
clauses can be true together, also with empty types.

Partial: for clauses about values whose own variables have values. -/
theorem C22_empty_type_real_partial (L : Lawful K M) (hs : KeysTrue M s.inhabited) (hx : ∀ d ∈ s.exact.keys, Sane K M d)
    {c : Clause} (hc : Sane K M c) : (s.noteEmpty c).contra = s.contra ∧
    ∀ b s', Checker.noteInhabited K s c = .done (b, s') → s'.contra = s.contra ∧ KeysTrue M s'.inhabited :=
  ⟨noteEmpty_contra L hs hc, fun _ _ e => noteInhabited_contra L hs hx hc e⟩

/-- A dropped variable for whose type there is neither a record nor a witness. -/
def Spec.Unsupported (env : CheckEnv) (s : Checker) (t : Trace) : Prop :=
  ∃ i T, t.preCtx.get i = some T ∧ i ∉ t.varIds ∧
    (∀ key, Checker.typeKey T t.preCtx = some key → key ∉ s.inhabited) ∧ env.inh T t.preCtx = false

theorem guard_false {t : Trace} : Checker.guard env s t = false ↔ Unsupported env s t := by
  rw [Checker.guard, List.all_eq_false]
  constructor
  · rintro ⟨i, hi, h⟩
    unfold Checker.varInhabited at h
    split at h
    · exact absurd rfl h
    · rename_i hn
      cases hT : t.preCtx.get i with
      | none => rw [hT] at h; exact absurd rfl h
      | some T =>
        rw [hT] at h
        simp only [Bool.or_eq_true, not_or, Bool.not_eq_true] at h
        refine ⟨i, T, hT, by simpa using hn, fun key ek => ?_, h.2⟩
        have := h.1
        rw [ek] at this
        simpa using this
  · rintro ⟨i, T, hT, hn, hk, hi⟩
    have hlt : i < t.preCtx.length := by
      rcases Nat.lt_or_ge i t.preCtx.length with h | h
      · exact h
      · rw [LCtx.get, List.getElem?_eq_none h] at hT; cases hT
    refine ⟨i, List.mem_range.2 hlt, ?_⟩
    unfold Checker.varInhabited
    rw [if_neg (by simpa using hn), hT]
    simp only [hi, Bool.or_false, Bool.not_eq_true]
    cases ek : Checker.typeKey T t.preCtx with
    | none => rfl
    | some key => simpa using hk key ek

/-- C26: when a drop is refused, nothing is inferred: the loops over derived clauses go on with the next one,
in the same state. -/
theorem C26_refused_nothing {ls : List Literal} {t : Trace} (e : Clause.normalizeWithTrace ⟨ls, Γ⟩ = some t)
    (h : Unsupported env s t) (ins : Checker → Clause → StepReason → Out Checker) (reason : StepReason)
    (rest : List (List Literal × LCtx)) :
    Checker.insertFound env ins reason s ((ls, Γ) :: rest) = Checker.insertFound env ins reason s rest := by
  have hg := guard_false.2 h
  have : Checker.normFound env s ls Γ = none := by
    simp [Checker.normFound, e, Checker.normTrace, Trace.checkerClause, hg]
  simp [Checker.insertFound, this]

/-- C26: every boolean reduction that is used comes from one whose drops were supported. -/
theorem C26_refused_reductions {c : Clause} {rs : List Clause} (e : Checker.boolReductions env s c = .done rs)
    {r : Clause} (hr : r ∈ rs) : ∃ k i t, c.boolReductionAt env.fuel env.K k i = some t ∧ ¬ Unsupported env s t ∧
      Checker.normTrace env s t = some r := by
  simp only [Checker.boolReductions, Out.bind_done, Out.ofOption_done] at e
  obtain ⟨found, e1, e⟩ := e
  rw [Out.pure_done] at e
  subst e
  obtain ⟨⟨k, i, t⟩, hm, er⟩ := List.mem_filterMap.1 hr
  dsimp only at er
  split at er
  · cases er
  · refine ⟨k, i, t, (findBoolReductions_spec e1).2 k i t hm, fun h => ?_, er⟩
    rw [← guard_false] at h
    simp [Checker.normTrace, Trace.checkerClause, h] at er

/-! ### Examples -/

namespace Zoo
open Spec.Zoo

theorem z_sym {Γ : LCtx} {Δ : BCtx} {s : Symbol} {T : Term} (hk : isKindSym s = false)
    (h : Spec.Zoo.K.symbolType s = some T) (h1 : T.escapes = false) (h2 : T.hasAnyVar = false) :
    STyped Spec.Zoo.K Γ Δ (.sym s) (.ty T) := .sym hk h (Demo.ground_of h1 h2)

theorem z_nat {Γ : LCtx} {Δ : BCtx} : STyped Spec.Zoo.K Γ Δ nat (.ty .type0) := z_sym rfl rfl rfl rfl
theorem z_void {Γ : LCtx} {Δ : BCtx} : STyped Spec.Zoo.K Γ Δ void (.ty .type0) := z_sym rfl rfl rfl rfl
theorem z_wrap {Γ : LCtx} {Δ : BCtx} {A : Term} (h : STyped Spec.Zoo.K Γ Δ A (.ty .type0)) :
    STyped Spec.Zoo.K Γ Δ (.app wrap A) (.ty .type0) :=
  .appTy (B := .type0) (z_sym rfl rfl rfl rfl) h rfl

/-- `nat` is recorded as the instance of the first two classes; the third extends the second. -/
def tables (ds : List (Symbol × Term)) : Witnesses :=
  (Witnesses.empty (fun c => if c = (0, 2) then [(0, 1)] else [])
    (fun c => if c = (0, 0) ∨ c = (0, 1) then some (0, 0) else none)).recordAll ds

/-- Declarations that are honest. -/
def good : List (Symbol × Term) :=
  [(.global 0 0, nat), (.global 0 1, .pi pointed (.bvar 0)), (.global 0 4, .pi .type0 (.pi (.bvar 0) (.app wrap (.bvar 1))))]

theorem params : TypeParams Spec.Zoo.K := by
  constructor
  · intro g k hk
    simp only [Spec.Zoo.K] at hk
    split at hk
    · rw [List.mem_singleton] at hk; subst hk; rfl
    · cases hk
  · intro g c h; cases h

theorem bases_ok (c d : Id2) (h : d ∈ (if c = (0, 2) then [(0, 1)] else [] : List Id2)) : Spec.Zoo.K.tcExtends c d = true := by
  split at h
  · rename_i e
    subst e
    rw [List.mem_singleton] at h
    subst h
    rfl
  · cases h

theorem good_honest : ∀ d ∈ good, Honest Spec.Zoo.K d.1 d.2 := by
  intro d hd
  simp only [good, List.mem_cons, List.not_mem_nil, or_false] at hd
  rcases hd with rfl | rfl | rfl
  · refine ⟨rfl, rfl, Demo.ground_of rfl rfl, .tyOf z_nat, trivial, trivial, fun n h h' => ?_, fun m l h j A B e => ?_⟩
    · simp [leadKinds] at h'
    · simp [leadKinds] at e
  · refine ⟨rfl, rfl, Demo.ground_of rfl rfl, .tyPi .tyClass (.tyOf (.forget (m := 0) (l := 0) (.bvar rfl))),
      ⟨.inl rfl, trivial⟩, ⟨.inl rfl, trivial⟩, fun n h h' => ?_, fun m l h => by cases h⟩
    · have : n + 1 = 1 := h'
      omega
  · refine ⟨rfl, rfl, Demo.ground_of rfl rfl, .tyPi .tyType0 (.tyPi (.tyOf (.bvar rfl)) (.tyOf (z_wrap (.bvar rfl)))),
      ⟨.inl rfl, .inr rfl, trivial⟩, ⟨.inl rfl, .inr fun s h => (by cases h), trivial⟩, fun n h h' => ?_,
      fun m l h j A B e e' => ?_⟩
    · have : n + 1 = 1 := h'
      omega
    · cases h
      match j, e with
      | 0, e => cases e; exact .inr rfl

/-- A checker that uses the tables. -/
def zoo (ds : List (Symbol × Term)) : CheckEnv :=
  { CheckerExample.env with K := Spec.Zoo.K, inh := inhabitedTest Spec.Zoo.K (tables ds) 12 }

theorem uses : UsesTables Spec.Zoo.K (tables good) (zoo good) :=
  ⟨rfl, params, recordAll_truthful (empty_truthful bases_ok) good_honest, 12, rfl⟩

/-- `not tiny(nat)`, for all `x : wrap(nat)` and `f : void → nat`. -/
def c1 : Clause := ⟨[⟨false, .app tiny nat, .tt⟩], [some (.app wrap nat), some (.pi void nat)]⟩
/-- `not tiny(nat)`. -/
def c2 : Clause := ⟨[⟨false, .app tiny nat, .tt⟩], []⟩
/-- `forall(x: wrap(nat)) { not tiny(nat) }`. -/
def c3 : Clause := ⟨[⟨true, .all (.app wrap nat) (.app (.sym .not_) (.app tiny nat)), .tt⟩], []⟩
/-- `forall(x: T) { zero != zero }`. -/
def c4 (T : Term) : Clause := ⟨[⟨false, zero, zero⟩], [some T]⟩
/-- `tiny(x) != tiny(x)`, for all types `x` of the class `special`. -/
def c5 : Clause := ⟨[⟨false, .app tiny (.fvar 0), .app tiny (.fvar 0)⟩], [some special]⟩
/-- `exists(x: wrap(nat)) { true }`. -/
def c6 : Clause := ⟨[⟨true, .ex (.app wrap nat) .tt, .tt⟩], []⟩

theorem z_tt {Γ : LCtx} {Δ : BCtx} : STyped Spec.Zoo.K Γ Δ .tt (.ty .boolTy) := z_sym rfl rfl rfl rfl
theorem z_bool {Γ : LCtx} {Δ : BCtx} : STyped Spec.Zoo.K Γ Δ .boolTy (.ty .type0) := z_sym rfl rfl rfl rfl
theorem z_tiny {Γ : LCtx} {Δ : BCtx} {A : Term} (h : STyped Spec.Zoo.K Γ Δ A (.ty .type0)) :
    STyped Spec.Zoo.K Γ Δ (.app tiny A) (.ty .boolTy) :=
  .appTy (B := .boolTy) (z_sym rfl rfl rfl rfl) h rfl
theorem z_zero {Γ : LCtx} {Δ : BCtx} : STyped Spec.Zoo.K Γ Δ zero (.ty nat) := z_sym rfl rfl rfl rfl

/-- `nat` has more than one element. -/
theorem not_tiny (ρ β : Nat → Spec.Zoo.M.D) : eval Spec.Zoo.M ρ β (.app tiny nat) ≠ eval Spec.Zoo.M ρ β .tt := by
  show SetModel.app (Spec.Zoo.vals (.global 0 5)) ZFSet.omega ≠ SetModel.tt
  rw [show SetModel.app (Spec.Zoo.vals (.global 0 5)) ZFSet.omega = SetModel.ofProp (∀ a ∈ ZFSet.omega,
    ∀ b ∈ ZFSet.omega, a = b) from SetModel.app_lam SetModel.U_omega]
  intro h
  have := SetModel.ofProp_tt.1 h ∅ ZFSet.omega_zero (insert ∅ ∅) (ZFSet.omega_succ ZFSet.omega_zero)
  have h2 : (∅ : ZFSet.{1}) ∈ (insert ∅ ∅ : ZFSet) := ZFSet.mem_insert _ _
  rw [← this] at h2
  exact ZFSet.notMem_empty _ h2

theorem true2 {Γ : LCtx} : ClauseTrue Spec.Zoo.M ⟨c2.lits, Γ⟩ := fun ρ _ β => ⟨_, List.mem_cons_self, not_tiny ρ β⟩

theorem vars1 : ValueVars Spec.Zoo.K c1.ctx := by
  intro i T h
  match i, h with
  | 0, h => cases h; exact z_wrap z_nat
  | 1, h => cases h; exact .pi z_void z_nat

theorem typed1 : LitsTyped Spec.Zoo.K c1.ctx c1.lits := by
  intro l hl
  simp only [c1, List.mem_cons, List.not_mem_nil, or_false] at hl
  subst hl
  exact ⟨.boolTy, z_tiny z_nat, z_tt⟩

theorem out_eq {α : Type} [DecidableEq α] {o : Out α} {a : α}
    (h : (match o with | .done b => decide (b = a) | _ => false) = true) : o = .done a := by
  split at h
  · rw [of_decide_eq_true h]
  · cases h

theorem new_keys : KeysTrue Spec.Zoo.M Checker.new.inhabited := by intro T Γ h; cases h

/-- The hypotheses of `C26_witness_real_partial` can be met, and so can those of `C26_guard_real_partial`: the
variables have elements `pack(nat, zero)` and a constant function. -/
example : (∀ ρ, Models Spec.Zoo.M [] ρ → Denotes Spec.Zoo.M ρ (.app (.app pack nat) zero) (.app wrap nat)) ∧
    ∀ t, c1.normalizeWithTrace = some t → Checker.guard (zoo good) .new t = true ∧ t.varIds = [] ∧
      ∃ d, ∀ β, Spec.Zoo.M.mem d (eval Spec.Zoo.M (fun _ => (∅ : ZFSet)) β (.app wrap nat)) := by
  constructor
  · intro ρ hρ
    exact C26_witness_real_partial params bases_ok good_honest Spec.Zoo.lawful hρ
      (inst := fun c => if c = (0, 0) ∨ c = (0, 1) then some (0, 0) else none) (allow := false) (fuel := 12)
      (.tyOf (z_wrap z_nat)) rfl (out_eq (by decide +kernel))
  · intro t ht
    have key : c1.normalizeWithTrace.all (fun t => Checker.guard (zoo good) .new t && t.varIds.isEmpty &&
      decide (t.preCtx = c1.ctx)) = true := by decide +kernel
    rw [ht] at key
    simp only [Option.all_some, Bool.and_eq_true, List.isEmpty_iff, decide_eq_true_eq] at key
    obtain ⟨⟨hg, hv⟩, hc⟩ := key
    refine ⟨hg, hv, C26_guard_real_partial uses Spec.Zoo.lawful new_keys (t := t) (i := 0) ?_ ?_ hg ?_ ?_ ?_⟩
    · rw [hc]; exact vars1.ordered
    · intro i T hi _
      rw [hc] at hi ⊢
      exact ValueVars.typeAt vars1 hi
    · rw [hc]; rfl
    · rw [hv]; simp
    · intro i T h; simp [LCtx.get] at h

/-- The hypotheses of `C26_drop_sound_partial` can be met. -/
example : Checker.normFound (zoo good) .new c1.lits c1.ctx = some c2 ∧ ClauseTrue Spec.Zoo.M c2 := by
  have e : Checker.normFound (zoo good) .new c1.lits c1.ctx = some c2 := by decide +kernel
  exact ⟨e, C26_drop_sound_partial uses Spec.Zoo.lawful new_keys vars1 typed1 true2 e⟩

theorem plain_one {p : Bool} {a : Term} (ha : SHasType Spec.Zoo.K [] a .boolTy) (h : a.atoms.all
      (fun a => match a with | .sym s => !isKindSym s | _ => true) = true) : PlainClause Spec.Zoo.K ⟨[⟨p, a, .tt⟩], []⟩ :=
  plainClause_iff.2 ⟨ValueVars.nil, fun l hl => by
    rw [List.mem_singleton] at hl
    subst hl
    exact ⟨⟨.boolTy, .inl z_bool, ha, z_tt⟩, Demo.sortFree_of h, Demo.sortFree_of rfl⟩⟩

theorem plain3 : PlainClause Spec.Zoo.K c3 := plain_one (.all (.tyOf (z_wrap z_nat))
  (.appVal (B := .boolTy) (z_sym rfl rfl rfl rfl) (z_tiny z_nat) rfl rfl)) rfl

theorem tiny_bool (ρ β : Nat → Spec.Zoo.M.D) : Spec.Zoo.M.mem (eval Spec.Zoo.M ρ β (.app tiny nat)) (vbool Spec.Zoo.M) :=
  HasType.mem Spec.Zoo.lawful (models_empty ρ) (SHasType.hasType (z_tiny (Γ := []) z_nat)) β

theorem true3 : ClauseTrue Spec.Zoo.M c3 := by
  intro ρ _ β
  refine ⟨_, List.mem_cons_self, ?_⟩
  have hb : ∀ β, eval Spec.Zoo.M ρ β (.app (.sym .not_) (.app tiny nat)) = vtt Spec.Zoo.M := by
    intro β
    refine (Spec.Zoo.lawful.not_tt _ (tiny_bool ρ β)).2 ?_
    rcases (Spec.Zoo.lawful.mem_bool _).1 (tiny_bool ρ β) with h | h
    · exact absurd h (not_tiny ρ β)
    · exact h
  exact (Spec.Zoo.lawful.all_tt _ _ (fun a _ => by rw [hb]; exact (Spec.Zoo.lawful.mem_bool _).2 (.inl rfl))).2
    fun a _ => hb _

/-- The hypotheses of `C26_reduction_sound_partial` can be met. -/
example : ∃ rs, Checker.boolReductions (zoo good) .new c3 = .done rs ∧ rs ≠ [] ∧ ∀ r ∈ rs, ClauseTrue Spec.Zoo.M r := by
  have key : (match Checker.boolReductions (zoo good) .new c3 with | .done rs => !rs.isEmpty | _ => false) = true := by
    decide +kernel
  split at key
  · rename_i rs e
    exact ⟨rs, e, by simpa using key, C26_reduction_sound_partial uses Spec.Zoo.lawful new_keys plain3 true3 e⟩
  · cases key

/-- The hypotheses of `C26_recorded_real_partial` can be met. -/
example : ∃ key s', Checker.markInhabited Spec.Zoo.K .new c6 = .done (some key, s') ∧ KeysTrue Spec.Zoo.M s'.inhabited ∧
    s'.inhabited ≠ [] := by
  have key : (match Checker.markInhabited Spec.Zoo.K .new c6 with
    | .done (some _, s') => !s'.inhabited.isEmpty | _ => false) = true := by decide +kernel
  split at key
  · rename_i k s' e
    refine ⟨k, s', e, C26_recorded_real_partial Spec.Zoo.lawful new_keys (plain_one (.ex (.tyOf (z_wrap z_nat)) z_tt) rfl) ?_
      ⟨fun _ => (∅ : ZFSet), models_empty _⟩ e, by simpa using key⟩
    intro ρ _ β
    refine ⟨_, List.mem_cons_self, ?_⟩
    refine (Spec.Zoo.lawful.ex_tt _ _ (fun a _ => (Spec.Zoo.lawful.mem_bool _).2 (.inl rfl))).2 ⟨(∅ : ZFSet), ?_, rfl⟩
    show (∅ : ZFSet) ∈ SetModel.app (Spec.Zoo.vals (.type 0 2)) ZFSet.omega
    rw [Spec.Zoo.wrap_val SetModel.U_omega]
    exact ZFSet.omega_zero
  · cases key

/-- `not exists(x: void) { true }`. -/
def c7 : Clause := ⟨[⟨false, .ex void .tt, .tt⟩], []⟩

/-- The hypotheses of `C22_empty_type_real_partial` can be met: `void` is empty.  If it had been recorded as
inhabited, there would be a contradiction. -/
example : Sane Spec.Zoo.K Spec.Zoo.M c7 ∧ (Checker.new.noteEmpty c7).contra = false ∧
    (Checker.noteEmpty { Checker.new with inhabited := [(void, [])] } c7).contra = true := by
  have h : Sane Spec.Zoo.K Spec.Zoo.M c7 := by
    refine ⟨plain_one (.ex (.tyOf z_void) z_tt) rfl, fun ρ _ β => ⟨_, List.mem_cons_self, ?_⟩, ⟨fun _ => (∅ : ZFSet), models_empty _⟩⟩
    intro h
    obtain ⟨d, hd, -⟩ := (Spec.Zoo.lawful.ex_tt _ _ (fun a _ => (Spec.Zoo.lawful.mem_bool _).2 (.inl rfl))).1 h
    exact ZFSet.notMem_empty d hd
  exact ⟨h, (C22_empty_type_real_partial Spec.Zoo.lawful new_keys (fun d hd => by cases hd) h).1, by decide +kernel⟩

/-- The hypotheses of `C26_refused_nothing` and `C26_refused_reductions` can be met: a variable of type `void` is
not dropped. -/
example : (∃ t, (c4 void).normalizeWithTrace = some t ∧ Unsupported (zoo good) .new t) ∧
    ∃ rs, Checker.boolReductions (zoo good) .new c3 = .done rs ∧ rs ≠ [] := by
  constructor
  · have key : ((c4 void).normalizeWithTrace.any fun t => !Checker.guard (zoo good) .new t) = true := by decide +kernel
    cases ht : (c4 void).normalizeWithTrace with
    | none => rw [ht] at key; cases key
    | some t =>
      rw [ht] at key
      exact ⟨t, rfl, guard_false.1 (by simpa using key)⟩
  · have key : (match Checker.boolReductions (zoo good) .new c3 with | .done rs => !rs.isEmpty | _ => false) = true := by
      decide +kernel
    split at key
    · rename_i rs e; exact ⟨rs, e, by simpa using key⟩
    · cases key

/-- No value for a variable of the type `wrap(void)`. -/
theorem no_wrap (ρ : Nat → Spec.Zoo.M.D) : ¬ Models Spec.Zoo.M [some (.app wrap void)] ρ := by
  intro h
  have : (ρ 0 : ZFSet) ∈ SetModel.app (Spec.Zoo.vals (.type 0 2)) ∅ := h 0 _ rfl ρ
  rw [Spec.Zoo.wrap_val SetModel.U_empty] at this
  exact ZFSet.notMem_empty _ this

theorem no_special (ρ : Nat → Spec.Zoo.M.D) : ¬ Models Spec.Zoo.M [some special] ρ := fun h =>
  ZFSet.notMem_empty _ (h 0 special rfl ρ)

/-- A type variable of the class `plain`, which stands for `void`. -/
theorem is_void : Models Spec.Zoo.M [some plain] (fun _ => (∅ : ZFSet)) := by
  intro i T h β
  match i, h with
  | 0, h => cases h; exact ZFSet.mem_pair.2 (.inr rfl)

end Zoo

/-- The test with the declarations recorded, in a signature that has all of them. -/
def Spec.SaysInhabited (ds : List (Symbol × Term)) (Γ : LCtx) (T : Term) : Prop :=
  (∀ d ∈ ds, Spec.Zoo.K.symbolType d.1 = some d.2) ∧ inhabitedTest Spec.Zoo.K (Zoo.tables ds) 12 T Γ = true

/-- C26 is false when a provider has class constraints: `box : Π (P : pointed), wrap(P)` makes `wrap(void)` an
inhabited type.  A true clause with a variable of that type becomes the empty clause. -/
theorem C26_argument_class_ignored : ∃ (ds : List (Symbol × Term)) (c : Clause), Lawful Spec.Zoo.K Spec.Zoo.M ∧
    SaysInhabited ds [] (.app Spec.Zoo.wrap Spec.Zoo.void) ∧ ClauseTrue Spec.Zoo.M c ∧
    Checker.normFound (Zoo.zoo ds) .new c.lits c.ctx = some ⟨[], []⟩ := by
  refine ⟨[(.global 0 2, .pi Spec.Zoo.pointed (.app Spec.Zoo.wrap (.bvar 0)))],
    Zoo.c4 (.app Spec.Zoo.wrap Spec.Zoo.void), Spec.Zoo.lawful, ⟨?_, by decide +kernel⟩,
    fun ρ hρ => absurd hρ (Zoo.no_wrap ρ), by decide +kernel⟩
  intro d hd
  rw [List.mem_singleton] at hd
  subst hd
  rfl

/-- C26 is false when a provider has two type parameters: `pick : Π (Q : pointed), Π (P : plain), Q` makes every
type of the class `plain` inhabited. -/
theorem C26_wrong_parameter : ∃ (ds : List (Symbol × Term)) (ρ : Nat → Spec.Zoo.M.D), Lawful Spec.Zoo.K Spec.Zoo.M ∧
    SaysInhabited ds [some Spec.Zoo.plain] (.fvar 0) ∧ Models Spec.Zoo.M [some Spec.Zoo.plain] ρ ∧
    ∀ d β, ¬ Spec.Zoo.M.mem d (eval Spec.Zoo.M ρ β (.fvar 0)) := by
  refine ⟨[(.global 0 3, .pi Spec.Zoo.pointed (.pi Spec.Zoo.plain (.bvar 1)))], _, Spec.Zoo.lawful,
    ⟨?_, by decide +kernel⟩, Zoo.is_void, fun d β => ZFSet.notMem_empty d⟩
  intro d hd
  rw [List.mem_singleton] at hd
  subst hd
  rfl

/-- C26 is false for values of a variable type: one inhabited instance of the class is enough for the test. -/
theorem C26_one_instance_enough : ∃ ρ : Nat → Spec.Zoo.M.D, Lawful Spec.Zoo.K Spec.Zoo.M ∧
    (∀ d ∈ Zoo.good, Honest Spec.Zoo.K d.1 d.2) ∧
    SaysInhabited Zoo.good [some Spec.Zoo.plain] (.fvar 0) ∧ Models Spec.Zoo.M [some Spec.Zoo.plain] ρ ∧
    ∀ d β, ¬ Spec.Zoo.M.mem d (eval Spec.Zoo.M ρ β (.fvar 0)) :=
  ⟨_, Spec.Zoo.lawful, Zoo.good_honest, ⟨fun d hd => (Zoo.good_honest d hd).declared, by decide +kernel⟩, Zoo.is_void,
    fun d _ => ZFSet.notMem_empty d⟩

/-- C26 is false for type variables: an instance of a base class is taken for an instance of the class. -/
theorem C26_base_instance : Lawful Spec.Zoo.K Spec.Zoo.M ∧ SaysInhabited Zoo.good [] Spec.Zoo.special ∧
    ∀ d ρ β, ¬ Spec.Zoo.M.mem d (eval Spec.Zoo.M ρ β Spec.Zoo.special) :=
  ⟨Spec.Zoo.lawful, ⟨fun d hd => (Zoo.good_honest d hd).declared, by decide +kernel⟩, fun d _ _ => ZFSet.notMem_empty d⟩

/-- C26 is false for type variables: a dropped variable is its own witness.  With no declarations and no
instances at all, the checker finds a contradiction in a true clause about the types of a class. -/
theorem C26_own_witness : ∃ (env : CheckEnv) (c : Clause) (s : Checker), env.K = Spec.Zoo.K ∧
    env.inh = inhabitedTest Spec.Zoo.K (.empty (fun _ => []) fun _ => none) 12 ∧ Lawful Spec.Zoo.K Spec.Zoo.M ∧
    LitsTyped Spec.Zoo.K c.ctx c.lits ∧ ClauseTrue Spec.Zoo.M c ∧ Checker.normal env c = .done c ∧
    Checker.runAll [(env, .insert c .assumption)] .new = .done s ∧ s.hasContradiction = true := by
  obtain ⟨s, e, h⟩ := CheckerExample.contradicts_iff (calls :=
    [({ CheckerExample.env with K := Spec.Zoo.K, inh := inhabitedTest Spec.Zoo.K (.empty (fun _ => []) fun _ => none) 12 },
      .insert Zoo.c5 .assumption)]) (by decide +kernel)
  refine ⟨_, Zoo.c5, s, rfl, rfl, Spec.Zoo.lawful, ?_, fun ρ hρ => absurd hρ (Zoo.no_special ρ),
    Zoo.out_eq (by decide +kernel), e, h⟩
  intro l hl
  simp only [Zoo.c5, List.mem_cons, List.not_mem_nil, or_false] at hl
  subst hl
  exact ⟨.boolTy, Zoo.z_tiny (.forget (m := 0) (l := 2) (.fvar rfl rfl)), Zoo.z_tiny (.forget (m := 0) (l := 2) (.fvar rfl rfl))⟩

/-- C26 is false for open clauses: `forall(x: void) { exists(y: void) { y = x } }` is true, but records `void`
as inhabited, which contradicts the true clause `not exists(y: void) { true }`. -/
theorem C26_open_claim : ∃ (env : CheckEnv) (c d : Clause) (s : Checker), env.K = Demo.K ∧
    env.inh = inhabitedTest Demo.K (.empty (fun _ => []) fun _ => none) 12 ∧
    PlainClause Demo.K c ∧ PlainClause Demo.K d ∧ Lawful Demo.K Demo.M ∧ ClauseTrue Demo.M c ∧ ClauseTrue Demo.M d ∧
    Checker.runAll [(env, .insert c .assumption), (env, .insert d .assumption)] .new = .done s ∧
    s.hasContradiction = true := by
  obtain ⟨s, e, h⟩ := CheckerExample.contradicts_iff (calls :=
    [({ CheckerExample.env with inh := inhabitedTest Demo.K (.empty (fun _ => []) fun _ => none) 12 }, .insert CheckerExample.c7 .assumption),
     ({ CheckerExample.env with inh := inhabitedTest Demo.K (.empty (fun _ => []) fun _ => none) 12 }, .insert CheckerExample.c8 .assumption)])
    (by decide +kernel)
  exact ⟨_, _, _, s, rfl, rfl, CheckerExample.plain7, CheckerExample.plain8, Demo.lawful, CheckerExample.true7,
    CheckerExample.true8, e, h⟩

end Acorn
