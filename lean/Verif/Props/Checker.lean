/-
C22: the checker is sound.
-/
import Verif.Spec.CheckerUse
import Verif.Spec.DemoFull
import Verif.Lemmas.CheckerSound
namespace Acorn
open Spec Term

universe u

variable {K : KCtx} {M : Interp.{u}} {ρ β : Nat → M.D}

/-- One call. -/
theorem Inv.run (hK : PlainSignature K) (L : Lawful K M) (hN : NoEmpty K M) {env : CheckEnv} (hE : env.K = K)
    {q : Request} (hq : CallOk K env q) {s s' : Checker} (h : Inv K M ρ β s)
    (ht : ∀ c ∈ asserted [(env, q)], ClauseTrue M c) {b : Bool} (e : q.run env s = .done (b, s')) :
    Inv K M ρ β s' ∧ (b = true → ∀ c, q = .check c ∨ q = .checkTrace c → ClauseTrue M c) := by
  cases q with
  | insert c reason =>
    simp only [Request.run, Out.bind_done, Out.pure_done, Prod.mk.injEq] at e
    obtain ⟨_, e, rfl, rfl⟩ := e
    exact ⟨h.insert L hK hN hE hq (ht c (by simp [asserted])) e, fun h => by cases h⟩
  | insertNormalized c reason =>
    simp only [Request.run, Out.bind_done, Out.pure_done, Prod.mk.injEq] at e
    obtain ⟨_, e, rfl, rfl⟩ := e
    exact ⟨insertInternal_inv L hK hN hE _ _ _ _ _ h
      (known_normal L hN hq.1 (ht c (by simp [asserted])) hq.2) e, fun h => by cases h⟩
  | insertTrace c reason =>
    simp only [Request.run, Out.bind_done, Out.pure_done, Prod.mk.injEq] at e
    obtain ⟨_, e, rfl, rfl⟩ := e
    exact ⟨h.insertTrace L hN hE hq (ht c (by simp [asserted])) e, fun h => by cases h⟩
  | setEager b =>
    simp only [Request.run, Out.done.injEq, Prod.mk.injEq] at e
    obtain ⟨rfl, rfl⟩ := e
    exact ⟨h.of_eq rfl rfl rfl, fun h => by cases h⟩
  | enableEager =>
    simp only [Request.run, Out.bind_done, Out.pure_done, Prod.mk.injEq] at e
    obtain ⟨_, e, rfl, rfl⟩ := e
    exact ⟨h.enableEager L hK hN hE e, fun h => by cases h⟩
  | check c =>
    simp only [Request.run, Out.bind_done, Out.pure_done, Prod.exists, Prod.mk.injEq] at e
    obtain ⟨r, _, e, rfl, rfl⟩ := e
    obtain ⟨h1, h2⟩ := h.check L hN hE hq e
    refine ⟨h1, fun hr d hd => ?_⟩
    rcases hd with hd | hd <;> cases hd
    exact h2 hr
  | checkTrace c =>
    simp only [Request.run, Out.bind_done, Out.pure_done, Prod.exists, Prod.mk.injEq] at e
    obtain ⟨r, _, e, rfl, rfl⟩ := e
    obtain ⟨h1, h2⟩ := h.checkTrace L hN hq e
    refine ⟨h1, fun hr d hd => ?_⟩
    rcases hd with hd | hd <;> cases hd
    exact h2 hr

theorem asserted_cons (p : CheckEnv × Request) (h : List (CheckEnv × Request)) :
    asserted (p :: h) = asserted [p] ++ asserted h := by
  obtain ⟨env, q⟩ := p
  cases q <;> rfl

theorem Inv.runAll (hK : PlainSignature K) (L : Lawful K M) (hN : NoEmpty K M) :
    ∀ {calls : List (CheckEnv × Request)} {s s' : Checker}, CallsOk K calls → Inv K M ρ β s →
    (∀ c ∈ asserted calls, ClauseTrue M c) → Checker.runAll calls s = .done s' → Inv K M ρ β s' := by
  intro calls
  induction calls with
  | nil => intro s s' _ h _ e; cases e; exact h
  | cons p calls ih =>
    intro s s' hc h ht e
    simp only [Checker.runAll, Out.bind_done, Prod.exists] at e
    obtain ⟨b, s1, e1, e⟩ := e
    rw [asserted_cons] at ht
    have hp := hc p (by simp)
    exact ih (fun q hq => hc q (by simp [hq]))
      (h.run hK L hN hp.1 hp.2 (fun c hc => ht c (List.mem_append_left _ hc)) e1).1
      (fun c hc => ht c (List.mem_append_right _ hc)) e

/-- C22: if the checker reports a contradiction, the asserted clauses cannot all be true: for every sequence
of calls, in every iteration order of its hash tables.

Partial: only for clauses without type variables, and only interpretations without empty types are excluded;
with empty types it is false (`C22_empty_type_unsound`). -/
theorem C22_contradiction_real_partial (hK : PlainSignature K) {calls : List (CheckEnv × Request)} (hc : CallsOk K calls)
    {s : Checker} (e : Checker.runAll calls .new = .done s) (h : s.hasContradiction = true) :
    ¬ ∃ M : Interp.{u}, Satisfies K M (asserted calls) := by
  rintro ⟨M, hM⟩
  obtain ⟨d, _⟩ := hM.noEmpty .boolTy boolTy_small
  have hi := Inv.runAll (ρ := fun _ => d) (β := fun _ => d) hK hM.lawful hM.noEmpty hc (inv_new K M _ _) hM.truth e
  rw [hi.hasContradiction] at h
  cases h

/-- C22: a clause the checker accepts follows from the asserted ones.

Partial: as above. -/
theorem C22_accepted_entailed_partial (hK : PlainSignature K) {calls : List (CheckEnv × Request)} (hc : CallsOk K calls)
    {s s' : Checker} (e : Checker.runAll calls .new = .done s) {env : CheckEnv} (hE : env.K = K) {c : Clause}
    (hp : PlainClause K c)
    (h : Request.run env s (.check c) = .done (true, s') ∨ Request.run env s (.checkTrace c) = .done (true, s')) :
    ∀ M : Interp.{u}, Satisfies K M (asserted calls) → ClauseTrue M c := by
  intro M hM
  obtain ⟨d, _⟩ := hM.noEmpty .boolTy boolTy_small
  have hi := Inv.runAll (ρ := fun _ => d) (β := fun _ => d) hK hM.lawful hM.noEmpty hc (inv_new K M _ _) hM.truth e
  rcases h with h | h
  · exact (hi.run hK hM.lawful hM.noEmpty hE (q := .check c) hp (by intro d hd; cases hd) h).2 rfl c (.inl rfl)
  · exact (hi.run hK hM.lawful hM.noEmpty hE (q := .checkTrace c) hp (by intro d hd; cases hd) h).2 rfl c (.inr rfl)

/-! ### Examples -/

namespace CheckerExample
open Demo

/-- An environment for the demo signature. -/
def env : CheckEnv where
  K := Demo.K
  fuel := 12
  ω := ⟨id, fun l => .refl l, id, fun l => .refl l⟩
  order := id
  order_perm l := .refl l
  vp _ := false
  avail _ := true
  inh _ _ := true
  explain _ _ := true

/-- `even(zero)`. -/
def c1 : Clause := ⟨[⟨true, .app even zero, .tt⟩], []⟩
/-- `not even(x) or even(add(x, x))`. -/
def c2 : Clause :=
  ⟨[⟨false, .app even (.fvar 0), .tt⟩, ⟨true, .app even (.app (.app add (.fvar 0)) (.fvar 0)), .tt⟩], [some nat]⟩

/-- `not even(zero)`. -/
def c3 : Clause := ⟨[⟨false, .app even zero, .tt⟩], []⟩
/-- `even(add(zero, zero))`, which follows from `c1` and this instance of `c2`. -/
def c4 : Clause := ⟨[⟨true, .app even (.app (.app add zero) zero), .tt⟩], []⟩
/-- `not even(zero) or even(add(zero, zero))`. -/
def c5 : Clause :=
  ⟨[⟨false, .app even zero, .tt⟩, ⟨true, .app even (.app (.app add zero) zero), .tt⟩], []⟩
/-- `forall(x: void) { zero != zero }`. -/
def c6 : Clause := ⟨[⟨false, zero, zero⟩], [some void]⟩
/-- `forall(x: void) { exists(y: void) { y = x } }`. -/
def c7 : Clause := ⟨[⟨true, .ex void (.eq void (.bvar 0) (.fvar 0)), .tt⟩], [some void]⟩
/-- `not exists(y: void) { true }`. -/
def c8 : Clause := ⟨[⟨false, .ex void .tt, .tt⟩], []⟩

/-- Does the sequence of calls end in a contradiction? -/
def contradicts (calls : List (CheckEnv × Request)) : Bool :=
  match Checker.runAll calls .new with
  | .done s => s.hasContradiction
  | _ => false

/-- Is the clause accepted after the sequence of calls? -/
def accepts (calls : List (CheckEnv × Request)) (q : Request) : Bool :=
  match Checker.runAll calls .new with
  | .done s => match q.run env s with
    | .done (b, _) => b
    | _ => false
  | _ => false

theorem contradicts_iff {calls : List (CheckEnv × Request)} (h : contradicts calls = true) :
    ∃ s, Checker.runAll calls .new = .done s ∧ s.hasContradiction = true := by
  unfold contradicts at h
  split at h
  · rename_i s e; exact ⟨s, e, h⟩
  · cases h

theorem accepts_iff {calls : List (CheckEnv × Request)} {q : Request} (h : accepts calls q = true) :
    ∃ s s', Checker.runAll calls .new = .done s ∧ q.run env s = .done (true, s') := by
  unfold accepts at h
  split at h
  · rename_i s e
    split at h
    · rename_i b s' e'
      subst h
      exact ⟨s, s', e, e'⟩
    · cases h
  · cases h

theorem neat_lit {Γ : LCtx} {p : Bool} {a b T : Term} (hT : SHasType Demo.K [] T .type0)
    (ha : SHasType Demo.K Γ a T) (hb : SHasType Demo.K Γ b T) (h : a.atoms.all
      (fun a => match a with | .sym s => !isKindSym s | _ => true) = true)
    (h' : b.atoms.all (fun a => match a with | .sym s => !isKindSym s | _ => true) = true) :
    Neat Demo.K Γ ⟨p, a, b⟩ := ⟨⟨T, .inl hT, ha, hb⟩, sortFree_of h, sortFree_of h'⟩

theorem valueVars {T : Term} (h : SHasType Demo.K [] T .type0) : ValueVars Demo.K [some T] := by
  intro i U e
  match i, e with
  | 0, e => cases e; exact h

theorem s_void {Γ : LCtx} {Δ : BCtx} : STyped Demo.K Γ Δ void (.ty .type0) := s_sym rfl rfl

theorem plain1 : PlainClause Demo.K c1 := plainClause_iff.2 ⟨ValueVars.nil, fun l hl => by
  simp only [c1, List.mem_cons, List.not_mem_nil, or_false] at hl; subst hl
  exact neat_lit s_bool (s_even s_zero) s_tt rfl rfl⟩
theorem plain3 : PlainClause Demo.K c3 := plainClause_iff.2 ⟨ValueVars.nil, fun l hl => by
  simp only [c3, List.mem_cons, List.not_mem_nil, or_false] at hl; subst hl
  exact neat_lit s_bool (s_even s_zero) s_tt rfl rfl⟩
theorem plain2 : PlainClause Demo.K c2 := plainClause_iff.2 ⟨valueVars s_nat, fun l hl => by
  have hv : SHasType Demo.K [some nat] (.fvar 0) nat := .fvar rfl rfl
  simp only [c2, List.mem_cons, List.not_mem_nil, or_false] at hl
  rcases hl with rfl | rfl
  · exact neat_lit s_bool (s_even hv) s_tt rfl rfl
  · exact neat_lit s_bool (s_even (s_add hv hv)) s_tt rfl rfl⟩
theorem plain4 : PlainClause Demo.K c4 := plainClause_iff.2 ⟨ValueVars.nil, fun l hl => by
  simp only [c4, List.mem_cons, List.not_mem_nil, or_false] at hl; subst hl
  exact neat_lit s_bool (s_even (s_add s_zero s_zero)) s_tt rfl rfl⟩
theorem plain5 : PlainClause Demo.K c5 := plainClause_iff.2 ⟨ValueVars.nil, fun l hl => by
  simp only [c5, List.mem_cons, List.not_mem_nil, or_false] at hl
  rcases hl with rfl | rfl
  · exact neat_lit s_bool (s_even s_zero) s_tt rfl rfl
  · exact neat_lit s_bool (s_even (s_add s_zero s_zero)) s_tt rfl rfl⟩
theorem plain6 : PlainClause Demo.K c6 := plainClause_iff.2 ⟨valueVars s_void, fun l hl => by
  simp only [c6, List.mem_cons, List.not_mem_nil, or_false] at hl; subst hl
  exact neat_lit s_nat s_zero s_zero rfl rfl⟩
theorem plain7 : PlainClause Demo.K c7 := plainClause_iff.2 ⟨valueVars s_void, fun l hl => by
  simp only [c7, List.mem_cons, List.not_mem_nil, or_false] at hl; subst hl
  refine neat_lit s_bool (.ex (.tyOf s_void) ?_) s_tt rfl rfl
  exact .appVal (B := .boolTy) (.appVal (B := .pi void .boolTy) (.appTy (B := .pi (.bvar 0) (.pi (.bvar 1) .boolTy))
    (s_sym rfl rfl) s_void rfl) (.bvar rfl) rfl rfl) (.fvar rfl rfl) rfl rfl⟩
theorem plain8 : PlainClause Demo.K c8 := plainClause_iff.2 ⟨ValueVars.nil, fun l hl => by
  simp only [c8, List.mem_cons, List.not_mem_nil, or_false] at hl; subst hl
  exact neat_lit s_bool (.ex (.tyOf s_void) s_tt) s_tt rfl rfl⟩

theorem no_void (ρ : Nat → Demo.M.D) : ¬ Models Demo.M [some void] ρ := fun h =>
  ZFSet.notMem_empty (ρ 0) (h 0 void rfl ρ)

theorem true6 : ClauseTrue Demo.M c6 := fun ρ hρ => absurd hρ (no_void ρ)
theorem true7 : ClauseTrue Demo.M c7 := fun ρ hρ => absurd hρ (no_void ρ)
theorem true8 : ClauseTrue Demo.M c8 := by
  intro ρ _ β
  refine ⟨_, List.mem_cons_self, ?_⟩
  show eval Demo.M ρ β (.ex void .tt) ≠ _
  rw [Ne, show eval Demo.M ρ β .tt = vtt Demo.M from rfl]
  intro h
  obtain ⟨a, ha, _⟩ := (Demo.lawful.ex_tt _ _ (fun a ha => absurd ha (ZFSet.notMem_empty a))).1 h
  exact ZFSet.notMem_empty a ha

theorem even_full {n : SetModel.S} (h : n ∈ ZFSet.omega) : Full.app (Full.sym (.global 0 2)) n = SetModel.ofProp (n = ∅) :=
  SetModel.app_lam h
theorem add_full {n m : SetModel.S} (h : n ∈ ZFSet.omega) (h' : m ∈ ZFSet.omega) :
    Full.app (Full.app (Full.sym (.global 0 3)) n) m = n := by
  have : Full.app (Full.sym (.global 0 3)) n = SetModel.lam ZFSet.omega fun _ => n := SetModel.app_lam h
  rw [this]
  exact SetModel.app_lam h'

theorem full1 : ClauseTrue Full c1 := fun ρ _ β => ⟨_, List.mem_cons_self,
  (even_full ZFSet.omega_zero).trans (SetModel.ofProp_tt.2 rfl)⟩
theorem full5 : ClauseTrue Full c5 := fun ρ _ β => ⟨_, List.mem_cons_of_mem _ List.mem_cons_self, by
  show Full.app (Full.sym (.global 0 2)) (Full.app (Full.app (Full.sym (.global 0 3)) (∅ : ZFSet)) (∅ : ZFSet)) = SetModel.tt
  rw [add_full ZFSet.omega_zero ZFSet.omega_zero]
  exact (even_full ZFSet.omega_zero).trans (SetModel.ofProp_tt.2 rfl)⟩
theorem full2 : ClauseTrue Full c2 := by
  intro ρ hρ β
  have hx : (ρ 0 : ZFSet) ∈ ZFSet.omega := hρ 0 nat rfl β
  by_cases h : ρ 0 = (∅ : ZFSet)
  · refine ⟨_, List.mem_cons_of_mem _ List.mem_cons_self, ?_⟩
    show Full.app (Full.sym (.global 0 2)) (Full.app (Full.app (Full.sym (.global 0 3)) (ρ 0)) (ρ 0)) = SetModel.tt
    rw [add_full hx hx]
    exact (even_full hx).trans (SetModel.ofProp_tt.2 h)
  · refine ⟨_, List.mem_cons_self, ?_⟩
    show Full.app (Full.sym (.global 0 2)) (ρ 0) ≠ SetModel.tt
    rw [even_full hx]
    exact fun h' => h (SetModel.ofProp_tt.1 h')

/-- The hypotheses of `C22_contradiction_real_partial` can be met. -/
example : ¬ ∃ M : Interp.{u}, Satisfies Demo.K M [c1, c2, c3] := by
  obtain ⟨s, e, h⟩ := contradicts_iff (calls := [(env, .insert c1 .assumption), (env, .insertTrace c2 .assumption),
    (env, .insert c3 .assumption)]) (by decide +kernel)
  refine C22_contradiction_real_partial Demo.plain (fun p hp => ?_) e h
  simp only [List.mem_cons, List.not_mem_nil, or_false] at hp
  rcases hp with rfl | rfl | rfl
  · exact ⟨rfl, plain1⟩
  · exact ⟨rfl, plain2⟩
  · exact ⟨rfl, plain3⟩

/-- The hypotheses of `C22_accepted_entailed_partial` can be met. -/
example : (∀ M : Interp.{u}, Satisfies Demo.K M [c1, c2, c5] → ClauseTrue M c4) ∧
    Satisfies Demo.K Demo.Full [c1, c2, c5] := by
  constructor
  · obtain ⟨s, s', e, h⟩ := accepts_iff (calls := [(env, .insert c1 .assumption), (env, .insert c2 .assumption),
      (env, .insertTrace c5 .assumption)]) (q := .check c4) (by decide +kernel)
    refine C22_accepted_entailed_partial Demo.plain (fun p hp => ?_) e rfl plain4 (.inl h)
    simp only [List.mem_cons, List.not_mem_nil, or_false] at hp
    rcases hp with rfl | rfl | rfl
    · exact ⟨rfl, plain1⟩
    · exact ⟨rfl, plain2⟩
    · exact ⟨rfl, plain5⟩
  · refine ⟨full_lawful, full_noEmpty, fun c hc => ?_⟩
    simp only [List.mem_cons, List.not_mem_nil, or_false] at hc
    rcases hc with rfl | rfl | rfl
    · exact full1
    · exact full2
    · exact full5

end CheckerExample

/-- C22 is false with empty types: a true clause with an unused variable of an empty type is normalized to
the empty clause, and the checker reports a contradiction. -/
theorem C22_empty_type_unsound : ∃ (env : CheckEnv) (c : Clause) (s : Checker), env.K = Demo.K ∧
    PlainClause Demo.K c ∧ Lawful Demo.K Demo.M ∧ ClauseTrue Demo.M c ∧
    Checker.runAll [(env, .insert c .assumption)] .new = .done s ∧ s.hasContradiction = true := by
  obtain ⟨s, e, h⟩ := CheckerExample.contradicts_iff (calls := [(CheckerExample.env, .insert CheckerExample.c6 .assumption)])
    (by decide +kernel)
  exact ⟨_, _, s, rfl, CheckerExample.plain6, Demo.lawful, CheckerExample.true6, e, h⟩

end Acorn
