/-
C23: an accepted certificate proves the goal.
-/
import Verif.Lemmas.Witness
import Verif.Props.Checker
namespace Acorn
open Spec Term

universe u

variable {K : KCtx}

theorem Spec.Careful.mono {P Q : Clause → Prop} (h : ∀ c, P c → Q c) : ∀ {steps : List (TraceEnv × CertStep)}
    {st : TraceState}, Careful P st steps → Careful Q st steps := by
  intro steps
  induction steps with
  | nil => intro st _; trivial
  | cons p steps ih =>
    intro st hc st' e
    exact ⟨fun hk => ((hc st' e).1 hk).imp id (h _), ih (hc st' e).2⟩

theorem bare_self {step : CertStep} (h : ∀ c w, step.code = .claim c w → c.map = []) : bare step = step := by
  unfold bare
  cases hc : step.code with
  | satisfy w => rfl
  | claim c w =>
    obtain ⟨cl, m⟩ := c
    have : m = [] := h _ _ hc
    subst this
    obtain ⟨r, code, p, g, k, i⟩ := step
    dsimp only at hc ⊢
    rw [hc]

theorem Spec.NoArguments.careful {P : Clause → Prop} : ∀ {steps : List (TraceEnv × CertStep)} {st : TraceState},
    NoArguments steps → Careful P st steps := by
  intro steps
  induction steps with
  | nil => intro st _; trivial
  | cons p steps ih =>
    intro st h st' e
    refine ⟨fun hk => .inl ⟨st', ?_⟩, ih fun q hq => h q (by simp [hq])⟩
    rw [bare_self (h p (by simp) hk)]
    exact e

/-- C23: if the checker, after it was given the facts and the negated goal, accepts a certificate, then the
facts and the negated goal cannot all be true.  This holds for every sequence of calls that prepared the
checker, every certificate, and every iteration order of the hash tables.

Partial: only for clauses without type variables and interpretations without empty types; the interpretation
is assumed to choose the declared witnesses well; and the general form of a claim that gives arguments must
itself be acceptable, or else be entailed, where a step makes it known.  Without this last condition it is
false (`C23_general_form_unsound`). -/
theorem C23_accepted_proves_partial (hK : PlainSignature K) {calls : List (CheckEnv × Request)} (hc : CallsOk K calls)
    {s : Checker} (e : Checker.runAll calls .new = .done s) {steps : List (TraceEnv × CertStep)}
    (hs : StepsOk K steps)
    (hg : Careful (fun c => ∀ M : Interp.{u}, Realizes K M (asserted calls) steps → ClauseTrue M c) ⟨s, []⟩ steps)
    {n : Nat} (h : checkCertificate s steps = .done (some n)) :
    ¬ ∃ M : Interp.{u}, Realizes K M (asserted calls) steps := by
  rintro ⟨M, hM⟩
  have hsat := hM.satisfies
  obtain ⟨d, _⟩ := hsat.noEmpty .boolTy boolTy_small
  have hi := Inv.runAll (ρ := fun _ => d) (β := fun _ => d) hK hsat.lawful hsat.noEmpty hc (inv_new K M _ _) hsat.truth e
  refine TraceInv.checkFrom (K := K) (M := M) (fun p hp => ?_) ⟨hi, by simp⟩ (hg.mono fun c hc => hc M hM) h
  obtain ⟨h1, h2, h3⟩ := hs p hp
  exact ⟨⟨hsat.lawful, hK, hsat.noEmpty, h1, hM.aliases p hp, h2⟩, h3, hM.chosen p hp⟩

/-- C23, for certificates in which no step that keeps the general form of its claim gives it arguments.

Partial: as above, but nothing has to be known of the general forms. -/
theorem C23_no_arguments_partial (hK : PlainSignature K) {calls : List (CheckEnv × Request)} (hc : CallsOk K calls)
    {s : Checker} (e : Checker.runAll calls .new = .done s) {steps : List (TraceEnv × CertStep)}
    (hs : StepsOk K steps) (hn : NoArguments steps)
    {n : Nat} (h : checkCertificate s steps = .done (some n)) :
    ¬ ∃ M : Interp.{u}, Realizes K M (asserted calls) steps :=
  C23_accepted_proves_partial hK hc e hs hn.careful h

/-- C23, for certificates that declare witnesses under new names: the facts and the negated goal cannot all be
true.  An interpretation of the facts need not say anything of the witnesses: the declarations only name what
was shown to exist.

Partial: as for `C23_accepted_proves_partial`, but nothing is assumed of the choice of the witnesses. -/
theorem C23_fresh_witnesses_partial (hK : PlainSignature K) {calls : List (CheckEnv × Request)} (hc : CallsOk K calls)
    {s : Checker} (e : Checker.runAll calls .new = .done s) {steps : List (TraceEnv × CertStep)}
    (hs : StepsOk K steps) (hw : FreshWitnesses.{u} K (asserted calls) steps)
    (hg : Careful (fun c => ∀ M : Interp.{u}, Realizes K M (asserted calls) steps → ClauseTrue M c) ⟨s, []⟩ steps)
    {n : Nat} (h : checkCertificate s steps = .done (some n)) :
    ¬ ∃ M : Interp.{u}, Satisfies K M (asserted calls) ∧ ∀ p ∈ steps, AliasesHold M p.1.aliases := by
  rintro ⟨M, h1, h2⟩
  exact C23_accepted_proves_partial hK hc e hs hg h (hw.realize hK steps [] rfl M h1 h2 fun p hp => by cases hp)

/-! ### Examples -/

namespace TraceExample
open Demo CheckerExample

/-- No instance attributes. -/
def noAliases : Aliases := ⟨fun _ _ => none, fun _ _ _ => none⟩

theorem noAliases_ok : AliasesOk Demo.K noAliases :=
  ⟨fun m l n ts s h => (by cases h), fun m l ts s h => (by cases h)⟩

theorem noAliases_hold (M : Interp.{u}) : AliasesHold M noAliases := fun m l n ts s h => by cases h

/-- The surroundings. -/
def tenv : TraceEnv := ⟨env, noAliases⟩

/-- A step. -/
def mk (rule : CertRule) (c : Clause) (map : VMap) (premises : List Nat) : TraceEnv × CertStep :=
  (tenv, ⟨rule, .claim ⟨c, map⟩ false, premises, false, none, none⟩)

/-- `not even(add(zero, zero))`. -/
def c9 : Clause := ⟨[⟨false, .app even (.app (.app add zero) zero), .tt⟩], []⟩
/-- `even(x0)`. -/
def c10 : Clause := ⟨[⟨true, .app even (.fvar 0), .tt⟩], [some nat]⟩
/-- `not even(suc(zero))`. -/
def c11 : Clause := ⟨[⟨false, .app even (.app suc zero), .tt⟩], []⟩

/-- Is the certificate accepted after the sequence of calls? -/
def certifies (calls : List (CheckEnv × Request)) (steps : List (TraceEnv × CertStep)) : Bool :=
  match Checker.runAll calls .new with
  | .done s => match checkCertificate s steps with
    | .done (some _) => true
    | _ => false
  | _ => false

theorem certifies_iff {calls : List (CheckEnv × Request)} {steps : List (TraceEnv × CertStep)}
    (h : certifies calls steps = true) :
    ∃ s n, Checker.runAll calls .new = .done s ∧ checkCertificate s steps = .done (some n) := by
  unfold certifies at h
  split at h
  · rename_i s e
    split at h
    · rename_i n e'
      exact ⟨s, n, e, e'⟩
    · cases h
  · cases h

/-- A test for `Careful`. -/
def isCareful : TraceState → List (TraceEnv × CertStep) → Bool
  | _, [] => true
  | st, (E, step) :: rest =>
    match st.checkStep E step with
    | .done (some st') => (match st.checkStep E (bare step) with
      | .done (some _) => true
      | _ => false) && isCareful st' rest
    | _ => true

theorem isCareful_iff {P : Clause → Prop} : ∀ {steps : List (TraceEnv × CertStep)} {st : TraceState},
    isCareful st steps = true → Careful P st steps := by
  intro steps
  induction steps with
  | nil => intro st _; trivial
  | cons p steps ih =>
    obtain ⟨E, step⟩ := p
    intro st h st' e
    rw [isCareful, e] at h
    dsimp only at h
    rw [Bool.and_eq_true] at h
    refine ⟨fun _ => .inl ?_, ih h.2⟩
    have h1 := h.1
    split at h1
    · rename_i x ex; exact ⟨x, ex⟩
    · cases h1

/-- The same, after a sequence of calls. -/
def carefulAfter (calls : List (CheckEnv × Request)) (steps : List (TraceEnv × CertStep)) : Bool :=
  match Checker.runAll calls .new with
  | .done s => isCareful ⟨s, []⟩ steps
  | _ => false

theorem plain9 : PlainClause Demo.K c9 := plainClause_iff.2 ⟨ValueVars.nil, fun l hl => by
  simp only [c9, List.mem_cons, List.not_mem_nil, or_false] at hl; subst hl
  exact neat_lit s_bool (s_even (s_add s_zero s_zero)) s_tt rfl rfl⟩
theorem plain10 : PlainClause Demo.K c10 := plainClause_iff.2 ⟨valueVars s_nat, fun l hl => by
  simp only [c10, List.mem_cons, List.not_mem_nil, or_false] at hl; subst hl
  exact neat_lit s_bool (s_even (.fvar rfl rfl)) s_tt rfl rfl⟩
theorem plain11 : PlainClause Demo.K c11 := plainClause_iff.2 ⟨ValueVars.nil, fun l hl => by
  simp only [c11, List.mem_cons, List.not_mem_nil, or_false] at hl; subst hl
  exact neat_lit s_bool (s_even (s_suc s_zero)) s_tt rfl rfl⟩

theorem mk_ok {rule : CertRule} {c : Clause} {map : VMap} {premises : List Nat} (hp : PlainClause Demo.K c)
    (ht : ∀ l ∈ c.lits, l.left.BetaFree ∧ l.right.BetaFree) (hm : map = [] ∨ (map = [some zero] ∧ c.ctx = [some nat])) :
    (mk rule c map premises).1.env.K = Demo.K ∧ AliasesOk Demo.K (mk rule c map premises).1.aliases ∧
      StepOk Demo.K (mk rule c map premises).2 := by
  refine ⟨rfl, noAliases_ok, ⟨hp, ht⟩, fun i t hi => ?_⟩
  rcases hm with rfl | ⟨rfl, hc⟩
  · simp [VMap.get] at hi
  · match i, hi with
    | 0, hi => cases hi; exact ⟨sortFree_of rfl, nat, by rw [hc]; rfl, s_zero⟩

/-- The facts `even(zero)`, `not even(x) or even(add(x, x))`, and the negation of `even(add(zero, zero))`. -/
def calls1 : List (CheckEnv × Request) :=
  [(env, .insert c1 .assumption), (env, .insert c2 .assumption), (env, .insert c9 .assumption)]
/-- A certificate that gives an argument to a claim. -/
def steps1 : List (TraceEnv × CertStep) := [mk .claim c2 [some zero] []]
/-- A certificate that instantiates a fact. -/
def steps2 : List (TraceEnv × CertStep) := [mk .fact c2 [] [], mk .inst c2 [some zero] [0], mk .contra c9 [] []]

theorem calls1_ok : CallsOk Demo.K calls1 := by
  intro p hp
  simp only [calls1, List.mem_cons, List.not_mem_nil, or_false] at hp
  rcases hp with rfl | rfl | rfl
  · exact ⟨rfl, plain1⟩
  · exact ⟨rfl, plain2⟩
  · exact ⟨rfl, plain9⟩

theorem tidy2 : ∀ l ∈ c2.lits, l.left.BetaFree ∧ l.right.BetaFree := by
  intro l hl
  simp only [c2, List.mem_cons, List.not_mem_nil, or_false] at hl
  rcases hl with rfl | rfl <;> exact ⟨⟨rfl, trivial, by repeat' constructor⟩, trivial⟩

theorem fits_of {M : Interp.{u}} {cs : List Clause} {steps : List (TraceEnv × CertStep)} (h : Satisfies Demo.K M cs)
    (hs : ∀ p ∈ steps, ∃ r c m i, p = mk r c m i) : Realizes Demo.K M cs steps :=
  ⟨h, fun p hp => by obtain ⟨r, c, m, i, rfl⟩ := hs p hp; exact noAliases_hold M,
    fun p hp => by obtain ⟨r, c, m, i, rfl⟩ := hs p hp; trivial⟩

/-- The hypotheses of `C23_accepted_proves_partial` can be met; without the certificate there is no
contradiction yet. -/
example : (¬ ∃ M : Interp.{u}, Satisfies Demo.K M [c1, c2, c9]) ∧ certifies calls1 [] = false := by
  refine ⟨?_, by decide +kernel⟩
  rintro ⟨M, hM⟩
  obtain ⟨s, n, e, h⟩ := certifies_iff (calls := calls1) (steps := steps1) (by decide +kernel)
  have hcare : carefulAfter calls1 steps1 = true := by decide +kernel
  rw [carefulAfter, e] at hcare
  refine C23_accepted_proves_partial Demo.plain calls1_ok e (fun p hp => ?_) (isCareful_iff hcare) h
    ⟨M, fits_of hM fun p hp => ?_⟩
  · simp only [steps1, List.mem_cons, List.not_mem_nil, or_false] at hp
    subst hp
    exact mk_ok plain2 tidy2 (.inr ⟨rfl, rfl⟩)
  · simp only [steps1, List.mem_cons, List.not_mem_nil, or_false] at hp
    exact ⟨_, _, _, _, hp⟩

/-- The hypotheses of `C23_no_arguments_partial` can be met. -/
example : ¬ ∃ M : Interp.{u}, Satisfies Demo.K M [c1, c2, c9] := by
  rintro ⟨M, hM⟩
  obtain ⟨s, n, e, h⟩ := certifies_iff (calls := calls1) (steps := steps2) (by decide +kernel)
  refine C23_no_arguments_partial Demo.plain calls1_ok e (fun p hp => ?_) (fun p hp hk c w hc => ?_) h
    ⟨M, fits_of hM fun p hp => ?_⟩
  · simp only [steps2, List.mem_cons, List.not_mem_nil, or_false] at hp
    rcases hp with rfl | rfl | rfl
    · exact mk_ok plain2 tidy2 (.inl rfl)
    · exact mk_ok plain2 tidy2 (.inr ⟨rfl, rfl⟩)
    · refine mk_ok plain9 (fun l hl => ?_) (.inl rfl)
      simp only [c9, List.mem_cons, List.not_mem_nil, or_false] at hl
      subst hl
      exact ⟨⟨rfl, trivial, by repeat' constructor⟩, trivial⟩
  · simp only [steps2, List.mem_cons, List.not_mem_nil, or_false] at hp
    rcases hp with rfl | rfl | rfl
    · cases hc; rfl
    · rcases hk.2 with h | h | h | h
      · cases h
      · cases h
      · cases h
      · cases h.1
    · cases hc; rfl
  · simp only [steps2, List.mem_cons, List.not_mem_nil, or_false] at hp
    rcases hp with rfl | rfl | rfl <;> exact ⟨_, _, _, _, rfl⟩

/-- `exists y. even(add(x0, y))`. -/
def c12 : Clause := ⟨[⟨true, .ex nat (.app even (.app (.app add (.fvar 0)) (.bvar 0))), .tt⟩], [some nat]⟩
/-- `not even(add(zero, x0))`. -/
def c13 : Clause := ⟨[⟨false, .app even (.app (.app add zero) (.fvar 0)), .tt⟩], [some nat]⟩
/-- `even(add(x0, suc(x0)))`. -/
def c14 : Clause := ⟨[⟨true, .app even (.app (.app add (.fvar 0)) (.app suc (.fvar 0))), .tt⟩], [some nat]⟩
/-- The facts `exists y. even(add(x0, y))` and `not even(add(zero, x0))`. -/
def calls4 : List (CheckEnv × Request) := [(env, .insert c12 .assumption), (env, .insert c13 .assumption)]
/-- `let suc(x: nat) -> y: nat satisfy { even(add(x, y)) }`. -/
def pick : Satisfy := ⟨.global 0 1, ⟨c12, []⟩, some c14, []⟩
/-- A certificate that declares a witness. -/
def steps4 : List (TraceEnv × CertStep) :=
  [(tenv, ⟨.wit, .satisfy pick, [], false, none, none⟩), mk .inst c14 [some zero] [0],
    mk .fact c13 [] [], mk .inst c13 [some (.app suc zero)] [2]]

theorem plain12 : PlainClause Demo.K c12 := plainClause_iff.2 ⟨valueVars s_nat, fun l hl => by
  simp only [c12, List.mem_cons, List.not_mem_nil, or_false] at hl; subst hl
  exact neat_lit s_bool (.ex (.tyOf s_nat) (s_even (s_add (.fvar rfl rfl) (.bvar rfl)))) s_tt rfl rfl⟩
theorem plain13 : PlainClause Demo.K c13 := plainClause_iff.2 ⟨valueVars s_nat, fun l hl => by
  simp only [c13, List.mem_cons, List.not_mem_nil, or_false] at hl; subst hl
  exact neat_lit s_bool (s_even (s_add s_zero (.fvar rfl rfl))) s_tt rfl rfl⟩
theorem plain14 : PlainClause Demo.K c14 := plainClause_iff.2 ⟨valueVars s_nat, fun l hl => by
  simp only [c14, List.mem_cons, List.not_mem_nil, or_false] at hl; subst hl
  exact neat_lit s_bool (s_even (s_add (.fvar rfl rfl) (s_suc (.fvar rfl rfl)))) s_tt rfl rfl⟩
/-- A step that gives `suc(zero)` as an argument. -/
theorem mk_suc {rule : CertRule} {c : Clause} {premises : List Nat} (hp : PlainClause Demo.K c)
    (ht : ∀ l ∈ c.lits, l.left.BetaFree ∧ l.right.BetaFree) (hc : c.ctx = [some nat]) :
    (mk rule c [some (.app suc zero)] premises).1.env.K = Demo.K ∧
      AliasesOk Demo.K (mk rule c [some (.app suc zero)] premises).1.aliases ∧
      StepOk Demo.K (mk rule c [some (.app suc zero)] premises).2 := by
  refine ⟨rfl, noAliases_ok, ⟨hp, ht⟩, fun i t hi => ?_⟩
  match i, hi with
  | 0, hi => cases hi; exact ⟨sortFree_of rfl, nat, by rw [hc]; rfl, s_suc s_zero⟩

theorem tidy12 : ∀ l ∈ c12.lits, l.left.BetaFree ∧ l.right.BetaFree := by
  intro l hl
  simp only [c12, List.mem_cons, List.not_mem_nil, or_false] at hl
  subst hl
  exact ⟨⟨trivial, rfl, trivial, by repeat' constructor⟩, trivial⟩
theorem tidy13 : ∀ l ∈ c13.lits, l.left.BetaFree ∧ l.right.BetaFree := by
  intro l hl
  simp only [c13, List.mem_cons, List.not_mem_nil, or_false] at hl
  subst hl
  exact ⟨⟨rfl, trivial, by repeat' constructor⟩, trivial⟩
theorem tidy14 : ∀ l ∈ c14.lits, l.left.BetaFree ∧ l.right.BetaFree := by
  intro l hl
  simp only [c14, List.mem_cons, List.not_mem_nil, or_false] at hl
  subst hl
  exact ⟨⟨rfl, trivial, by repeat' constructor⟩, trivial⟩

theorem pick_declares : DeclaresWitness.{u} Demo.K pick [nat] nat (.app even (.app (.app add (.fvar 0)) (.bvar 0))) where
  const := .inl ⟨0, 1, rfl⟩
  args A hA := by rw [List.mem_singleton.1 hA]; exact s_nat
  result := s_nat
  type := rfl
  typed := s_even (s_add (.fvar rfl rfl) (.bvar rfl))
  fresh := by decide
  claim _ _ _ h := h
  makes _ _ _ h c hc := by
    simp only [pick, Option.toList, List.append_nil, List.mem_singleton] at hc
    rw [hc]
    exact h

theorem steps4_fresh : FreshWitnesses.{u} Demo.K [c12, c13] steps4 := by
  have only : ∀ p ∈ steps4, ∀ w, p.2.code = .satisfy w → w = pick := by
    intro p hp w hw
    simp only [steps4, List.mem_cons, List.not_mem_nil, or_false] at hp
    rcases hp with rfl | rfl | rfl | rfl <;> cases hw
    rfl
  have avoid12 : Avoids pick.name c12 := by
    refine ⟨by decide, fun i T hi => ?_⟩
    match i, hi with
    | 0, hi => cases hi; decide
  have avoid13 : Avoids pick.name c13 := by
    refine ⟨by decide, fun i T hi => ?_⟩
    match i, hi with
    | 0, hi => cases hi; decide
  refine ⟨fun p hp w hw => ?_, fun p hp w hw c sctx t h => by (cases h), fun p hp w hw c hc => ?_, fun p hp w hw => ?_,
    fun p hp w hw q hq => ?_, ?_⟩
  · rw [only p hp w hw]
    exact ⟨_, _, _, pick_declares⟩
  · rw [only p hp w hw]
    simp only [List.mem_cons, List.not_mem_nil, or_false] at hc
    rcases hc with rfl | rfl
    · exact avoid12
    · exact avoid13
  · rw [only p hp w hw]
    exact avoid12
  · simp only [steps4, List.mem_cons, List.not_mem_nil, or_false] at hq
    rcases hq with rfl | rfl | rfl | rfl <;> exact fun m l n ts s h => by cases h
  · refine .cons (fun q hq w hw => ?_) (.cons (fun q hq w hw => ?_) (.cons (fun q hq w hw => ?_) (.cons (fun q hq => ?_) .nil)))
    · simp only [List.mem_cons, List.not_mem_nil, or_false] at hq
      rcases hq with rfl | rfl | rfl <;> cases hw
    · simp only [List.mem_cons, List.not_mem_nil, or_false] at hq
      rcases hq with rfl | rfl <;> cases hw
    · simp only [List.mem_cons, List.not_mem_nil, or_false] at hq
      subst hq
      cases hw
    · cases hq

/-- The hypotheses of `C23_fresh_witnesses_partial` can be met; without the certificate there is no
contradiction yet. -/
example : (¬ ∃ M : Interp.{u}, Satisfies Demo.K M [c12, c13]) ∧ certifies calls4 [] = false := by
  refine ⟨?_, by decide +kernel⟩
  rintro ⟨M, hM⟩
  obtain ⟨s, n, e, h⟩ := certifies_iff (calls := calls4) (steps := steps4) (by decide +kernel)
  have hcare : carefulAfter calls4 steps4 = true := by decide +kernel
  rw [carefulAfter, e] at hcare
  refine C23_fresh_witnesses_partial Demo.plain (fun p hp => ?_) e (fun p hp => ?_) steps4_fresh (isCareful_iff hcare) h
    ⟨M, hM, fun p hp => ?_⟩
  · simp only [calls4, List.mem_cons, List.not_mem_nil, or_false] at hp
    rcases hp with rfl | rfl
    · exact ⟨rfl, plain12⟩
    · exact ⟨rfl, plain13⟩
  · simp only [steps4, List.mem_cons, List.not_mem_nil, or_false] at hp
    rcases hp with rfl | rfl | rfl | rfl
    · refine ⟨rfl, noAliases_ok, ⟨⟨plain12, tidy12⟩, fun i t hi => ?_⟩, rfl, fun c hc => ?_⟩
      · simp [pick, VMap.get] at hi
      · simp only [pick, Option.toList, List.append_nil, List.mem_singleton] at hc
        rw [hc]
        exact ⟨plain14, tidy14⟩
    · exact mk_ok plain14 tidy14 (.inr ⟨rfl, rfl⟩)
    · exact mk_ok plain13 tidy13 (.inl rfl)
    · exact mk_suc plain13 tidy13 rfl
  · simp only [steps4, List.mem_cons, List.not_mem_nil, or_false] at hp
    rcases hp with rfl | rfl | rfl | rfl <;> exact noAliases_hold M

/-- The facts `even(zero)` and the negation of `even(suc(zero))`. -/
def calls3 : List (CheckEnv × Request) := [(env, .insert c1 .assumption), (env, .insert c11 .assumption)]
/-- `function(x0: nat) { even(x0) }(zero)` is claimed, which also makes `even(x0)` known. -/
def steps3 : List (TraceEnv × CertStep) :=
  [mk .claim c10 [some zero] [], mk .fact c11 [] [], mk .contra c11 [] [0, 1]]

theorem full11 : ClauseTrue Full c11 := fun ρ _ β => ⟨_, List.mem_cons_self, by
  have h1 : (insert (∅ : ZFSet) (∅ : ZFSet) : ZFSet) ∈ ZFSet.omega := ZFSet.omega_succ ZFSet.omega_zero
  have h2 : Full.app (Full.sym (.global 0 1)) (∅ : ZFSet) = (insert (∅ : ZFSet) (∅ : ZFSet) : ZFSet) :=
    SetModel.app_lam ZFSet.omega_zero
  show Full.app (Full.sym (.global 0 2)) (Full.app (Full.sym (.global 0 1)) (∅ : ZFSet)) ≠ SetModel.tt
  rw [h2, even_full h1]
  intro h
  have h3 := SetModel.ofProp_tt.1 h
  have h4 : (∅ : ZFSet) ∈ (insert (∅ : ZFSet) (∅ : ZFSet) : ZFSet) := ZFSet.mem_insert _ _
  rw [h3] at h4
  exact ZFSet.notMem_empty _ h4⟩

end TraceExample

open TraceExample CheckerExample in
/-- C23 is false without the condition on general forms: from `even(zero)` a certificate "proves"
`even(suc(zero))`.  Its first step claims `function(x0: nat) { even(x0) }(zero)`, which is accepted because
`even(zero)` is known, and then `even(x0)` is used as a premise. -/
theorem C23_general_form_unsound : ∃ (calls : List (CheckEnv × Request)) (s : Checker)
    (steps : List (TraceEnv × CertStep)) (n : Nat), CallsOk Demo.K calls ∧ Checker.runAll calls .new = .done s ∧
    StepsOk Demo.K steps ∧ checkCertificate s steps = .done (some n) ∧
    Realizes Demo.K Demo.Full (asserted calls) steps := by
  obtain ⟨s, n, e, h⟩ := certifies_iff (calls := calls3) (steps := steps3) (by decide +kernel)
  have t11 : ∀ l ∈ c11.lits, l.left.BetaFree ∧ l.right.BetaFree := by
    intro l hl
    simp only [c11, List.mem_cons, List.not_mem_nil, or_false] at hl
    subst hl
    exact ⟨⟨rfl, trivial, by repeat' constructor⟩, trivial⟩
  refine ⟨calls3, s, steps3, n, fun p hp => ?_, e, fun p hp => ?_, h, fits_of ⟨Demo.full_lawful, Demo.full_noEmpty,
    fun c hc => ?_⟩ fun p hp => ?_⟩
  · simp only [calls3, List.mem_cons, List.not_mem_nil, or_false] at hp
    rcases hp with rfl | rfl
    · exact ⟨rfl, plain1⟩
    · exact ⟨rfl, plain11⟩
  · simp only [steps3, List.mem_cons, List.not_mem_nil, or_false] at hp
    rcases hp with rfl | rfl | rfl
    · refine mk_ok plain10 (fun l hl => ?_) (.inr ⟨rfl, rfl⟩)
      simp only [c10, List.mem_cons, List.not_mem_nil, or_false] at hl
      subst hl
      exact ⟨⟨rfl, trivial, trivial⟩, trivial⟩
    · exact mk_ok plain11 t11 (.inl rfl)
    · exact mk_ok plain11 t11 (.inl rfl)
  · simp only [calls3, asserted, List.mem_cons, List.not_mem_nil, or_false] at hc
    rcases hc with rfl | rfl
    · exact full1
    · exact full11
  · simp only [steps3, List.mem_cons, List.not_mem_nil, or_false] at hp
    rcases hp with rfl | rfl | rfl <;> exact ⟨_, _, _, _, rfl⟩

end Acorn
