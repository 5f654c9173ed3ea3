/-
C47: quoting kernel terms and clauses back to values keeps their meaning.
-/
import Verif.Lemmas.QuoteClause
import Verif.Lemmas.QuoteTotal
import Verif.Spec.DemoQuote
namespace Acorn
open Term Elab Spec

universe u

/-! ### An example -/

namespace DemoQuoted
open Spec.DemoQuote

/-- A type variable, a package of that type and a switch. -/
def Γ : LCtx := [some .type0, some (packT (.fvar 0)), some switchT]

/-- `only[Pack[x0]](x1)`. -/
def guard : Term := Term.apply (.sym (.global 0 5)) [packT (.fvar 0), .fvar 1]

/-- `less(if only[Pack[x0]](x1) { x2 } else { off })`. -/
def lhs : Term := .app (.sym (.global 0 4)) (Term.apply (.sym .ite_) [switchT, guard, .fvar 2, .sym (.global 0 0)])

/-- `function(y: Switch) { exists(z: Switch) { less(y, z) and z = x2 } }`. -/
def rhs : Term := .lam switchT (.bind .ex switchT (Term.apply (.sym .and_)
  [Term.apply (.sym (.global 0 4)) [.bvar 1, .bvar 0], Term.apply (.sym .eq_) [switchT, .bvar 0, .fvar 2]]))

/-- `not only[Pack[x0]](x1) or lhs = rhs`. -/
def clause : Clause := { ctx := Γ, lits := [{ positive := false, left := guard, right := .tt }, { positive := true, left := lhs, right := rhs }] }

theorem switch_typed {Δ : BCtx} {Γ : LCtx} : STyped K Γ Δ switchT (.ty .type0) := .sym rfl rfl ⟨rfl, fun _ => rfl⟩

theorem packT_typed {Δ : BCtx} : STyped K Γ Δ (packT (.fvar 0)) (.ty .type0) :=
  STyped.appTy (A := .type0) (B := .type0) (.sym rfl rfl ⟨rfl, fun _ => rfl⟩) (.fvar rfl rfl) rfl

theorem guard_typed : SHasType K Γ guard .boolTy :=
  STyped.appVal (A := packT (.fvar 0)) (B := .boolTy)
    (STyped.appTy (A := .type0) (B := .pi (.bvar 0) .boolTy) (.sym rfl rfl ⟨rfl, fun _ => rfl⟩) packT_typed rfl)
    (.fvar rfl rfl) rfl rfl

theorem less_typed {Δ : BCtx} {Γ : LCtx} : STyped K Γ Δ (.sym (.global 0 4)) (.ty (.pi switchT (.pi switchT .boolTy))) :=
  .sym rfl rfl ⟨rfl, fun _ => rfl⟩

theorem ite_typed : SHasType K Γ (Term.apply (.sym .ite_) [switchT, guard, .fvar 2, .sym (.global 0 0)]) switchT := by
  refine STyped.appVal (A := switchT) (B := switchT) (STyped.appVal (A := switchT) (B := .pi switchT switchT)
    (STyped.appVal (A := .boolTy) (B := .pi switchT (.pi switchT switchT)) (STyped.appTy (A := .type0)
      (B := .pi .boolTy (.pi (.bvar 1) (.pi (.bvar 2) (.bvar 3)))) (.sym rfl rfl ⟨rfl, fun _ => rfl⟩) switch_typed rfl)
      guard_typed rfl rfl) (.fvar rfl rfl) rfl rfl) (.sym rfl rfl ⟨rfl, fun _ => rfl⟩) rfl rfl

theorem lhs_typed : SHasType K Γ lhs (.pi switchT .boolTy) :=
  STyped.appVal (A := switchT) (B := .pi switchT .boolTy) less_typed ite_typed rfl rfl

theorem rhs_typed : SHasType K Γ rhs (.pi switchT .boolTy) := by
  refine STyped.lam (B := .boolTy) (.tyOf switch_typed) ?_ rfl rfl
  refine .ex (.tyOf switch_typed) ?_
  refine STyped.appVal (A := .boolTy) (B := .boolTy) (STyped.appVal (A := .boolTy) (B := .pi .boolTy .boolTy)
    (.sym rfl rfl ⟨rfl, fun _ => rfl⟩) ?_ rfl rfl) ?_ rfl rfl
  · exact STyped.appVal (A := switchT) (B := .boolTy) (STyped.appVal (A := switchT) (B := .pi switchT .boolTy) less_typed
      (.bvar rfl) rfl rfl) (.bvar rfl) rfl rfl
  · exact STyped.appVal (A := switchT) (B := .boolTy) (STyped.appVal (A := switchT) (B := .pi switchT .boolTy)
      (STyped.appTy (A := .type0) (B := .pi (.bvar 0) (.pi (.bvar 1) .boolTy)) (.sym rfl rfl ⟨rfl, fun _ => rfl⟩) switch_typed rfl)
      (.bvar rfl) rfl rfl) (.fvar rfl rfl) rfl rfl

theorem ctx_quotable : QuotableCtx K Γ := by
  intro i T hi
  match i, hi with
  | 0, hi => cases hi; exact .inl rfl
  | 1, hi => cases hi; exact .inr ⟨.tyOf packT_typed, rfl⟩
  | 2, hi => cases hi; exact .inr ⟨.tyOf switch_typed, rfl⟩
  | n + 3, hi => cases hi

theorem sym_quotable {s : Symbol} {n : Nat} {T : Term} (hk : isKindSym s = false) (he : N.eliminator (N.const s) = none)
    (hT : K.symbolType s = some T) (hn : kindArity T ≤ n) : Quotable K N n (.sym s) :=
  ⟨hk, he, fun U hU => by rw [hT] at hU; cases hU; exact hn⟩

theorem guard_quotable : Quotable K N 0 guard :=
  ⟨⟨sym_quotable rfl rfl rfl (by decide), sym_quotable rfl rfl rfl (by decide), trivial⟩, trivial⟩

theorem lhs_quotable : Quotable K N 0 lhs :=
  ⟨sym_quotable rfl rfl rfl (by decide), ⟨⟨⟨sym_quotable rfl rfl rfl (by decide), sym_quotable rfl rfl rfl (by decide)⟩, guard_quotable⟩, trivial⟩,
    sym_quotable rfl rfl rfl (by decide)⟩

theorem rhs_quotable : Quotable K N 0 rhs :=
  ⟨sym_quotable rfl rfl rfl (by decide), sym_quotable rfl rfl rfl (by decide),
    ⟨sym_quotable rfl rfl rfl (by decide), ⟨sym_quotable rfl rfl rfl (by decide), trivial⟩, trivial⟩,
    ⟨⟨sym_quotable rfl rfl rfl (by decide), sym_quotable rfl rfl rfl (by decide)⟩, trivial⟩, trivial⟩

theorem clause_quotable : QuotableClause K N clause := by
  refine ⟨ctx_quotable, fun l hl => ?_⟩
  simp only [clause, List.mem_cons, List.not_mem_nil, or_false] at hl
  rcases hl with rfl | rfl
  · exact ⟨.boolTy, guard_typed, .sym rfl rfl ⟨rfl, fun _ => rfl⟩, rfl, guard_quotable, sym_quotable rfl rfl rfl (by decide)⟩
  · exact ⟨_, lhs_typed, rhs_typed, rfl, lhs_quotable, rhs_quotable⟩

theorem type_printable {m l n : Nat} {t : Ty} (e : N.ground (m, l) = some t) (hd : ∃ d, t = .data d []) :
    Printable K N n (.sym (.type m l)) := ⟨t, e, fun _ => hd⟩

theorem guard_printable : Printable K N 0 guard :=
  ⟨⟨(fun e => by cases e), type_printable (n := 1) rfl ⟨_, rfl⟩, trivial⟩, trivial⟩

theorem switch_grounds {A : Term} (hA : ∀ m l, Atom.sym (.type m l) ∈ A.atoms → (m, l) = (0, 0)) :
    ∀ m l, Atom.sym (.type m l) ∈ A.atoms →
      ∃ t, N.ground (m, l) = some t ∧ (K.paramKinds (m, l) ≠ [] → ∃ d, t = .data d []) := by
  intro m l h
  cases hA m l h
  exact ⟨_, rfl, fun _ => ⟨_, rfl⟩⟩

theorem less_printable {n : Nat} : Printable K N n (.sym (.global 0 4)) := fun _ =>
  ⟨_, rfl, .tyPi (.tyOf switch_typed) (.tyPi (.tyOf switch_typed) (.tyOf (.sym rfl rfl ⟨rfl, fun _ => rfl⟩))), rfl,
    switch_grounds fun m l h => by simpa [Term.atoms, Term.pi, Term.boolTy, switchT, Term.sym] using h⟩

theorem off_printable {n : Nat} : Printable K N n (.sym (.global 0 0)) := fun _ =>
  ⟨_, rfl, .tyOf switch_typed, rfl, switch_grounds fun m l h => by simpa [Term.atoms, switchT, Term.sym] using h⟩

theorem lhs_printable : Printable K N 0 lhs :=
  ⟨less_printable, ⟨⟨⟨(by decide : 4 ≤ 4), type_printable (n := 0) rfl ⟨_, rfl⟩⟩, guard_printable⟩, trivial⟩, off_printable⟩

theorem rhs_printable : Printable K N 0 rhs :=
  ⟨type_printable (n := 0) rfl ⟨_, rfl⟩, type_printable (n := 0) rfl ⟨_, rfl⟩,
    ⟨trivial, ⟨less_printable, trivial⟩, trivial⟩, ⟨⟨trivial, type_printable (n := 0) rfl ⟨_, rfl⟩⟩, trivial⟩, trivial⟩

theorem ctx_printable : ∀ i T, Γ.get i = some T → Printable K N 0 T := by
  intro i T hi
  match i, hi with
  | 0, hi => cases hi; trivial
  | 1, hi => cases hi; exact ⟨type_printable (n := 1) rfl ⟨_, rfl⟩, trivial⟩
  | 2, hi => cases hi; exact type_printable (n := 0) rfl ⟨_, rfl⟩
  | n + 3, hi => cases hi

/-- What the clause is quoted to, when its type variable is named `X`: the package is variable 0 and the switch
is variable 1. -/
def quoted : Value :=
  .all [pack (.tvar "X"), switch] (.bin .or
    (.not (.app (.const "only" [pack (.tvar "X")] (.fn [pack (.tvar "X")] .bool)) [.var 0 (pack (.tvar "X"))]))
    (.bin .equals
      (.app (.const "less" [] (.fn [switch, switch] .bool))
        [.ite (.app (.const "only" [pack (.tvar "X")] (.fn [pack (.tvar "X")] .bool)) [.var 0 (pack (.tvar "X"))])
          (.var 1 switch) (.const "off" [] switch)])
      (.lam [switch] (.ex [switch] (.bin .and (.app (.const "less" [] (.fn [switch, switch] .bool)) [.var 2 switch, .var 3 switch])
        (.bin .equals (.var 3 switch) (.var 1 switch)))))))

theorem quoted_eq : quoteClause K N (some ["X"]) 30 clause = some quoted := rfl

/-- The values of the variables. -/
noncomputable def ρ' : Nat → DemoQuote.M.D
  | 0 => SetModel.bool
  | _ => SetModel.tt

theorem ρ'_models : Models DemoQuote.M Γ ρ' := by
  intro i T hi β
  match i, hi with
  | 0, hi => cases hi; exact SetModel.U_bool
  | 1, hi =>
    cases hi
    show SetModel.tt ∈ SetModel.app (SetModel.lam SetModel.U fun _ => SetModel.bool) SetModel.bool
    rw [SetModel.app_lam SetModel.U_bool]
    exact SetModel.mem_bool.2 (.inl rfl)
  | 2, hi => cases hi; exact SetModel.mem_bool.2 (.inl rfl)
  | n + 3, hi => cases hi

/-- Variable 1 at position 1, variable 2 at position 0, the type variable left out. -/
theorem ρ'_stack : StackOk Γ (some [none, some 1, some 0]) [ρ' 2, ρ' 1] ρ' := by
  refine ⟨rfl, fun i j hi e => ?_, fun m e => by cases e; rfl⟩
  match i, hi, e with
  | 0, _, e => cases e
  | 1, _, e => cases e; rfl
  | 2, _, e => cases e; rfl
  | n + 3, hi, _ => exact absurd hi (by simp [Γ])

end DemoQuoted

/-! ### Types and terms -/

variable {K : KCtx} {M : Interp.{u}} (h : Lawful K M) (L : Tables) {N : Names} {θ : String → M.D}
  {tn : Nat → Option String}

/-- The quoted form of a type means that type, when the names of the type variables mean their values. -/
theorem C47_types_keep_meaning (hK : Prenex K) (I : Inverse K M L N θ) {Γ : LCtx} {ρ β : Nat → M.D}
    (hΓ : QuotableCtx K Γ) (hθ : ∀ i T, Γ.get i = some T → isKind T = true → θ (varName tn i) = ρ i) (fuel n : Nat)
    (T : Term) (a : Ty) (hT : STyped K Γ BCtx.nil T .isTy) (hk : noKinds T = true)
    (e : quoteType K N tn fuel n T = some a) : (kernelFrame h L).ty θ a = eval M ρ β T :=
  (quoteType_spec h L I hθ fuel).1 n T a β ((STyped.shape hK hΓ.simple hT (by intro i T hi; cases hi) hk).2 rfl) e

open DemoQuoted Spec.DemoQuote in
/-- A type with a type variable. -/
example : Prenex DemoQuote.K ∧ QuotableCtx DemoQuote.K Γ ∧
    STyped DemoQuote.K Γ BCtx.nil (.pi (packT (.fvar 0)) .boolTy) .isTy ∧
    quoteType DemoQuote.K DemoQuote.N (fun _ => none) 5 3 (.pi (packT (.fvar 0)) .boolTy) =
      some (.fn [pack (.tvar "T0")] .bool) :=
  ⟨prenex_K, ctx_quotable, .tyPi (.tyOf packT_typed) (.tyOf (.sym rfl rfl ⟨rfl, fun _ => rfl⟩)), rfl⟩

/-- The quoted form of a term, on a stack where the variables of the context are at the positions they are mapped
to, means the term.

Partial: terms with match eliminators, whose matches are put back together with mistakes (see below), and
families indexed by values are left out. -/
theorem C47_terms_keep_meaning_partial (hK : Prenex K) (I : Inverse K M L N θ) {Γ : LCtx} {rm : Remap} {env : List M.D}
    {ρ β : Nat → M.D} (hΓ : QuotableCtx K Γ) (hρ : Models M Γ ρ) (hs : StackOk Γ rm env ρ)
    (hθ : ∀ i T, Γ.get i = some T → isKind T = true → θ (varName tn i) = ρ i) (reduce : Bool) (fuel : Nat) (t : Term)
    (v : Value) (T : Term) (ht : SHasType K Γ t T) (hT : endsKind T = false) (hq : Quotable K N 0 t)
    (e : quoteTerm K N tn reduce fuel Γ rm t = some v) :
    (kernelFrame h L).den (constMeaning M L) θ env v = eval M ρ β t :=
  (quote_keeps h L hK I reduce fuel).1 Γ rm t v env ρ β T ⟨hΓ.ok, hΓ.simple, hρ, hs, hθ⟩ ht hT hq e

open DemoQuoted Spec.DemoQuote in
/-- The right side of the equation above, quoted on a stack that has the variables in another order. -/
example (β : Nat → DemoQuote.M.D) :
    (kernelFrame DemoQuote.lawful DemoQuote.L).den (constMeaning DemoQuote.M DemoQuote.L) (fun _ => SetModel.bool) [ρ' 2, ρ' 1]
      (.lam [switch] (.ex [switch] (.bin .and (.app (.const "less" [] (.fn [switch, switch] .bool)) [.var 2 switch, .var 3 switch])
        (.bin .equals (.var 3 switch) (.var 0 switch))))) = eval DemoQuote.M ρ' β rhs :=
  C47_terms_keep_meaning_partial DemoQuote.lawful DemoQuote.L (tn := fun _ => none) prenex_K (inverse _ _) ctx_quotable ρ'_models
    ρ'_stack (fun i T hi hT => by
      match i, hi with
      | 0, hi => rfl
      | 1, hi => cases hi; cases hT
      | 2, hi => cases hi; cases hT
      | n + 3, hi => cases hi) false 30 rhs _ _ rhs_typed rfl rhs_quotable rfl

/-- A term without eliminators whose names are in the tables is quoted: with enough fuel there is no panic, if all
variables have a position. -/
theorem C47_quoting_succeeds (hK : Prenex K) {Γ : LCtx} {rm : Remap} (hΓ : QuotableCtx K Γ)
    (hp : ∀ i T, Γ.get i = some T → Printable K N 0 T) (hl : ∀ m, rm = some m → m.length = Γ.length)
    (hm : ∀ i T, Γ.get i = some T → isKind T = false → ∃ j, rm.index i = some j) (t T : Term) (ht : SHasType K Γ t T)
    (hT : endsKind T = false) (hq : Quotable K N 0 t) (hpt : Printable K N 0 t) :
    ∃ k0, ∀ fuel, k0 ≤ fuel → ∃ v, quoteTerm K N tn false fuel Γ rm t = some v := by
  refine quote_total hK t.size t Γ rm T (Nat.le_refl _) ⟨fun i T hi => ?_, hl, hm⟩ ht hT hq hpt
  rcases hΓ i T hi with hk | ⟨h1, h2⟩
  · exact .inl hk
  · exact .inr ⟨(h1.shape hK hΓ.simple (by intro i T hi; cases hi) h2).2 rfl, (hp i T hi).grounds⟩

open DemoQuoted Spec.DemoQuote in
/-- All that the example needs is in the tables. -/
example : (∀ i T, Γ.get i = some T → Printable DemoQuote.K DemoQuote.N 0 T) ∧ Printable DemoQuote.K DemoQuote.N 0 lhs ∧
    Printable DemoQuote.K DemoQuote.N 0 rhs := ⟨ctx_printable, lhs_printable, rhs_printable⟩

/-! ### Clauses -/

/-- A clause is true exactly when the statement it is quoted to holds, whatever types its type parameters
mean.  The names given to its type variables are different, and no other type has one of them.

Partial: as for terms. -/
theorem C47_clauses_keep_meaning_partial (hK : Prenex K) (I : Inverse K M L N θ) (names : Option (List String))
    (c : Clause) (fuel : Nat) (v : Value) (hc : QuotableClause K N c) (hne : c.lits = [] → ∃ ρ, Models M c.ctx ρ)
    (hd : ∀ i T j U, c.ctx.get i = some T → isKind T = true → c.ctx.get j = some U → isKind U = true →
      varName (clauseNames names c.ctx) i = varName (clauseNames names c.ctx) j → i = j)
    (ha : ∀ i T g n, c.ctx.get i = some T → isKind T = true → N.ground g = some (.arb n) →
      n ≠ varName (clauseNames names c.ctx) i)
    (e : quoteClause K N names fuel c = some v) :
    ClauseTrue M c ↔ ∀ θ' : String → M.D,
      (∀ n, (∀ i T, c.ctx.get i = some T → isKind T = true → n ≠ varName (clauseNames names c.ctx) i) → θ' n = θ n) →
      (∀ i T, c.ctx.get i = some T → isKind T = true →
        ∀ ρ β, M.mem (θ' (varName (clauseNames names c.ctx) i)) (eval M ρ β T)) →
      (kernelFrame h L).Holds (constMeaning M L) θ' [] v :=
  quoteClause_true h L hK I hc hne hd ha e

/-- A clause without type variables is true exactly when the statement it is quoted to holds.

Partial: as for terms. -/
theorem C47_monomorphic_clauses_keep_meaning_partial (hK : Prenex K) (I : Inverse K M L N θ)
    (names : Option (List String)) (c : Clause) (fuel : Nat) (v : Value) (hc : QuotableClause K N c)
    (hne : c.lits ≠ []) (hv : ∀ i T, c.ctx.get i = some T → isKind T = false)
    (e : quoteClause K N names fuel c = some v) :
    ClauseTrue M c ↔ (kernelFrame h L).Holds (constMeaning M L) θ [] v := by
  have no : ∀ {P : Prop} {i T}, c.ctx.get i = some T → isKind T = true → P := fun hi hT => by
    rw [hv _ _ hi] at hT
    cases hT
  refine (quoteClause_true h L hK I hc (fun h => absurd h hne) (fun i T j U hi hT => no hi hT)
    (fun i T g n hi hT => no hi hT) e).trans ⟨fun hh => hh θ (fun _ _ => rfl) (fun i T hi hT => no hi hT), fun hh θ' h0 _ => ?_⟩
  have : θ' = θ := funext fun n => h0 n fun i T hi hT => no hi hT
  rw [this]
  exact hh

/-- Without given names for the type variables, their names are always different. -/
theorem C47_default_names_differ (Γ : LCtx) (i j : Nat)
    (e : varName (clauseNames none Γ) i = varName (clauseNames none Γ) j) : i = j := default_names Γ i j e

/-- Given names are given to the type variables in order: a type variable with `j` type variables before it gets
name `j`. -/
theorem C47_given_names_in_order (Γ : LCtx) (ns : List String) (i : Nat) (T : Term) (n : String)
    (hi : Γ.get i = some T) (hT : isKind T = true)
    (hn : ns[((Γ.take i).filter fun o => o.any isKind).length]? = some n) :
    varName (clauseNames (some ns) Γ) i = n := given_names hi hT hn

/-- Two type variables with a value between them. -/
example : LCtx.get [some .type0, some .boolTy, some .type0] 2 = some .type0 ∧ isKind .type0 = true ∧
    ["A", "B"][(([some .type0, some .boolTy, some .type0] : LCtx).take 2 |>.filter fun o => o.any isKind).length]? = some "B" :=
  ⟨rfl, rfl, rfl⟩

open DemoQuoted Spec.DemoQuote in
/-- The clause is true in the model exactly when its quoted form holds for all types `X`. -/
example : ClauseTrue DemoQuote.M clause ↔ ∀ θ : String → DemoQuote.M.D, (∀ n, n ≠ "X" → θ n = SetModel.bool) →
    θ "X" ∈ SetModel.U →
    (kernelFrame DemoQuote.lawful DemoQuote.L).Holds (constMeaning DemoQuote.M DemoQuote.L) θ [] quoted := by
  have only0 : ∀ {i : Nat} {T : Term}, clause.ctx.get i = some T → isKind T = true → i = 0 ∧ T = .type0 := by
    intro i T hi hT
    match i, hi with
    | 0, hi => cases hi; exact ⟨rfl, rfl⟩
    | 1, hi => cases hi; cases hT
    | 2, hi => cases hi; cases hT
    | n + 3, hi => cases hi
  refine (C47_clauses_keep_meaning_partial DemoQuote.lawful DemoQuote.L (θ := fun _ => SetModel.bool) prenex_K
    (inverse _ _) (some ["X"]) clause 30 quoted clause_quotable (fun e => by cases e)
    (fun i T j U hi hT hj hU _ => (only0 hi hT).1.trans (only0 hj hU).1.symm)
    (fun i T g n hi hT hg => ?_) quoted_eq).trans ?_
  · simp only [DemoQuote.N] at hg
    split at hg
    · cases hg
    split at hg
    · cases hg
    split at hg
    · cases hg
    · cases hg
  · refine forall_congr' fun θ => ?_
    constructor
    · intro hh h0 h1
      refine hh (fun n hn => h0 n (hn 0 .type0 rfl rfl)) fun i T hi hT ρ β => ?_
      obtain ⟨rfl, rfl⟩ := only0 hi hT
      exact h1
    · intro hh h0 h1
      exact hh (fun n hn => h0 n fun i T hi hT => by obtain ⟨rfl, rfl⟩ := only0 hi hT; exact hn) (h1 0 .type0 rfl rfl (fun _ => SetModel.bool) fun _ => SetModel.bool)

/-- A clause without eliminators whose names are in the tables is quoted: with enough fuel there is no
panic. -/
theorem C47_clause_quoting_succeeds (hK : Prenex K) (names : Option (List String)) (c : Clause)
    (hc : QuotableClause K N c) (hp : ∀ i T, c.ctx.get i = some T → Printable K N 0 T)
    (hl : ∀ l ∈ c.lits, Printable K N 0 l.left ∧ Printable K N 0 l.right) :
    ∃ k0, ∀ fuel, k0 ≤ fuel → ∃ v, quoteClause K N names fuel c = some v :=
  quoteClause_total hK hc hp hl

open DemoQuoted Spec.DemoQuote in
/-- The clause of the example. -/
example : QuotableClause DemoQuote.K DemoQuote.N clause ∧
    ∀ l ∈ clause.lits, Printable DemoQuote.K DemoQuote.N 0 l.left ∧ Printable DemoQuote.K DemoQuote.N 0 l.right := by
  refine ⟨clause_quotable, fun l hl => ?_⟩
  simp only [clause, List.mem_cons, List.not_mem_nil, or_false] at hl
  rcases hl with rfl | rfl
  · exact ⟨guard_printable, trivial⟩
  · exact ⟨lhs_printable, rhs_printable⟩

/-! ### Disagreements -/

namespace DemoQuoted
open Spec.DemoQuote

/-- `(if true { less(off) } else { less(on) })(off)`, as a value and as a kernel term. -/
def applied : Value :=
  .app (.ite (.bool true) (.app (.const "less" [] (.fn [switch, switch] .bool)) [.const "off" [] switch])
    (.app (.const "less" [] (.fn [switch, switch] .bool)) [.const "on" [] switch])) [.const "off" [] switch]

def appliedTerm : Term :=
  Term.apply (.sym .ite_) [.pi switchT .boolTy, .tt, .app (.sym (.global 0 4)) (.sym (.global 0 0)),
    .app (.sym (.global 0 4)) (.sym (.global 0 1)), .sym (.global 0 0)]

theorem applied_typed : SHasType DemoQuote.K [] appliedTerm .boolTy := by
  have hs : ∀ {Δ : BCtx}, STyped DemoQuote.K [] Δ switchT (.ty .type0) := .sym rfl rfl ⟨rfl, fun _ => rfl⟩
  have hf : ∀ {c : Nat}, c = 0 ∨ c = 1 → SHasType DemoQuote.K [] (.app (.sym (.global 0 4)) (.sym (.global 0 c))) (.pi switchT .boolTy) := by
    intro c hc
    refine STyped.appVal (A := switchT) (B := .pi switchT .boolTy) less_typed ?_ rfl rfl
    rcases hc with rfl | rfl
    · exact .sym rfl rfl ⟨rfl, fun _ => rfl⟩
    · exact .sym rfl rfl ⟨rfl, fun _ => rfl⟩
  refine STyped.appVal (A := switchT) (B := .boolTy) (STyped.appVal (A := .pi switchT .boolTy) (B := .pi switchT .boolTy)
    (STyped.appVal (A := .pi switchT .boolTy) (B := .pi (.pi switchT .boolTy) (.pi switchT .boolTy))
      (STyped.appVal (A := .boolTy) (B := .pi (.pi switchT .boolTy) (.pi (.pi switchT .boolTy) (.pi switchT .boolTy)))
        (STyped.appTy (A := .type0) (B := .pi .boolTy (.pi (.bvar 1) (.pi (.bvar 2) (.bvar 3)))) (.sym rfl rfl ⟨rfl, fun _ => rfl⟩)
          (.pi hs (.sym rfl rfl ⟨rfl, fun _ => rfl⟩)) rfl)
        (.sym rfl rfl ⟨rfl, fun _ => rfl⟩) rfl rfl) (hf (.inl rfl)) rfl rfl) (hf (.inr rfl)) rfl rfl)
    (.sym rfl rfl ⟨rfl, fun _ => rfl⟩) rfl rfl

end DemoQuoted

open DemoQuoted Spec.DemoQuote in
/-- An `if` between functions that is applied to an argument is lowered to a well-typed term, and quoting that term
panics: the argument makes the `if` malformed. -/
theorem C47_disagreement_applied_if :
    applied.lower DemoQuote.L [] false 12 [] = some appliedTerm ∧
    SHasType DemoQuote.K [] appliedTerm .boolTy ∧ Quotable DemoQuote.K DemoQuote.N 0 appliedTerm ∧
    ∀ tn reduce fuel, quoteTerm DemoQuote.K DemoQuote.N tn reduce fuel [] none appliedTerm = none := by
  refine ⟨rfl, applied_typed, ?_, fun tn reduce fuel => ?_⟩
  · have hl : Quotable DemoQuote.K DemoQuote.N 1 (.sym (.global 0 4)) := sym_quotable rfl rfl rfl (by decide)
    have h0 : Quotable DemoQuote.K DemoQuote.N 0 (.sym (.global 0 0)) := sym_quotable rfl rfl rfl (by decide)
    have h1 : Quotable DemoQuote.K DemoQuote.N 0 (.sym (.global 0 1)) := sym_quotable rfl rfl rfl (by decide)
    exact ⟨⟨⟨⟨⟨sym_quotable rfl rfl rfl (by decide), sym_quotable rfl rfl rfl (by decide),
      sym_quotable rfl rfl rfl (by decide)⟩, sym_quotable rfl rfl rfl (by decide)⟩, hl, h0⟩, hl, h1⟩, h0⟩
  · exact quote_applied_ite appliedTerm _ fuel rfl rfl rfl rfl

namespace DemoQuoted
open Spec.DemoQuote

/-- `match b { Box.mk(k) { forall(y: Switch) { less(k, y) } } }`, as a kernel term. -/
def matchTerm : Term :=
  Term.apply (.sym (.global 0 3)) [.boolTy, .fvar 0,
    .lam switchT (.all switchT (Term.apply (.sym (.global 0 4)) [.bvar 1, .bvar 0]))]

/-- The match as it was before lowering. -/
def matchValue : Value :=
  .match_ (.var 0 box) [.mk [switch] (.app (.const "Box.mk" [] (.fn [switch] box)) [.var 1 switch])
    (.all [switch] (.app (.const "less" [] (.fn [switch, switch] .bool)) [.var 1 switch, .var 2 switch])) 0 1]

/-- The match that it is quoted to. -/
def swapped : Value :=
  .match_ (.var 0 box) [.mk [switch] (.app (.const "Box.mk" [] (.fn [switch] box)) [.var 1 switch])
    (.all [switch] (.app (.const "less" [] (.fn [switch, switch] .bool)) [.var 2 switch, .var 1 switch])) 0 1]

end DemoQuoted

open DemoQuoted Spec.DemoQuote in
/-- A match whose case has a quantifier is lowered, and its kernel term is quoted with the variables of the case and
of the quantifier exchanged: what is read back as `forall(y: Switch) { less(y, k) }` was
`forall(y: Switch) { less(k, y) }`.  In the model of the example the term is false for a variable that is `on`, and
the quoted value is true. -/
theorem C47_disagreement_match_variables_exchanged :
    matchValue.lower DemoQuote.L [] false 20 [.fvar 0] = some matchTerm ∧
    SHasType DemoQuote.K [some boxT] matchTerm .boolTy ∧
    quoteTerm DemoQuote.K DemoQuote.N (fun _ => none) false 20 [some boxT] none matchTerm = some swapped ∧
    ∃ ρ : Nat → DemoQuote.M.D, Models DemoQuote.M [some boxT] ρ ∧ (∀ β, eval DemoQuote.M ρ β matchTerm ≠ vtt _) ∧
      ∀ θ, (kernelFrame DemoQuote.lawful DemoQuote.L).Holds (constMeaning DemoQuote.M DemoQuote.L) θ [ρ 0] swapped := by
  refine ⟨rfl, ?_, rfl, ?_⟩
  · have hs : ∀ {Δ : BCtx}, STyped DemoQuote.K [some boxT] Δ switchT (.ty .type0) := .sym rfl rfl ⟨rfl, fun _ => rfl⟩
    refine STyped.appVal (A := .pi switchT .boolTy) (B := .boolTy) (STyped.appVal (A := boxT)
      (B := .pi (.pi switchT .boolTy) .boolTy) (STyped.appTy (A := .type0)
        (B := .pi boxT (.pi (.pi switchT (.bvar 2)) (.bvar 2))) (.sym rfl rfl ⟨rfl, fun _ => rfl⟩)
        (.sym rfl rfl ⟨rfl, fun _ => rfl⟩) rfl) (.fvar rfl rfl) rfl rfl) ?_ rfl rfl
    refine STyped.lam (B := .boolTy) (.tyOf hs) (.all (.tyOf hs) ?_) rfl rfl
    exact STyped.appVal (A := switchT) (B := .boolTy) (STyped.appVal (A := switchT) (B := .pi switchT .boolTy) less_typed
      (.bvar rfl) rfl rfl) (.bvar rfl) rfl rfl
  · have less : ∀ x y : SetModel.S, x ∈ SetModel.bool → y ∈ SetModel.bool →
        (SetModel.app (SetModel.app (vals (.global 0 4)) x) y = SetModel.tt ↔ (x = SetModel.tt → y = SetModel.tt)) := by
      intro x y hx hy
      simp only [vals]
      rw [SetModel.app_lam hx, SetModel.app_lam hy, SetModel.ofProp_tt]
    have htt : SetModel.tt ∈ SetModel.bool := SetModel.mem_bool.2 (.inl rfl)
    have hff : SetModel.ff ∈ SetModel.bool := SetModel.mem_bool.2 (.inr rfl)
    refine ⟨fun _ => SetModel.tt, fun i T hi β => ?_, fun β => ?_, fun θ => ?_⟩
    · match i, hi with
      | 0, hi => cases hi; exact htt
      | n + 1, hi => cases hi
    · let f : SetModel.S → SetModel.S := fun x => SetModel.ofProp (∀ y ∈ SetModel.bool,
        SetModel.app (SetModel.app (vals (.global 0 4)) x) y = SetModel.tt)
      show SetModel.app (SetModel.app (SetModel.app (vals (.global 0 3)) SetModel.bool) SetModel.tt)
        (SetModel.lam SetModel.bool f) ≠ SetModel.tt
      simp only [vals]
      rw [SetModel.app_lam SetModel.U_bool, SetModel.app_lam htt,
        SetModel.app_lam (SetModel.lam_mem_pi fun x _ => SetModel.ofProp_bool _), SetModel.app_lam htt]
      intro e
      have := (less _ _ htt hff).1 (SetModel.ofProp_tt.1 e _ hff) rfl
      exact SetModel.tt_ne_ff this.symm
    · rw [Frame.Holds, swapped, Frame.den, Frame.denCases]
      have fits : ∀ xs : List SetModel.S, (kernelFrame DemoQuote.lawful DemoQuote.L).Fits xs [SetModel.bool] ↔
          ∃ x, xs = [x] ∧ x ∈ SetModel.bool := by
        intro xs
        match xs with
        | [] => exact ⟨fun h => h.elim, fun ⟨x, e, _⟩ => by cases e⟩
        | [x] => exact ⟨fun h => ⟨x, rfl, h.1⟩, fun ⟨y, e, h⟩ => by cases e; exact ⟨h, trivial⟩⟩
        | _ :: _ :: _ => exact ⟨fun h => h.2.elim, fun ⟨x, e, _⟩ => by cases e⟩
      have mk : ∀ x, x ∈ SetModel.bool → SetModel.app (vals (.global 0 2)) x = x := fun x hx => by
        simp only [vals]
        rw [SetModel.app_lam hx]
      unfold Frame.pick
      split
      · rename_i hx
        obtain ⟨h1, h2⟩ := Classical.choose_spec hx
        revert h1 h2
        generalize Classical.choose hx = xs
        intro h1 h2
        obtain ⟨x, rfl, hx⟩ := (fits xs).1 h1
        have h2 : SetModel.app (vals (.global 0 2)) x = SetModel.tt := h2
        rw [mk x hx] at h2
        refine (Elab.ofProp_tt (F := kernelFrame DemoQuote.lawful DemoQuote.L)).2 fun ys hys => ?_
        obtain ⟨y, rfl, hy⟩ := (fits ys).1 hys
        exact (less y x hy hx).2 fun _ => h2
      · rename_i hx
        refine absurd ⟨[SetModel.tt], (fits _).2 ⟨_, rfl, htt⟩, ?_⟩ hx
        exact mk _ htt

end Acorn
