/-
The parser always comes to an end: its fuel is never used up.
-/
import Verif.Lemmas.ExpressionYield
namespace Acorn.Parse

open Scan Spec

/-- The fuel was enough. -/
def Fine {α : Type} (x : Res α) : Prop := x ≠ .error .fuel

theorem fine_ok {α : Type} (a : α) : Fine (.ok a : Res α) := fun h => by cases h
theorem fine_syntax {α : Type} : Fine (.error .syntax : Res α) := fun h => by cases h
theorem fine_unmodelled {α : Type} : Fine (.error .unmodelled : Res α) := fun h => by cases h

theorem Fine.bind {α β : Type} {x : Res α} {f : α → Res β} (hx : Fine x) (hf : ∀ a, x = .ok a → Fine (f a)) : Fine (x >>= f) := by
  cases x with
  | error e => intro h; apply hx; cases e <;> first | rfl | cases h
  | ok a => exact hf a rfl

theorem fine_ite {α : Type} {c : Prop} [Decidable c] {a b : Res α} (ha : c → Fine a) (hb : ¬ c → Fine b) : Fine (if c then a else b) := by
  by_cases hc : c
  · rw [if_pos hc]; exact ha hc
  · rw [if_neg hc]; exact hb hc

/-- A parser whose fuel is enough for fewer than `N` tokens. -/
def Ends (p : Parser) (N : Nat) : Prop := ∀ m term ts, ts.length < N → Fine (p m term ts)

theorem expect_fine (k : Tk) (ts : List Lex) : Fine (expect k ts) := by
  cases ts with
  | nil => exact fine_syntax
  | cons t ts => rw [expect]; exact fine_ite (fun _ => fine_ok _) fun _ => fine_syntax

theorem expect_length {k : Tk} {ts rest : List Lex} {t : Lex} (h : expect k ts = .ok (t, rest)) : ts.length = rest.length + 1 := by
  cases ts with
  | nil => cases h
  | cons u us =>
    rw [expect] at h
    rcases ite_ok h with ⟨-, h⟩ | ⟨-, h⟩
    · cases h; rfl
    · cases h

theorem variableName_fine (ts : List Lex) : Fine (variableName ts) := by
  cases ts with
  | nil => exact fine_syntax
  | cons t ts =>
    rw [variableName]
    refine fine_ite (fun _ => fine_ok _) fun _ => fine_ite (fun _ => ?_) fun _ => fine_syntax
    split
    · exact fine_syntax
    · exact fine_ite (fun _ => fine_ok _) fun _ => fine_syntax

theorem variableName_length {ts rest : List Lex} {t : Lex} (h : variableName ts = .ok (t, rest)) : ts.length = rest.length + 1 := by
  cases ts with
  | nil => cases h
  | cons u us =>
    rw [variableName] at h
    rcases ite_ok h with ⟨-, h⟩ | ⟨-, h⟩
    · cases h; rfl
    · rcases ite_ok h with ⟨-, h⟩ | ⟨-, h⟩
      · split at h
        · cases h
        · rcases ite_ok h with ⟨-, h⟩ | ⟨-, h⟩
          · cases h; rfl
          · cases h
      · cases h

theorem skip_length (ts : List Lex) : (skipNewlines ts).length ≤ ts.length := (Took.skip ts).length

theorem Reads.shorter {p : Parser} (hp : Reads p) {m : Mode} {term : Term} {ts rest : List Lex} {e : Expr} {t : Lex}
    (h : p m term ts = .ok (e, t, rest)) : rest.length < ts.length := by
  have := (hp _ _ _ _ _ _ h).1.length
  simp at this
  omega

section

variable {p : Parser} {N : Nat} (hr : Reads p) (hp : Ends p N)
include hr hp

theorem valueBlock_fine {ts : List Lex} (h : ts.length < N) : Fine (valueBlock p ts) := by
  unfold valueBlock
  have := skip_length ts
  refine fine_ite (fun _ => fine_unmodelled) fun _ => (hp _ _ _ (by omega)).bind fun a _ => fine_ok _

theorem declLoop_fine : ∀ (n : Nat) {ts : List Lex}, ts.length ≤ N → ts.length < n → Fine (declLoop p n ts)
  | 0, _, _, h => absurd h (by omega)
  | n + 1, ts, hN, hn => by
    rw [declLoop]
    refine (variableName_fine ts).bind fun a ha => ?_
    obtain ⟨name, ts1⟩ := a
    have l1 := variableName_length ha
    dsimp only
    refine fine_ite (fun _ => ?_) fun _ => ?_
    · cases ts1 with
      | nil => exact fine_syntax
      | cons t ts2 =>
        simp only [List.length_cons] at l1
        have := skip_length ts2
        refine fine_ite (fun _ => fine_syntax) fun _ => fine_ite (fun _ => fine_syntax) fun _ => fine_ite (fun _ => fine_ok _) fun _ => ?_
        exact (declLoop_fine n (by omega) (by omega)).bind fun _ _ => fine_ok _
    · refine (expect_fine _ _).bind fun a ha => ?_
      obtain ⟨_, ts2⟩ := a
      have l2 := expect_length ha
      refine (hp _ _ _ (by (try dsimp only); omega)).bind fun a ha => ?_
      obtain ⟨_, _, ts3⟩ := a
      have l3 := hr.shorter ha
      try dsimp only at l3
      have := skip_length ts3
      refine fine_ite (fun _ => fine_ok _) fun _ => ?_
      exact (declLoop_fine n (by (try dsimp only); omega) (by (try dsimp only); omega)).bind fun _ _ => fine_ok _

theorem parseDecls_fine {ts : List Lex} (h : ts.length ≤ N) : Fine (parseDecls p ts) := by
  unfold parseDecls
  have := skip_length ts
  split
  · exact fine_syntax
  · next t ts' e =>
    rw [e] at this
    simp only [List.length_cons] at this
    exact fine_ite (fun _ => fine_ok _) fun _ => declLoop_fine hr hp _ (by simp; omega) (by simp)

theorem paramInner_fine {ts : List Lex} (h : ts.length ≤ N) : Fine (paramInner p ts) := by
  unfold paramInner
  refine fine_ite (fun hk => ?_) fun _ => fine_ok _
  cases ts with
  | nil => cases hk
  | cons t ts =>
    have := hp .type (· = .rightBracket) ts (by simp at h; omega)
    simp only [List.drop_one, List.tail_cons]
    split
    · next e => rw [e] at this; intro z; apply this; cases z; rfl
    · exact fine_ok _

theorem paramClass_fine {close : Tk} {ts : List Lex} (h : ts.length ≤ N) : Fine (paramClass p close ts) := by
  cases ts with
  | nil => exact fine_syntax
  | cons t ts =>
    rw [paramClass]
    have := hp .type (fun k => k = .comma || k = close) ts (by simp at h; omega)
    refine fine_ite (fun hk => ?_) fun _ => fine_ok _
    split
    · next e => rw [e] at this; intro z; apply this; cases z; rfl
    · exact fine_ok _

theorem paramLoop_fine {close : Tk} : ∀ (n : Nat) {ts : List Lex}, ts.length ≤ N → ts.length < n → Fine (paramLoop p close n ts)
  | 0, _, _, h => absurd h (by omega)
  | n + 1, ts, hN, hn => by
    rw [paramLoop]
    refine (expect_fine _ ts).bind fun a ha => ?_
    obtain ⟨name, ts1⟩ := a
    have l1 := expect_length ha
    refine (paramInner_fine hr hp (by (try dsimp only); omega)).bind fun a ha => ?_
    obtain ⟨inner, ts2⟩ := a
    have l2 := (paramInner_took hr ha).length
    try dsimp only at l2
    refine (paramClass_fine hr hp (by (try dsimp only); omega)).bind fun a ha => ?_
    obtain ⟨cls, t, ts3⟩ := a
    have l3 := (paramClass_took hr ha).length
    simp only [List.length_cons] at l3
    refine fine_ite (fun _ => fine_ok _) fun _ => fine_ite (fun _ => ?_) fun _ => fine_syntax
    exact (paramLoop_fine n (by (try dsimp only); omega) (by (try dsimp only); omega)).bind fun _ _ => fine_ok _

theorem parseParams_fine {ts : List Lex} (h : ts.length ≤ N) : Fine (parseParams p ts) := by
  unfold parseParams
  refine fine_ite (fun _ => ?_) fun _ => fine_ite (fun _ => ?_) fun _ => fine_ok _
  · exact (paramLoop_fine hr hp _ (by simp; omega) (by simp; omega)).bind fun _ _ => fine_ok _
  · exact (paramLoop_fine hr hp _ (by simp; omega) (by simp; omega)).bind fun _ _ => fine_ok _

theorem block_fine {ts : List Lex} {α : Type} {f : Expr → List Lex → α} (h : ts.length ≤ N) :
    Fine (do
      let (_, ts) ← expect .leftBrace ts
      let (body, ts) ← valueBlock p ts
      .ok (f body ts) : Res α) := by
  refine (expect_fine _ _).bind fun a ha => ?_
  obtain ⟨_, ts1⟩ := a
  have := expect_length ha
  exact (valueBlock_fine hr hp (by (try dsimp only); omega)).bind fun _ _ => fine_ok _

theorem argsBody_fine {ts : List Lex} {α : Type} {f : Decls → Expr → List Lex → α} (h : ts.length ≤ N) :
    Fine (do
      let (_, ts) ← expect .leftParen ts
      let (args, ts) ← parseDecls p ts
      let (_, ts) ← expect .leftBrace ts
      let (body, ts) ← valueBlock p ts
      .ok (f args body ts) : Res α) := by
  refine (expect_fine _ _).bind fun a ha => ?_
  obtain ⟨_, ts1⟩ := a
  have := expect_length ha
  refine (parseDecls_fine hr hp (by (try dsimp only); omega)).bind fun a ha => ?_
  obtain ⟨args, ts2⟩ := a
  have l2 := (parseDecls_took hr ha).length
  try dsimp only at l2
  exact block_fine hr hp (f := fun body ts => f args body ts) (by omega)

theorem parseBinder_fine {kw : Tk} {ts : List Lex} (h : ts.length ≤ N) : Fine (parseBinder p kw ts) := by
  unfold parseBinder
  have h1 : Fine (binderParams p kw ts) := by
    unfold binderParams
    exact fine_ite (fun _ => parseParams_fine hr hp h) fun _ => fine_ok _
  refine h1.bind fun a ha => ?_
  obtain ⟨o, ts1⟩ := a
  have l1 := (binderParams_took hr ha).length
  cases o with
  | none => exact argsBody_fine hr hp (f := fun args body ts => (Expr.binder kw .plain .nil args body, ts)) (by omega)
  | some o =>
    obtain ⟨angle, ps⟩ := o
    refine fine_ite (fun _ => ?_) fun _ => ?_
    · exact block_fine hr hp (f := fun body ts => (Expr.binder kw (.generic angle true) ps .nil body, ts)) (by omega)
    · exact argsBody_fine hr hp (f := fun args body ts => (Expr.binder kw (.generic angle false) ps args body, ts)) (by omega)

theorem parseIf_fine {ts : List Lex} (h : ts.length < N) : Fine (parseIf p ts) := by
  unfold parseIf
  refine (hp _ _ _ h).bind fun a ha => ?_
  obtain ⟨cond, _, ts1⟩ := a
  have l1 := hr.shorter ha
  refine (valueBlock_fine hr hp (by (try dsimp only); omega)).bind fun a ha => ?_
  obtain ⟨yes, ts2⟩ := a
  have l2 := (valueBlock_took hr ha).length
  try dsimp only at l2
  refine fine_ite (fun _ => ?_) fun _ => fine_ok _
  exact block_fine hr hp (f := fun no ts => (Expr.ite cond yes (.some no), ts)) (by simp; omega)

theorem caseLoop_fine : ∀ (n : Nat) {ts : List Lex}, ts.length < N → ts.length < n → Fine (caseLoop p n ts)
  | 0, _, _, h => absurd h (by omega)
  | n + 1, ts, hN, hn => by
    rw [caseLoop]
    have := skip_length ts
    split
    · exact fine_syntax
    · next t ts' e =>
      rw [e] at this
      refine fine_ite (fun _ => fine_ok _) fun _ => ?_
      refine (hp _ _ _ (by omega)).bind fun a ha => ?_
      obtain ⟨pat, _, ts1⟩ := a
      have l1 := hr.shorter ha
      refine (valueBlock_fine hr hp (by (try dsimp only); omega)).bind fun a ha => ?_
      obtain ⟨body, ts2⟩ := a
      have l2 := (valueBlock_took hr ha).length
      try dsimp only at l2
      exact (caseLoop_fine n (by (try dsimp only); omega) (by (try dsimp only); omega)).bind fun _ _ => fine_ok _

theorem parseMatch_fine {ts : List Lex} (h : ts.length < N) : Fine (parseMatch p ts) := by
  unfold parseMatch
  refine (hp _ _ _ h).bind fun a ha => ?_
  obtain ⟨s, _, ts1⟩ := a
  have l1 := hr.shorter ha
  refine (caseLoop_fine hr hp _ (by (try dsimp only); omega) (by (try dsimp only); omega)).bind fun a _ => ?_
  obtain ⟨cs, ts2⟩ := a
  cases cs with
  | nil => exact fine_syntax
  | cons _ _ _ => exact fine_ok _

omit hr in
theorem parseParen_fine {m : Mode} {prev : Option Partial} {ts : List Lex} (h : ts.length < N) : Fine (parseParen p m prev ts) := by
  unfold parseParen
  dsimp only
  split
  · exact fine_ok _
  · exact (hp _ _ _ h).bind fun _ _ => fine_ok _

theorem item_fine {m : Mode} {prev : Option Partial} {t : Lex} {ts : List Lex} (h : ts.length < N) : Fine (item p m prev t ts) := by
  unfold item
  refine fine_ite (fun _ => (hp _ _ _ h).bind fun _ _ => fine_ok _) fun _ => ?_
  refine fine_ite (fun _ => (hp _ _ _ h).bind fun _ _ => fine_ok _) fun _ => ?_
  refine fine_ite (fun _ => fine_ite (fun _ => fine_syntax) fun _ => fine_ite (fun _ => fine_ok _) fun _ => fine_ok _) fun _ => ?_
  refine fine_ite (fun _ => fine_ok _) fun _ => ?_
  refine fine_ite (fun _ => fine_ok _) fun _ => ?_
  refine fine_ite (fun _ => parseParen_fine hp h) fun _ => ?_
  refine fine_ite (fun _ => fine_ok _) fun _ => ?_
  refine fine_ite (fun _ => fine_ite (fun _ => fine_syntax) fun _ => fine_ok _) fun _ => ?_
  refine fine_ite (fun _ => fine_ite (fun _ => fine_syntax) fun _ =>
    (parseBinder_fine hr hp (by omega)).bind fun _ _ => fine_ok _) fun _ => ?_
  refine fine_ite (fun _ => fine_ite (fun _ => fine_syntax) fun _ => (parseIf_fine hr hp h).bind fun _ _ => fine_ok _) fun _ => ?_
  refine fine_ite (fun _ => fine_ite (fun _ => fine_ok _) fun _ => fine_ite (fun _ => fine_syntax) fun _ =>
    (parseMatch_fine hr hp h).bind fun _ _ => fine_ok _) fun _ => ?_
  exact fine_ite (fun _ => fine_ok _) fun _ => fine_syntax

theorem partials_fine {m : Mode} {term : Term} : ∀ (n : Nat) {ts : List Lex} {acc : List Partial}, ts.length ≤ N → ts.length < n →
    Fine (partials p m term n ts acc)
  | 0, _, _, _, h => absurd h (by omega)
  | n + 1, [], _, _, _ => fine_syntax
  | n + 1, t :: ts, acc, hN, hn => by
    rw [partials]
    simp only [List.length_cons] at hN hn
    refine fine_ite (fun _ => fine_ok _) fun _ => (item_fine hr hp (by omega)).bind fun a ha => ?_
    obtain ⟨new, ts1⟩ := a
    obtain ⟨_, _, -, k, -⟩ := item_took hr ha
    have := k.length
    dsimp only
    exact partials_fine n (by omega) (by omega)

end

theorem findLast_fine (ps : List Partial) : Fine (findLast ps) := by
  unfold findLast
  split
  · exact fine_ite (fun _ => fine_syntax) fun _ => fine_ok _
  · exact fine_ok _

theorem splitAt_fine (ps : List Partial) (i : Nat) : Fine (splitAt ps i) := by
  unfold splitAt
  refine fine_ite (fun _ => ?_) fun _ => fine_ite (fun _ => ?_) fun _ => ?_
  all_goals split <;> first | exact fine_ok _ | exact fine_syntax

theorem applyAll_fine : ∀ (ps : List Partial) (e : Expr), Fine (applyAll e ps)
  | [], _ => fine_ok _
  | x :: ps, e => by
    unfold applyAll
    split
    · exact fine_ok _
    · next h => cases h; exact applyAll_fine _ _
    · exact fine_syntax

theorem combine_fine : ∀ (n : Nat) {m : Mode} {ps : List Partial}, ps.length < n → Fine (combine n m ps)
  | 0, _, _, h => absurd h (by omega)
  | n + 1, m, ps, hn => by
    rw [combine]
    refine fine_ite (fun _ => fine_syntax) fun _ => fine_ite (fun _ => ?_) fun _ => ?_
    · unfold single
      split
      · exact fine_ok _
      · exact fine_syntax
    · have hs : Fine (splitLast ps) := by
        unfold splitLast
        have := findLast_fine ps
        split
        · next e => rw [e] at this; intro z; apply this; cases z; rfl
        · exact fine_ok _
        · exact splitAt_fine _ _
      refine hs.bind fun s h1 => ?_
      unfold splitLast at h1
      split at h1
      · cases h1
      · cases h1
        dsimp only
        unfold application
        split
        · exact applyAll_fine _ _
        · exact fine_syntax
      · have k := splitAt_toks h1
        match s, k with
        | .unary op rest, k =>
          have := congrArg List.length k
          simp only [List.length_cons] at this
          exact (combine_fine n (by omega)).bind fun _ _ => fine_ok _
        | .postfix op rest, k =>
          have := congrArg List.length k
          simp only [List.length_append, List.length_cons, List.length_nil] at this
          exact (combine_fine n (by omega)).bind fun _ _ => fine_ok _
        | .binary l op r, k =>
          have := congrArg List.length k
          simp only [List.length_append, List.length_cons] at this
          exact fine_ite (fun _ => fine_syntax) fun _ =>
            (combine_fine n (by omega)).bind fun _ _ => (combine_fine n (by omega)).bind fun _ _ => fine_ok _
        | .implicit l r, k =>
          have := congrArg List.length k
          simp only [List.length_append, List.length_cons] at this
          exact (combine_fine n (by omega)).bind fun _ _ => (combine_fine n (by omega)).bind fun _ _ => fine_ok _

/-- The number of operators among partial expressions. -/
def opCount : List Partial → Nat
  | [] => 0
  | .binary _ :: ps => opCount ps + 1
  | _ :: ps => opCount ps

theorem opCount_append (a b : List Partial) : opCount (a ++ b) = opCount a + opCount b := by
  induction a with
  | nil => simp [opCount]
  | cons x a ih => cases x <;> simp [opCount, ih]; omega

theorem opCount_le : ∀ ps : List Partial, opCount ps ≤ ps.length
  | [] => Nat.le_refl _
  | x :: ps => by
    have := opCount_le ps
    cases x <;> simp [opCount] <;> omega

theorem groupParams_fine : ∀ (n : Nat) {ps : List Partial}, opCount ps < n → Fine (groupParams n ps)
  | 0, _, h => absurd h (by omega)
  | n + 1, ps, h => by
    rw [groupParams]
    split
    · exact fine_ok _
    · next left mid right e =>
      have k := findParams_split _ e
      refine (combine_fine _ (by omega)).bind fun params _ => groupParams_fine n ?_
      have h2 : opCount (if startsWithGroup right then [Partial.implicit] else []) = 0 := by split <;> rfl
      rw [k] at h
      simp only [opCount_append, opCount] at h ⊢
      rw [h2]
      omega

theorem finish_fine (m : Mode) (ps : List Partial) : Fine (finish m ps) := by
  unfold finish
  have := opCount_le ps
  refine (groupParams_fine _ (by omega)).bind fun ps' _ => ?_
  exact fine_ite (fun _ => fine_syntax) fun _ => fine_ite (fun _ => fine_syntax) fun _ => combine_fine _ (by omega)

theorem parseGo_fine : ∀ k : Nat, Ends (parseGo k) k
  | 0 => fun _ _ _ h => absurd h (by omega)
  | k + 1 => by
    intro m term ts h
    rw [parseGo]
    refine (partials_fine (parseGo_reads k) (parseGo_fine k) _ (by omega) (by omega)).bind fun a _ => ?_
    exact (finish_fine _ _).bind fun _ _ => fine_ok _

end Acorn.Parse
