/-
Quoting does not fail.
-/
import Verif.Lemmas.QuoteClause
namespace Acorn
namespace Spec

open Elab Term

universe u

/-- Every datatype in the term has a type. -/
def Grounds (K : KCtx) (N : Names) (T : Term) : Prop :=
  ∀ m l, Atom.sym (.type m l) ∈ T.atoms →
    ∃ t, N.ground (m, l) = some t ∧ (K.paramKinds (m, l) ≠ [] → ∃ d, t = .data d [])

theorem Printable.grounds {K : KCtx} {N : Names} : ∀ {t : Term} {n : Nat}, Printable K N n t → Grounds K N t
  | .sym s, n, h => by
    intro m l hm
    simp only [atoms, List.mem_singleton, Atom.sym.injEq] at hm
    subst hm
    exact h
  | .fvar _, _, _ => by intro m l hm; simp [atoms] at hm
  | .bvar _, _, _ => by intro m l hm; simp [atoms] at hm
  | .app f a, n, h => by
    intro m l hm
    simp only [atoms, List.mem_append] at hm
    rcases hm with hm | hm
    · exact Printable.grounds h.1 m l hm
    · exact Printable.grounds h.2 m l hm
  | .bind q A b, n, h => by
    intro m l hm
    simp only [atoms, List.mem_append] at hm
    rcases hm with hm | hm
    · exact Printable.grounds h.1 m l hm
    · exact Printable.grounds h.2 m l hm

theorem Printable.mono {K : KCtx} {N : Names} {a : Term} {n : Nat} (h : Printable K N n a) {m : Nat} (hm : m ≤ n) :
    Printable K N m a := by
  induction a generalizing n m with
  | atom a =>
    cases a with
    | sym s => cases s <;> first | exact h | exact Nat.le_trans hm h
    | _ => trivial
  | app f a ihf iha => exact ⟨ihf h.1 (by omega), h.2⟩
  | bind q A b _ _ => exact h

/-- Opening a binder with a variable. -/
theorem Printable.open {K : KCtx} {N : Names} {x : Nat} {t : Term} : ∀ {n : Nat} (d : Nat),
    Printable K N n t → Printable K N n (Term.inst d (.fvar x) t) := by
  induction t with
  | atom b =>
    intro n d h
    cases b with
    | bvar i =>
      simp only [Term.inst]
      repeat' split
      all_goals trivial
    | fvar _ => trivial
    | sym s => exact h
  | app f a ihf iha => intro n d h; exact ⟨ihf d h.1, iha d h.2⟩
  | bind q A b ihA ihb => intro n d h; exact ⟨ihA d h.1, ihb _ h.2⟩

theorem atoms_apply (as : List Term) (f : Term) : ∀ x, x ∈ (f.apply as).atoms ↔ x ∈ f.atoms ∨ ∃ a ∈ as, x ∈ a.atoms := by
  induction as generalizing f with
  | nil => intro x; simp [Term.apply]
  | cons a as ih =>
    intro x
    have := ih (.app f a) x
    simp only [Term.apply, List.foldl_cons] at this ⊢
    rw [this]
    simp only [atoms, List.mem_append, List.mem_cons, exists_eq_or_imp]
    exact or_assoc

theorem args_apply (h : Atom) (as : List Term) : ((Term.atom h).apply as).args = as := by
  have : ∀ (as : List Term) (f : Term), (f.apply as).args = f.args ++ as := by
    intro as
    induction as with
    | nil => intro f; simp [Term.apply]
    | cons b as ih =>
      intro f
      show ((Term.app f b).apply as).args = _
      rw [ih]
      simp [Term.args]
  exact (this as _).trans (by simp [Term.args])

theorem app_of_apply {h : Atom} {as : List Term} (hne : as ≠ []) : ∃ f a, (Term.atom h).apply as = .app f a := by
  rcases List.eq_nil_or_concat as with rfl | ⟨bs, b, rfl⟩
  · exact absurd rfl hne
  · exact ⟨(Term.atom h).apply bs, b, by simp [Term.apply]⟩

section
variable {K : KCtx} {N : Names} {tn : Nat → Option String}

/-- Types can be quoted with enough fuel. -/
theorem quoteType_total {Γ : LCtx} {T : Term} (h : SmallType K Γ T) : Grounds K N T →
    ∃ k0, ∀ k, k0 ≤ k → ∀ n, (∃ a, quoteType K N tn k n T = some a) ∧ ∃ p, quotePi K N tn k n T = some p := by
  induction h with
  | bool =>
    intro _
    refine ⟨2, fun k hk n => ?_⟩
    obtain ⟨k, rfl⟩ : ∃ k', k = k' + 2 := ⟨k - 2, by omega⟩
    exact ⟨⟨_, rfl⟩, ⟨_, rfl⟩⟩
  | var _ _ =>
    intro _
    refine ⟨2, fun k hk n => ?_⟩
    obtain ⟨k, rfl⟩ : ∃ k', k = k' + 2 := ⟨k - 2, by omega⟩
    exact ⟨⟨_, rfl⟩, ⟨_, rfl⟩⟩
  | @data m l as hl has ih =>
    intro hg
    obtain ⟨t, ht, hd⟩ := hg m l ((atoms_apply as _ _).2 (.inl (by simp [atoms])))
    have hlist : ∃ k0, ∀ k, k0 ≤ k → ∀ n, ∃ ts, quoteTypes K N tn k n as = some ts := by
      have hall : ∀ a ∈ as, ∃ k0, ∀ k, k0 ≤ k → ∀ n, ∃ b, quoteType K N tn k n a = some b := fun a ha => by
        obtain ⟨k0, h0⟩ := ih a ha fun m l hm => hg m l ((atoms_apply as _ _).2 (.inr ⟨a, ha, hm⟩))
        exact ⟨k0, fun k hk n => (h0 k hk n).1⟩
      clear ih hl has hg
      induction as with
      | nil => exact ⟨1, fun k hk n => ⟨[], by obtain ⟨k, rfl⟩ : ∃ k', k = k' + 1 := ⟨k - 1, by omega⟩; rfl⟩⟩
      | cons a as ihl =>
        obtain ⟨k1, h1⟩ := hall a (by simp)
        obtain ⟨k2, h2⟩ := ihl fun b hb => hall b (by simp [hb])
        refine ⟨max k1 k2 + 1, fun k hk n => ?_⟩
        obtain ⟨k, rfl⟩ : ∃ k', k = k' + 1 := ⟨k - 1, by omega⟩
        obtain ⟨b, hb⟩ := h1 k (by omega) n
        obtain ⟨bs, hbs⟩ := h2 k (by omega) n
        exact ⟨b :: bs, by simp [quoteTypes, hb, hbs]⟩
    obtain ⟨k1, h1⟩ := hlist
    have key : ∀ k, k1 + 1 ≤ k → ∀ n, ∃ a, quoteType K N tn k n ((Term.sym (.type m l)).apply as) = some a := by
      intro k hk n
      obtain ⟨k, rfl⟩ : ∃ k', k = k' + 1 := ⟨k - 1, by omega⟩
      by_cases hne : as = []
      · subst hne
        exact ⟨t, ht⟩
      · obtain ⟨f, a, e⟩ := app_of_apply (h := .sym (.type m l)) hne
        obtain ⟨ts, hts⟩ := h1 k (by omega) n
        obtain ⟨d, rfl⟩ := hd (by intro h0; rw [h0] at hl; exact hne (List.length_eq_zero_iff.1 hl))
        have e1 : (Term.app f a).spineHead = .sym (.type m l) := by rw [← e]; exact spineHead_apply _ as
        have e2 : (Term.app f a).args = as := by rw [← e]; exact args_apply _ as
        refine ⟨.data d ts, ?_⟩
        show quoteType K N tn (k + 1) n ((Term.atom (.sym (.type m l))).apply as) = _
        rw [e]
        simp only [quoteType, e1, e2, hl, if_true, ht, hts, Option.bind_eq_bind, Option.bind_some, Option.pure_def]
    refine ⟨k1 + 2, fun k hk n => ⟨key k (by omega) n, ?_⟩⟩
    obtain ⟨k, rfl⟩ : ∃ k', k = k' + 1 := ⟨k - 1, by omega⟩
    obtain ⟨a, ha⟩ := key k (by omega) n
    refine ⟨([], a), ?_⟩
    have hnb : ∀ A B, (Term.sym (.type m l)).apply as ≠ .bind .pi A B := by
      intro A B e
      have := congrArg Term.spineHead e
      rw [spineHead_apply] at this
      cases this
    unfold quotePi
    split
    · rename_i e; exact absurd e (hnb _ _)
    · simp [ha]
  | @pi A B hA hB ihA ihB =>
    intro hg
    obtain ⟨k1, h1⟩ := ihA fun m l hm => hg m l (by simp [atoms, hm])
    obtain ⟨k2, h2⟩ := ihB fun m l hm => hg m l (by simp [atoms, hm])
    have key : ∀ k, max k1 k2 + 1 ≤ k → ∀ n, ∃ p, quotePi K N tn k n (.pi A B) = some p := by
      intro k hk n
      obtain ⟨k, rfl⟩ : ∃ k', k = k' + 1 := ⟨k - 1, by omega⟩
      obtain ⟨a, ha⟩ := (h1 k (by omega) n).1
      obtain ⟨p, hp⟩ := (h2 k (by omega) (n + 1)).2
      simp only [quotePi, noKinds_typeParam hA.noKinds, ha, openBound_eq, hB.inst, Option.bind_eq_bind, Option.pure_def,
        Option.bind_some, Bool.false_eq_true, if_false, hp]
      exact ⟨_, rfl⟩
    refine ⟨max k1 k2 + 2, fun k hk n => ⟨?_, key k (by omega) n⟩⟩
    obtain ⟨k, rfl⟩ : ∃ k', k = k' + 1 := ⟨k - 1, by omega⟩
    obtain ⟨p, hp⟩ := key k (by omega) n
    exact ⟨if p.1.isEmpty then p.2 else .fn p.1 p.2, by simp [quoteType, hp]⟩

/-- What holds of the context and the remapping while quoting. -/
structure Ready (K : KCtx) (N : Names) (Γ : LCtx) (rm : Remap) : Prop where
  simple : ∀ i T, Γ.get i = some T → isKind T = true ∨ (SmallType K Γ T ∧ Grounds K N T)
  length : ∀ m, rm = some m → m.length = Γ.length
  mapped : ∀ i T, Γ.get i = some T → isKind T = false → ∃ j, rm.index i = some j

theorem Ready.vars {Γ : LCtx} {rm : Remap} (h : Ready K N Γ rm) : SimpleVars Γ := by
  intro i T hi
  rcases h.simple i T hi with hk | hk
  · exact .inl hk
  · exact .inr hk.1.noKinds

theorem Ready.push {Γ : LCtx} {rm : Remap} (h : Ready K N Γ rm) {A : Term} (hA : SmallType K Γ A) (gA : Grounds K N A) :
    Ready K N (Γ.pushTy A) (rm.extend Γ.length) := by
  have hl : (Γ.pushTy A).length = Γ.length + 1 := by simp [LCtx.pushTy]
  refine ⟨fun i T hi => ?_, fun m e => ?_, fun i T hi hT => ?_⟩
  · rcases get_pushTy_inv hi with h1 | ⟨rfl, rfl⟩
    · rcases h.simple i T h1 with hk | hk
      · exact .inl hk
      · exact .inr ⟨hk.1.push, hk.2⟩
    · exact .inr ⟨hA.push, gA⟩
  · cases rm with
    | none => cases e
    | some m' =>
      have hm := h.length m' rfl
      rw [extend_eq hm] at e
      cases e
      simp [hm, hl]
  · cases rm with
    | none => exact ⟨i, rfl⟩
    | some m' =>
      have hm := h.length m' rfl
      rw [extend_eq hm]
      rcases get_pushTy_inv hi with h1 | ⟨rfl, rfl⟩
      · obtain ⟨j, hj⟩ := h.mapped i T h1 hT
        have := get_lt h1
        refine ⟨j, ?_⟩
        simp only [Remap.index] at hj ⊢
        rw [List.getElem?_append_left (by omega)]
        exact hj
      · refine ⟨nextIndex m', ?_⟩
        simp only [Remap.index]
        rw [List.getElem?_append_right (by omega), ← hm]
        simp

/-! ### Terms -/

theorem quoteLogical_total {n : Nat} {s : Symbol} {tys : List Ty} {vals : List Value} (hl : isLogical s = true)
    (ht : tys.length = if s = .eq_ ∨ s = .ite_ then 1 else 0) (hv : vals.length ≤ valueArity s) :
    ∃ v, quoteLogical n s tys vals = some v := by
  have two : ∀ {α : Type} (l : List α), l.length = 2 → ∃ a b, l = [a, b] := by
    intro α l hl
    rcases l with _ | ⟨a, _ | ⟨b, _ | ⟨_, _⟩⟩⟩ <;> simp at hl
    exact ⟨a, b, rfl⟩
  have three : ∀ {α : Type} (l : List α), l.length = 3 → ∃ a b c, l = [a, b, c] := by
    intro α l hl
    rcases l with _ | ⟨a, _ | ⟨b, _ | ⟨c, _ | ⟨_, _⟩⟩⟩⟩ <;> simp at hl
    exact ⟨a, b, c, rfl⟩
  cases s <;> try (cases hl; done)
  · have : tys = [] := List.length_eq_zero_iff.1 (by simpa using ht)
    subst this
    rcases vals with _ | ⟨v, _ | ⟨_, _⟩⟩
    · exact ⟨_, rfl⟩
    · exact ⟨_, rfl⟩
    · simp [valueArity] at hv
  · have : tys = [] := List.length_eq_zero_iff.1 (by simpa using ht)
    subst this
    obtain ⟨a, b, e⟩ := two (padArgs n (List.replicate (2 - vals.length) .bool) vals)
      (by simp only [valueArity] at hv; rw [padArgs_length]; simp; omega)
    simp only [quoteLogical, e]
    exact ⟨_, rfl⟩
  · have : tys = [] := List.length_eq_zero_iff.1 (by simpa using ht)
    subst this
    obtain ⟨a, b, e⟩ := two (padArgs n (List.replicate (2 - vals.length) .bool) vals)
      (by simp only [valueArity] at hv; rw [padArgs_length]; simp; omega)
    simp only [quoteLogical, e]
    exact ⟨_, rfl⟩
  · obtain ⟨t, rfl⟩ := List.length_eq_one_iff.1 (show tys.length = 1 by simpa using ht)
    obtain ⟨a, b, e⟩ := two (padArgs n (List.replicate (2 - vals.length) t) vals)
      (by simp only [valueArity] at hv; rw [padArgs_length]; simp; omega)
    simp only [quoteLogical, e]
    exact ⟨_, rfl⟩
  · obtain ⟨t, rfl⟩ := List.length_eq_one_iff.1 (show tys.length = 1 by simpa using ht)
    obtain ⟨a, b, c, e⟩ := three (padArgs n ([.bool, t, t].drop vals.length) vals)
      (by simp only [valueArity] at hv; rw [padArgs_length]; simp; omega)
    simp only [quoteLogical, e]
    exact ⟨_, rfl⟩

/-- A function that ends in a truth value has no more arguments than it asks for. -/
theorem SSpine.length_le {Γ : LCtx} : ∀ {ts : List Term} {T : Term} {args : List Term},
    (∀ t ∈ ts, ∀ a d, Term.inst d a t = t) → (∀ t ∈ ts, endsKind t = false) →
    SSpine K Γ (ts.foldr Term.pi .boolTy) args T → args.length ≤ ts.length
  | ts, T, [], _, _, _ => by simp
  | [], T, a :: args, _, _, hs => by
    generalize hR : ([] : List Term).foldr Term.pi Term.boolTy = R at hs
    cases hs with
    | val => cases hR
    | ty => cases hR
  | t :: ts, T, a :: args, h1, h3, hs => by
    obtain ⟨ha, hs'⟩ := hs.val_inv (h3 t (by simp))
    have hi : ∀ (ts : List Term) (d : Nat), (∀ t ∈ ts, ∀ a d, Term.inst d a t = t) →
        Term.inst d a (ts.foldr Term.pi .boolTy) = ts.foldr Term.pi .boolTy := by
      intro ts
      induction ts with
      | nil => intro d _; rfl
      | cons t ts ih =>
        intro d ht
        simp only [List.foldr_cons, Term.inst, ht t (by simp), ih _ fun t' ht' => ht t' (by simp [ht'])]
    rw [show (ts.foldr Term.pi Term.boolTy) = ts.foldr Term.pi .boolTy from rfl, hi ts 0 fun t ht => h1 t (by simp [ht])] at hs'
    have := SSpine.length_le (fun t ht => h1 t (by simp [ht])) (fun t ht => h3 t (by simp [ht])) hs'
    simpa using this

theorem size_open (x : Nat) (t : Term) : ∀ d, (Term.inst d (.fvar x) t).size = t.size := by
  induction t with
  | atom b =>
    intro d
    cases b with
    | bvar i => simp only [Term.inst]; repeat' split
                all_goals rfl
    | _ => rfl
  | app f a ihf iha => intro d; simp only [Term.inst, size, ihf, iha]
  | bind q A b ihA ihb => intro d; simp only [Term.inst, size, ihA, ihb]

theorem size_spine : ∀ t : Term, t.spineHead.size ≤ t.size ∧ (∀ a ∈ t.args, a.size < t.size) ∧
    (t.args ≠ [] → t.spineHead.size < t.size)
  | .atom _ => ⟨Nat.le_refl _, by simp [Term.args], by simp [Term.args]⟩
  | .bind _ _ _ => ⟨Nat.le_refl _, by simp [Term.args], by simp [Term.args]⟩
  | .app f a => by
    obtain ⟨h1, h2, h3⟩ := size_spine f
    simp only [Term.spineHead, Term.args, size]
    refine ⟨by omega, fun b hb => ?_, fun _ => by omega⟩
    simp only [List.mem_append, List.mem_singleton] at hb
    rcases hb with hb | rfl
    · have := h2 b hb; omega
    · omega

theorem printable_spine : ∀ {t : Term} {n : Nat}, Printable K N n t →
    Printable K N (n + t.args.length) t.spineHead ∧ ∀ a ∈ t.args, Printable K N 0 a
  | .atom _, n, h => ⟨h, by simp [Term.args]⟩
  | .bind _ _ _, n, h => ⟨h, by simp [Term.args]⟩
  | .app f a, n, h => by
    obtain ⟨h1, h2⟩ := printable_spine h.1
    refine ⟨?_, ?_⟩
    · simp only [Term.args, Term.spineHead, List.length_append, List.length_singleton]
      rw [show n + (f.args.length + 1) = n + 1 + f.args.length by omega]
      exact h1
    · intro b hb
      simp only [Term.args, List.mem_append, List.mem_singleton] at hb
      rcases hb with hb | rfl
      · exact h2 b hb
      · exact h.2

/-- Terms of at most this size can be quoted. -/
def Quotes (K : KCtx) (N : Names) (tn : Nat → Option String) (n : Nat) : Prop :=
  ∀ t Γ rm T, t.size ≤ n → Ready K N Γ rm → SHasType K Γ t T → endsKind T = false → Quotable K N 0 t →
    Printable K N 0 t → ∃ k0, ∀ k, k0 ≤ k → ∃ v, quoteTerm K N tn false k Γ rm t = some v

theorem quoteAll_total {n : Nat} (hn : Quotes K N tn n) {Γ : LCtx} {rm : Remap} (hr : Ready K N Γ rm) {R T : Term} {args : List Term}
    (hs : SSpine K Γ R args T) : noKinds R = true →
    (∀ a ∈ args, a.size ≤ n ∧ Quotable K N 0 a ∧ Printable K N 0 a) →
    ∃ k0, ∀ k, k0 ≤ k → ∃ vs, quoteAll K N tn false k Γ rm args = some vs := by
  induction hs with
  | nil => intro _ _; exact ⟨1, fun k hk => by obtain ⟨k, rfl⟩ : ∃ k', k = k' + 1 := ⟨k - 1, by omega⟩; exact ⟨_, rfl⟩⟩
  | @val A B a as T g1 g2 g3 g4 ih =>
    intro nR hq
    simp only [noKinds, Bool.and_eq_true, noKinds_ren] at nR
    obtain ⟨s1, q1, p1⟩ := hq a (by simp)
    obtain ⟨k1, h1⟩ := hn a Γ rm A s1 hr g1 g2 q1 p1
    obtain ⟨k2, h2⟩ := ih nR.2 fun b hb => hq b (by simp [hb])
    refine ⟨max k1 k2 + 1, fun k hk => ?_⟩
    obtain ⟨k, rfl⟩ : ∃ k', k = k' + 1 := ⟨k - 1, by omega⟩
    obtain ⟨v, hv⟩ := h1 k (by omega)
    obtain ⟨vs, hvs⟩ := h2 k (by omega)
    exact ⟨v :: vs, by simp [quoteAll, hv, hvs]⟩
  | @ty A B a as T g1 g2 g3 ih =>
    intro nR _
    simp only [noKinds, Bool.and_eq_true] at nR
    rw [noKinds_endsKind nR.1] at g2
    cases g2

theorem quoteArgs_total (hK : Prenex K) {n : Nat} (hn : Quotes K N tn n) {Γ : LCtx} {rm : Remap} (hr : Ready K N Γ rm) {R T : Term} {args : List Term}
    (hs : SSpine K Γ R args T) : endsKind R = false → prenex R = true → kindArity R ≤ args.length →
    (∀ a ∈ args, a.size ≤ n ∧ Quotable K N 0 a ∧ Printable K N 0 a) →
    ∃ k0, ∀ k, k0 ≤ k → ∃ tys vs, quoteArgs K N tn false k Γ rm R args = some (tys, vs) ∧
      tys.length = kindArity R ∧ vs.length + kindArity R = args.length := by
  induction hs with
  | nil =>
    intro _ _ hl _
    refine ⟨1, fun k hk => ?_⟩
    obtain ⟨k, rfl⟩ : ∃ k', k = k' + 1 := ⟨k - 1, by omega⟩
    simp only [List.length_nil] at hl
    exact ⟨[], [], rfl, by simp; omega, by simp; omega⟩
  | @val A B a as T g1 g2 g3 g4 ih =>
    intro hR pR hl hq
    have kA : isKind A = false := by
      cases hk : isKind A with
      | false => rfl
      | true => rw [endsKind_of_isKind hk] at g2; cases g2
    simp only [prenex, kA, Bool.false_and, Bool.false_or, Bool.and_eq_true, noKinds_ren] at pR
    have hnk : (Term.splitPi (.pi A (Term.ren Nat.succ B))).any (fun p => isKindTerm p.1) = false := by
      simp [Term.splitPi, noKinds_isKindTerm pR.1]
    have k0 := noKinds_kindArity pR.2
    obtain ⟨s1, q1, p1⟩ := hq a (by simp)
    obtain ⟨k1, h1⟩ := hn a Γ rm A s1 hr g1 g2 q1 p1
    obtain ⟨k2, h2⟩ := ih g3 (noKinds_prenex pR.2) (by rw [k0]; exact Nat.zero_le _) fun b hb => hq b (by simp [hb])
    refine ⟨max k1 k2 + 1, fun k hk => ?_⟩
    obtain ⟨k, rfl⟩ : ∃ k', k = k' + 1 := ⟨k - 1, by omega⟩
    obtain ⟨v, hv⟩ := h1 k (by omega)
    obtain ⟨tys, vs, hvs, e1, e2⟩ := h2 k (by omega)
    refine ⟨tys, v :: vs, ?_, by simp [kindArity, kA, e1, k0], by simp [kindArity, kA]; omega⟩
    simp only [quoteArgs, hnk, Bool.false_and, typeApply_pi, inst_up, Option.getD_some, Option.bind_eq_bind,
      Option.pure_def, Bool.false_eq_true, if_false, hv, hvs, Option.bind_some]
  | @ty A B a as T g1 g2 g3 ih =>
    intro hR pR hl hq
    have kA : isKind A = true := by
      cases hk : isKind A with
      | true => rfl
      | false =>
        simp only [prenex, hk, Bool.false_and, Bool.false_or, Bool.and_eq_true] at pR
        rw [noKinds_endsKind pR.1] at g2; cases g2
    obtain ⟨s1, q1, p1⟩ := hq a (by simp)
    have na := q1.noKinds
    have sa : SmallType K Γ a := ((g1.shape hK hr.vars (by intro i T hi; cases hi) na).1 A rfl g2).small kA
    simp only [prenex, kA, Bool.true_and, Bool.or_eq_true, Bool.and_eq_true] at pR
    have pB : prenex B = true := by
      rcases pR with p | p
      · exact p
      · exact noKinds_prenex p.2
    have hk : (Term.splitPi (.pi A B)).any (fun p => isKindTerm p.1) = true := by
      simp [Term.splitPi, isKind_isKindTerm kA]
    obtain ⟨r1, r2⟩ := prenex_inst na B 0 pB
    simp only [kindArity, kA, if_true, List.length_cons] at hl
    obtain ⟨k1, h1⟩ := quoteType_total (tn := tn) sa p1.grounds
    obtain ⟨k2, h2⟩ := ih (by rw [endsKind_inst_noKinds na]; exact hR) r1 (by omega) fun b hb => hq b (by simp [hb])
    refine ⟨max k1 k2 + 1, fun k hk' => ?_⟩
    obtain ⟨k, rfl⟩ : ∃ k', k = k' + 1 := ⟨k - 1, by omega⟩
    obtain ⟨t, ht⟩ := (h1 k (by omega) Γ.length).1
    obtain ⟨tys, vs, hvs, e1, e2⟩ := h2 k (by omega)
    refine ⟨t :: tys, vs, ?_, by simp [kindArity, kA, e1, r2], by simp [kindArity, kA]; omega⟩
    simp only [quoteArgs, hk, sa.isTypeTerm, Bool.and_self, typeApply_pi, Option.getD_some, Option.bind_eq_bind,
      Option.pure_def, if_true, ht, hvs, Option.bind_some]

theorem STyped.pi_kind {Γ : LCtx} {Δ : BCtx} {A B T : Term} (h : STyped K Γ Δ (.pi A B) (.ty T)) : endsKind T = true := by
  generalize ht : Term.pi A B = t at h
  generalize hJ : Jdg.ty T = J at h
  cases h <;> first | (cases ht; done) | (cases hJ; done) | (cases hJ; rfl)

theorem quoteTerm_spine {k : Nat} {Γ : LCtx} {rm : Remap} {t : Term} (hb : ∀ q A b, t ≠ .bind q A b) :
    quoteTerm K N tn false (k + 1) Γ rm t = quoteSpine K N tn false k Γ rm t.spineHead t.args := by
  match t, hb with
  | .atom _, _ => rfl
  | .app _ _, _ => rfl
  | .bind q A b, hb => exact absurd rfl (hb q A b)

theorem quoteSpine_total (hK : Prenex K) {n : Nat} (ih : Quotes K N tn n) {t : Term} {Γ : LCtx} {rm : Remap} {T : Term}
    (hsz : t.size ≤ n + 1) (hr : Ready K N Γ rm) (ht : SHasType K Γ t T) (hT : endsKind T = false)
    (hq : Quotable K N 0 t) (hp : Printable K N 0 t) (hb : ∀ q A b, t ≠ .bind q A b) :
    ∃ k0, ∀ k, k0 ≤ k → ∃ v, quoteTerm K N tn false k Γ rm t = some v := by
  have bnil : ∀ i T, BCtx.nil i = some T → noKinds T = true := by intro i T hi; cases hi
  obtain ⟨R, h1, h2, h3⟩ := STyped.spine ht hT
  obtain ⟨q1, q2⟩ := quotable_spine hq
  obtain ⟨p1, p2⟩ := printable_spine hp
  obtain ⟨z1, z2, z3⟩ := size_spine t
  rw [Nat.zero_add] at q1 p1
  have hargs : ∀ a ∈ t.args, a.size ≤ n ∧ Quotable K N 0 a ∧ Printable K N 0 a :=
    fun a ha => ⟨by have := z2 a ha; omega, q2 a ha, p2 a ha⟩
  have fin : (∃ k0, ∀ k, k0 ≤ k → ∃ v, quoteSpine K N tn false k Γ rm t.spineHead t.args = some v) →
      ∃ k0, ∀ k, k0 ≤ k → ∃ v, quoteTerm K N tn false k Γ rm t = some v := by
    rintro ⟨k0, h0⟩
    refine ⟨k0 + 1, fun k hk => ?_⟩
    obtain ⟨k, rfl⟩ : ∃ k', k = k' + 1 := ⟨k - 1, by omega⟩
    rw [quoteTerm_spine hb]
    exact h0 k (by omega)
  apply fin
  obtain ⟨v1, v2⟩ := h1.value_type hK hr.vars bnil t.args.length R (N := N) q1 rfl h2
  obtain ⟨ka, hka⟩ := quoteArgs_total (tn := tn) hK ih hr h3 h2 v1 v2 hargs
  have hne : ∀ q A b, t.spineHead = .bind q A b → t.args ≠ [] := by
    intro q A b e e'
    have := apply_args t
    rw [e, e'] at this
    exact hb q A b this.symm
  generalize hh : t.spineHead = head at *
  generalize ha : t.args = args at *
  match head, h1, q1, p1 with
  | .bind q A b, h1, q1, p1 =>
    obtain ⟨_, w2⟩ := h1.value_type hK hr.vars bnil 0 R (N := N) q1 rfl h2
    obtain ⟨k1, g1⟩ := quoteAll_total (tn := tn) ih hr h3 (prenex_noKinds v1 (by omega)) hargs
    obtain ⟨k2, g2⟩ := ih _ Γ rm R (by have := z3 (hne q A b rfl); omega) hr h1 h2 q1 p1
    refine ⟨max k1 k2 + 1, fun k hk => ?_⟩
    obtain ⟨k, rfl⟩ : ∃ k', k = k' + 1 := ⟨k - 1, by omega⟩
    obtain ⟨vs, hvs⟩ := g1 k (by omega)
    obtain ⟨f, hf⟩ := g2 k (by omega)
    simp only [quoteSpine, hf, hvs, Option.bind_eq_bind, Option.bind_some, Option.pure_def]
    exact ⟨_, rfl⟩
  | .app f a, h1, q1, p1 =>
    exfalso
    have : ∀ t : Term, ∀ f a, t.spineHead ≠ .app f a := by
      intro t
      induction t with
      | atom _ => intro f a e; cases e
      | app g b ihg _ => exact ihg
      | bind _ _ _ _ _ => intro f a e; cases e
    exact this t f a hh
  | .bvar i, h1, q1, p1 =>
    have hc := shas_closed h1
    simp [escapes, escapesAt] at hc
  | .fvar i, h1, q1, p1 =>
    have hi := STyped.fvar_value h1 h2
    have nk : isKind R = false := by
      cases hk : isKind R with
      | false => rfl
      | true => rw [endsKind_of_isKind hk] at h2; cases h2
    obtain ⟨j, hj⟩ := hr.mapped i R hi nk
    have hs : SmallType K Γ R ∧ Grounds K N R := by
      rcases hr.simple i R hi with hk | hk
      · rw [nk] at hk; cases hk
      · exact hk
    obtain ⟨k1, g1⟩ := quoteType_total (tn := tn) hs.1 hs.2
    refine ⟨max k1 ka + 1, fun k hk => ?_⟩
    obtain ⟨k, rfl⟩ : ∃ k', k = k' + 1 := ⟨k - 1, by omega⟩
    obtain ⟨ty, hty⟩ := (g1 k (by omega) Γ.length).1
    obtain ⟨tys, vs, hvs, _, _⟩ := hka k (by omega)
    simp only [quoteSpine, hi, hj, hty, hvs, Option.bind_eq_bind, Option.bind_some, Option.pure_def,
      noKinds_typeParam hs.1.noKinds, Bool.false_eq_true, if_false]
    exact ⟨_, rfl⟩
  | .sym s, h1, q1, p1 =>
    obtain ⟨hi, hks⟩ := STyped.sym_value h1 h2
    have hkp : R.isTypeParamKind = false := by
      rw [isKind_typeParam]
      cases hk : isKind R with
      | false => rfl
      | true => rw [endsKind_of_isKind hk] at h2; cases h2
    have start : ∀ k, quoteSpine K N tn false (k + 1) Γ rm (.sym s) args =
        (quoteArgs K N tn false k Γ rm R args).bind fun p =>
          match s with
          | .not_ | .and_ | .or_ | .eq_ | .ite_ => quoteLogical (visibleSize Γ.length rm) s p.1 p.2
          | .true_ => some ((Value.bool true).apply p.2)
          | .false_ => some ((Value.bool false).apply p.2)
          | .global _ _ => finishConst K N k (visibleSize Γ.length rm) s p.1 p.2
          | .scoped _ => finishConst K N k (visibleSize Γ.length rm) s p.1 p.2
          | _ => none := by
      intro k
      simp only [quoteSpine, hi, Option.bind_eq_bind, Option.bind_some, Option.pure_def, hkp, Bool.false_eq_true, if_false]
      rfl
    have logical : isLogical s = true → args.length ≤ valueArity s + kindArity R →
        kindArity R = (if s = .eq_ ∨ s = .ite_ then 1 else 0) →
        ∃ k0, ∀ k, k0 ≤ k → ∃ v, quoteSpine K N tn false k Γ rm (.sym s) args = some v := by
      intro hl hlen har
      refine ⟨ka + 1, fun k hk => ?_⟩
      obtain ⟨k, rfl⟩ : ∃ k', k = k' + 1 := ⟨k - 1, by omega⟩
      obtain ⟨tys, vs, hvs, e1, e2⟩ := hka k (by omega)
      obtain ⟨v, hv⟩ := quoteLogical_total (n := visibleSize Γ.length rm) (tys := tys) (vals := vs) hl (by rw [e1, har]) (by omega)
      refine ⟨v, ?_⟩
      rw [start, hvs]
      cases s <;> first | exact hv | cases hl
    have const : isLogical s = false → s ≠ .true_ → s ≠ .false_ → (∃ m l, s = .global m l) ∨ (∃ l, s = .scoped l) →
        (N.poly (N.const s) = none → ∃ U, K.symbolType s = some U ∧
        STyped K [] BCtx.nil U .isTy ∧ noKinds U = true ∧ Grounds K N U) →
        ∃ k0, ∀ k, k0 ≤ k → ∃ v, quoteSpine K N tn false k Γ rm (.sym s) args = some v := by
      intro hl n1 n2 hgs hpoly
      have hc : ∃ k0, ∀ k, k0 ≤ k → ∀ tys, ∃ c, quoteConst K N k s tys = some c := by
        cases hpo : N.poly (N.const s) with
        | some p =>
          refine ⟨0, fun k _ tys => ?_⟩
          obtain ⟨names, g⟩ := p
          simp only [quoteConst, hpo]
          split
          · exact ⟨_, rfl⟩
          · exact ⟨_, rfl⟩
        | none =>
          obtain ⟨U, u1, u2, u3, u4⟩ := hpoly hpo
          have su := (u2.shape hK (by intro i T hi; cases i <;> cases hi) bnil u3).2 rfl
          obtain ⟨k1, g1⟩ := quoteType_total (tn := fun _ => none) su u4
          refine ⟨k1, fun k hk tys => ?_⟩
          obtain ⟨a, ha⟩ := (g1 k hk 0).1
          simp only [quoteConst, hpo, u1, ha, Option.bind_eq_bind, Option.bind_some, Option.pure_def]
          exact ⟨_, rfl⟩
      obtain ⟨k1, g1⟩ := hc
      refine ⟨max k1 ka + 1, fun k hk => ?_⟩
      obtain ⟨k, rfl⟩ : ∃ k', k = k' + 1 := ⟨k - 1, by omega⟩
      obtain ⟨tys, vs, hvs, e1, e2⟩ := hka k (by omega)
      obtain ⟨c, hc⟩ := g1 k (by omega) tys
      refine ⟨c.apply vs, ?_⟩
      have hf : finishConst K N k (visibleSize Γ.length rm) s tys vs = some (c.apply vs) := by
        simp only [finishConst, q1.2.1, hc, Option.bind_eq_bind, Option.bind_some, Option.pure_def]
      rw [start, hvs]
      rcases hgs with ⟨m, l, rfl⟩ | ⟨l, rfl⟩
      · exact hf
      · exact hf
    cases s with
    | true_ =>
      refine ⟨ka + 1, fun k hk => ?_⟩
      obtain ⟨k, rfl⟩ : ∃ k', k = k' + 1 := ⟨k - 1, by omega⟩
      obtain ⟨tys, vs, hvs, e1, e2⟩ := hka k (by omega)
      rw [start, hvs]
      exact ⟨_, rfl⟩
    | false_ =>
      refine ⟨ka + 1, fun k hk => ?_⟩
      obtain ⟨k, rfl⟩ : ∃ k', k = k' + 1 := ⟨k - 1, by omega⟩
      obtain ⟨tys, vs, hvs, e1, e2⟩ := hka k (by omega)
      rw [start, hvs]
      exact ⟨_, rfl⟩
    | not_ =>
      cases hi
      exact logical rfl (SSpine.length_le (ts := [.boolTy]) (by simp [Term.inst]) (by simp [endsKind, isKindSym]) h3) rfl
    | and_ =>
      cases hi
      exact logical rfl (SSpine.length_le (ts := [.boolTy, .boolTy]) (by simp [Term.inst]) (by simp [endsKind, isKindSym]) h3) rfl
    | or_ =>
      cases hi
      exact logical rfl (SSpine.length_le (ts := [.boolTy, .boolTy]) (by simp [Term.inst]) (by simp [endsKind, isKindSym]) h3) rfl
    | eq_ =>
      cases hi
      refine logical rfl ?_ rfl
      rcases args with _ | ⟨A, as⟩
      · simp
      · obtain ⟨hA, hs'⟩ := SSpine.ty_inv h3 rfl
        have sA : SmallType K Γ A := ((hA.shape hK hr.vars bnil (hargs A (by simp)).2.1.noKinds).1 _ rfl rfl).small rfl
        have e : Term.inst 0 A (.pi (.bvar 0) (.pi (.bvar 1) .boolTy)) = [A, A].foldr Term.pi .boolTy := by
          simp [Term.inst, sA.up]
        rw [e] at hs'
        have := SSpine.length_le (by simpa using fun a d => sA.inst a d) (by simpa using noKinds_endsKind sA.noKinds) hs'
        have e1 : kindArity KCtx.eqType = 1 := rfl
        rw [e1]
        simp only [List.length_cons, List.length_nil, valueArity] at this ⊢
        omega
    | ite_ =>
      cases hi
      exact logical rfl p1 rfl
    | bool => cases hi; cases hkp
    | type0 => cases hks
    | typeclass m l => cases hks
    | type m l =>
      cases hi
      exfalso
      have : ∀ ks : List Term, endsKind (ks.foldr Term.pi Term.type0) = true := by
        intro ks
        induction ks with
        | nil => rfl
        | cons k ks ih => exact ih
      rw [KCtx.typeKind, this] at h2
      cases h2
    | global m l => exact const rfl (by simp) (by simp) (.inl ⟨_, _, rfl⟩) p1
    | «scoped» l => exact const rfl (by simp) (by simp) (.inr ⟨_, rfl⟩) p1

theorem quote_total (hK : Prenex K) : ∀ n, Quotes K N tn n := by
  intro n
  induction n with
  | zero =>
    intro t _ _ _ ht
    cases t <;> simp [size] at ht <;> omega
  | succ n ih =>
    intro t Γ rm T hsz hr ht hT hq hp
    have bnil : ∀ i T, BCtx.nil i = some T → noKinds T = true := by intro i T hi; cases hi
    match t, hsz, ht, hq, hp with
    | .bind q A b, hsz, ht, hq, hp =>
      simp only [size] at hsz
      have kb : noKinds A = true := (hq.1 : Quotable K N 0 A).noKinds
      have main : ∀ {U : Term}, STyped K Γ BCtx.nil A .isTy → STyped K Γ (BCtx.cons A BCtx.nil) b (.ty U) →
          endsKind U = false → ∃ k0, ∀ k, k0 ≤ k → ∃ a w, quoteType K N tn k Γ.length A = some a ∧
            quoteTerm K N tn false k (Γ.pushTy A) (rm.extend Γ.length) (Term.inst 0 (.fvar Γ.length) b) = some w := by
        intro U hA hb hU
        have sA := (hA.shape hK hr.vars bnil kb).2 rfl
        obtain ⟨k1, h1⟩ := quoteType_total (tn := tn) sA (Printable.grounds hp.1)
        obtain ⟨k2, h2⟩ := ih _ (Γ.pushTy A) (rm.extend Γ.length) _ (by rw [size_open]; omega)
          (hr.push sA (Printable.grounds hp.1)) (hb.open_fresh (isTy_closed hA))
          (by rw [← inst_zero_eq, endsKind_inst_noKinds rfl]; exact hU)
          (Quotable.inst (a := .fvar Γ.length) trivial 0 hq.2) (Printable.open 0 hp.2)
        refine ⟨max k1 k2, fun k hk => ?_⟩
        obtain ⟨a, ha⟩ := (h1 k (by omega) Γ.length).1
        obtain ⟨w, hw⟩ := h2 k (by omega)
        exact ⟨a, w, ha, hw⟩
      have fin : q ≠ .pi → (∃ k0, ∀ k, k0 ≤ k → ∃ a w, quoteType K N tn k Γ.length A = some a ∧
            quoteTerm K N tn false k (Γ.pushTy A) (rm.extend Γ.length) (Term.inst 0 (.fvar Γ.length) b) = some w) →
          ∃ k0, ∀ k, k0 ≤ k → ∃ v, quoteTerm K N tn false k Γ rm (.bind q A b) = some v := by
        rintro hq ⟨k0, h0⟩
        refine ⟨k0 + 1, fun k hk => ?_⟩
        obtain ⟨k, rfl⟩ : ∃ k', k = k' + 1 := ⟨k - 1, by omega⟩
        obtain ⟨a, w, ha, hw⟩ := h0 k (by omega)
        simp only [quoteTerm, Bool.false_eq_true, if_false, ha, openBound_eq, hw, Option.bind_eq_bind, Option.bind_some]
        cases q <;> first | exact ⟨_, rfl⟩ | exact absurd rfl hq
      cases q with
      | lam =>
        obtain ⟨B, eB, hA, hb, kA, kB⟩ := ht.lam_inv
        exact fin (by simp) (main hA hb (by rw [endsKind_ren]; exact kB))
      | pi => rw [STyped.pi_kind ht] at hT; cases hT
      | all =>
        obtain ⟨_, hA, hb⟩ := ht.quant_inv (.inl rfl)
        exact fin (by simp) (main hA hb rfl)
      | ex =>
        obtain ⟨_, hA, hb⟩ := ht.quant_inv (.inr rfl)
        exact fin (by simp) (main hA hb rfl)
    | .atom a, hsz, ht, hq, hp => exact quoteSpine_total hK ih hsz hr ht hT hq hp (fun _ _ _ => by simp)
    | .app f a, hsz, ht, hq, hp => exact quoteSpine_total hK ih hsz hr ht hT hq hp (fun _ _ _ => by simp)

/-! ### Clauses -/

/-- Each argument becomes a type or a value. -/
theorem quoteArgs_length {reduce : Bool} {Γ : LCtx} {rm : Remap} : ∀ (k : Nat) (R : Term) (args : List Term) (tys : List Ty)
    (vs : List Value), quoteArgs K N tn reduce k Γ rm R args = some (tys, vs) → tys.length + vs.length = args.length
  | 0, _, _, _, _, e => by simp [quoteArgs] at e
  | _ + 1, _, [], _, _, e => by
    simp only [quoteArgs, Option.some.injEq, Prod.mk.injEq] at e
    obtain ⟨rfl, rfl⟩ := e
    rfl
  | k + 1, R, a :: as, tys, vs, e => by
    simp only [quoteArgs, Option.bind_eq_bind, Option.pure_def] at e
    split at e
    · obtain ⟨t, _, e⟩ := Option.bind_eq_some_iff.1 e
      obtain ⟨⟨ts, ws⟩, h, e⟩ := Option.bind_eq_some_iff.1 e
      have := quoteArgs_length k _ _ _ _ h
      cases e
      simp only [List.length_cons]
      omega
    · obtain ⟨t, _, e⟩ := Option.bind_eq_some_iff.1 e
      obtain ⟨⟨ts, ws⟩, h, e⟩ := Option.bind_eq_some_iff.1 e
      have := quoteArgs_length k _ _ _ _ h
      cases e
      simp only [List.length_cons]
      omega

/-- An `if` with more than three values is not quoted. -/
theorem quote_applied_ite {reduce : Bool} {Γ : LCtx} {rm : Remap} (t : Term) (args : List Term) (fuel : Nat)
    (hr : reduceHead t = none) (hs : t.spineHead = .sym .ite_) (ha : t.args = args) (hl : args.length = 5) :
    quoteTerm K N tn reduce fuel Γ rm t = none := by
  match fuel with
  | 0 => rfl
  | k + 1 =>
    simp only [quoteTerm, hr, ite_self]
    match t, hs with
    | .bind q A b, hs => cases hs
    | .atom a, hs => subst ha; simp [Term.args] at hl
    | .app f a, hs =>
      simp only [hs, ha]
      match k with
      | 0 => rfl
      | k + 1 =>
        apply Option.eq_none_iff_forall_ne_some.2
        intro v e
        simp only [quoteSpine, KCtx.symbolType, Option.bind_eq_bind, Option.bind_some] at e
        split at e
        · rename_i hk; cases hk
        obtain ⟨⟨tys, vs⟩, h, e⟩ := Option.bind_eq_some_iff.1 e
        have hlen := quoteArgs_length k _ _ _ _ h
        match tys, e with
        | [], e => cases e
        | _ :: _ :: _, e => cases e
        | [ty], e =>
          have : vs.length = 4 := by simp only [List.length_singleton] at hlen; omega
          simp only [quoteLogical] at e
          split at e
          · rename_i c a b hp
            have := congrArg List.length hp
            simp [padArgs, insertStackAll_length] at this
            omega
          · cases e

theorem clause_ready (hK : Prenex K) {Γ : LCtx} (hΓ : QuotableCtx K Γ)
    (hp : ∀ i T, Γ.get i = some T → Printable K N 0 T) : Ready K N Γ (some (clauseRemap 0 Γ)) := by
  refine ⟨fun i T hi => ?_, fun m e => by cases e; exact clauseRemap_length Γ 0, fun i T hi hT => ?_⟩
  · rcases hΓ i T hi with hk | ⟨h1, h2⟩
    · exact .inl hk
    · exact .inr ⟨(h1.shape hK hΓ.simple (by intro i T hi; cases hi) h2).2 rfl, (hp i T hi).grounds⟩
  · obtain ⟨j, hj⟩ := (clauseRemap_none Γ 0 i T hi).2 (by rw [isKind_typeParam]; exact hT)
    exact ⟨j, by simp [Remap.index, hj]⟩

theorem quoteVarTypes_total {n : Nat} {Γ : LCtx} : ∀ (Γ' : LCtx),
    (∀ i T, Γ'.get i = some T → isKind T = true ∨ (SmallType K Γ T ∧ Grounds K N T)) →
    ∃ k0, ∀ k, k0 ≤ k → ∃ ts, quoteVarTypes K N tn k n Γ' = some ts
  | [], _ => ⟨0, fun k _ => ⟨[], rfl⟩⟩
  | none :: Γ', h => quoteVarTypes_total Γ' fun i T hi => h (i + 1) T hi
  | some T :: Γ', h => by
    obtain ⟨k1, h1⟩ := quoteVarTypes_total (n := n) Γ' fun i T hi => h (i + 1) T hi
    simp only [quoteVarTypes]
    split
    · exact ⟨k1, h1⟩
    · rename_i hk
      rw [isKind_typeParam] at hk
      rcases h 0 T rfl with h0 | ⟨h0, g0⟩
      · exact absurd h0 hk
      · obtain ⟨k2, h2⟩ := quoteType_total (tn := tn) h0 g0
        refine ⟨max k1 k2, fun k hk => ?_⟩
        obtain ⟨a, ha⟩ := (h2 k (by omega) n).1
        obtain ⟨ts, hts⟩ := h1 k (by omega)
        exact ⟨a :: ts, by simp [ha, hts]⟩

theorem quoteLiteral_total (hK : Prenex K) {Γ : LCtx} {rm : Remap} (hr : Ready K N Γ rm) {l : Literal}
    (hl : ∃ T, SHasType K Γ l.left T ∧ SHasType K Γ l.right T ∧ endsKind T = false ∧
      Quotable K N 0 l.left ∧ Quotable K N 0 l.right) (hp : Printable K N 0 l.left ∧ Printable K N 0 l.right) :
    ∃ k0, ∀ k, k0 ≤ k → ∃ v, quoteLiteral K N tn k Γ rm l = some v := by
  obtain ⟨T, h1, h2, h3, q1, q2⟩ := hl
  obtain ⟨k1, g1⟩ := quote_total (tn := tn) hK _ l.left Γ rm T (Nat.le_refl _) hr h1 h3 q1 hp.1
  obtain ⟨k2, g2⟩ := quote_total (tn := tn) hK _ l.right Γ rm T (Nat.le_refl _) hr h2 h3 q2 hp.2
  refine ⟨max k1 k2, fun k hk => ?_⟩
  obtain ⟨a, ha⟩ := g1 k (by omega)
  obtain ⟨b, hb⟩ := g2 k (by omega)
  simp only [quoteLiteral, ha, hb, Option.bind_eq_bind, Option.bind_some, Option.pure_def]
  split
  · split
    · split <;> exact ⟨_, rfl⟩
    · exact ⟨_, rfl⟩
  · exact ⟨_, rfl⟩

theorem quoteLiterals_total (hK : Prenex K) {Γ : LCtx} {rm : Remap} (hr : Ready K N Γ rm) : ∀ (ls : List Literal),
    (∀ l ∈ ls, (∃ T, SHasType K Γ l.left T ∧ SHasType K Γ l.right T ∧ endsKind T = false ∧
      Quotable K N 0 l.left ∧ Quotable K N 0 l.right) ∧ Printable K N 0 l.left ∧ Printable K N 0 l.right) →
    ∃ k0, ∀ k, k0 ≤ k → ∃ vs, quoteLiterals K N tn k Γ rm ls = some vs ∧ vs.length = ls.length
  | [], _ => ⟨0, fun k _ => ⟨[], rfl, rfl⟩⟩
  | l :: ls, h => by
    obtain ⟨k1, h1⟩ := quoteLiteral_total (tn := tn) hK hr (h l (by simp)).1 (h l (by simp)).2
    obtain ⟨k2, h2⟩ := quoteLiterals_total hK hr ls fun l' hl' => h l' (by simp [hl'])
    refine ⟨max k1 k2, fun k hk => ?_⟩
    obtain ⟨v, hv⟩ := h1 k (by omega)
    obtain ⟨vs, hvs, e⟩ := h2 k (by omega)
    exact ⟨v :: vs, by simp [quoteLiterals, hv, hvs], by simp [e]⟩

theorem quoteClause_total (hK : Prenex K) {names : Option (List String)} {c : Clause} (hc : QuotableClause K N c)
    (hp : ∀ i T, c.ctx.get i = some T → Printable K N 0 T)
    (hl : ∀ l ∈ c.lits, Printable K N 0 l.left ∧ Printable K N 0 l.right) :
    ∃ k0, ∀ k, k0 ≤ k → ∃ v, quoteClause K N names k c = some v := by
  have hr := clause_ready hK hc.ctx hp
  obtain ⟨k1, h1⟩ := quoteLiterals_total (tn := clauseNames names c.ctx) hK hr c.lits fun l hm => ⟨hc.lits l hm, hl l hm⟩
  obtain ⟨k2, h2⟩ := quoteVarTypes_total (tn := clauseNames names c.ctx) (n := c.ctx.length) c.ctx hr.simple
  refine ⟨max k1 k2, fun k hk => ?_⟩
  obtain ⟨vs, hvs, e⟩ := h1 k (by omega)
  obtain ⟨ts, hts⟩ := h2 k (by omega)
  simp only [quoteClause]
  split
  · exact ⟨_, rfl⟩
  · rename_i hne
    cases vs with
    | nil =>
      have : c.lits = [] := List.length_eq_zero_iff.1 e.symm
      rw [this] at hne
      exact absurd rfl hne
    | cons v vs =>
      simp only [hvs, hts, Value.reduce, Option.bind_eq_bind, Option.bind_some, Option.pure_def]
      exact ⟨_, rfl⟩

end

end Spec
end Acorn
