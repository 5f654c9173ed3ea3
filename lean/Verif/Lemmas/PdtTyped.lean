/-
What the search finds, and the types of the replacements: lemmas for C28.
-/
import Verif.Lemmas.Pdt
import Verif.Lemmas.MatchTyped
namespace Acorn
namespace Pdt

open Spec Term

variable {α σ : Type}

theorem fvars_app (f a : Term) : (Term.app f a).fvars = f.fvars ++ a.fvars := by
  simp [Term.fvars, Term.atoms]

theorem fvars_bind (b : Binder) (f a : Term) : (Term.bind b f a).fvars = f.fvars ++ a.fvars := by
  simp [Term.fvars, Term.atoms]

theorem fvars_atom {a : Atom} (h : ∀ i, a ≠ .fvar i) : (Term.atom a).fvars = [] := by
  cases a with
  | fvar i => exact absurd rfl (h i)
  | _ => rfl

theorem instantiate_atom (rs : List Term) {a : Atom} (h : ∀ i, a ≠ .fvar i) :
    instantiate rs (.atom a) = .atom a := by
  cases a with
  | fvar i => exact absurd rfl (h i)
  | _ => rfl

/-- A walk exhibits the query as an instance. -/
theorem Walk.spec {ps ts rs rs' : List Term} {Γ Γ' : LCtx} (h : Walk ps ts Γ rs Γ' rs') :
    rs <+: rs' ∧ ps.map (instantiate rs') = ts ∧
      numbered rs.length (ps.flatMap Term.fvars) = some rs'.length ∧ Below Γ Γ' := by
  induction h with
  | nil Γ rs => exact ⟨List.prefix_rfl, rfl, rfl, .refl _⟩
  | @back i t ps ts rs rs' Γ Γ' hi _ ih =>
    obtain ⟨h1, h2, h3, h4⟩ := ih
    have hlt := (List.getElem?_eq_some_iff.1 hi).1
    refine ⟨h1, ?_, ?_, h4⟩
    · have : rs'[i]? = some t := by
        obtain ⟨z, rfl⟩ := h1
        rw [List.getElem?_append_left hlt]; exact hi
      simp [instantiate, this, h2]
    · simp [Term.fvars, Term.atoms, numbered, hlt] at h3 ⊢
      exact h3
  | @fresh t ps ts rs rs' Γ Γ' _ ih =>
    obtain ⟨h1, h2, h3, h4⟩ := ih
    refine ⟨(List.prefix_append _ _).trans h1, ?_, ?_, h4⟩
    · have : rs'[rs.length]? = some t := by
        obtain ⟨z, rfl⟩ := h1
        simp
      simp [instantiate, this, h2]
    · simp only [List.length_append, List.length_cons, List.length_nil] at h3
      simp [Term.fvars, Term.atoms, numbered] at h3 ⊢
      exact h3
  | same hn _ ih =>
    obtain ⟨h1, h2, h3, h4⟩ := ih
    refine ⟨h1, by simp [instantiate_atom _ hn, h2], ?_, h4⟩
    rw [List.flatMap_cons, fvars_atom hn]; exact h3
  | app _ ih =>
    obtain ⟨h1, h2, h3, h4⟩ := ih
    simp only [List.map_cons, List.cons.injEq] at h2
    refine ⟨h1, by simp [instantiate, h2], ?_, h4⟩
    simpa [fvars_app] using h3
  | @bind b A B A' B' ps ts rs rs' Γ Γ' _ ih =>
    obtain ⟨h1, h2, h3, h4⟩ := ih
    simp only [List.map_cons, List.cons.injEq] at h2
    refine ⟨h1, by simp [instantiate, h2], ?_, ?_⟩
    · simpa [fvars_bind] using h3
    · have hp := (Below.refl Γ).push A'
      exact ⟨Nat.le_trans hp.le h4.le, fun i hi => by rw [h4.get i (Nat.lt_of_lt_of_le hi hp.le), hp.get i hi]⟩

/-- An instance of patterns with variables in order is found by a walk. -/
theorem Walk.of_instance : ∀ (n : Nat) (ps rs rs' : List Term) (Γ : LCtx), (ps.map Term.size).sum ≤ n →
    rs <+: rs' → numbered rs.length (ps.flatMap Term.fvars) = some rs'.length →
    ∃ Γ', Walk ps (ps.map (instantiate rs')) Γ rs Γ' rs' := by
  intro n
  induction n with
  | zero =>
    intro ps rs rs' Γ hn hp hnum
    cases ps with
    | nil =>
      simp only [List.flatMap_nil, numbered, Option.some.injEq] at hnum
      rw [hp.eq_of_length hnum]; exact ⟨Γ, .nil _ _⟩
    | cons p ps => cases p <;> simp [Term.size] at hn
  | succ n ih =>
    intro ps rs rs' Γ hn hp hnum
    cases ps with
    | nil =>
      simp only [List.flatMap_nil, numbered, Option.some.injEq] at hnum
      rw [hp.eq_of_length hnum]; exact ⟨Γ, .nil _ _⟩
    | cons p ps =>
      simp only [List.map_cons, List.sum_cons, List.flatMap_cons] at hn hnum ⊢
      cases p with
      | atom a =>
        simp only [Term.size] at hn
        by_cases ha : ∃ i, a = .fvar i
        · obtain ⟨i, rfl⟩ := ha
          simp only [Term.fvars, Term.atoms, List.filterMap_cons, List.filterMap_nil, List.cons_append,
            List.nil_append, numbered] at hnum
          split at hnum
          · rename_i hi
            obtain ⟨Γ', hw⟩ := ih ps rs rs' Γ (by omega) hp hnum
            have h1 : rs[i]? = some rs[i] := List.getElem?_eq_getElem hi
            have h2 : rs'[i]? = some rs[i] := by
              obtain ⟨z, rfl⟩ := hp
              rw [List.getElem?_append_left hi]; exact h1
            refine ⟨Γ', ?_⟩
            have e : instantiate rs' (.fvar i) = rs[i] := by simp [instantiate, h2]
            rw [e]; exact .back h1 hw
          · split at hnum
            · rename_i hi
              subst hi
              have hle : ∀ (vs : List Nat) (k m : Nat), numbered k vs = some m → k ≤ m := by
                intro vs
                induction vs with
                | nil => intro k m h; simp only [numbered, Option.some.injEq] at h; omega
                | cons v vs ih =>
                  intro k m h
                  simp only [numbered] at h
                  split at h
                  · exact ih _ _ h
                  · split at h
                    · have := ih _ _ h; omega
                    · cases h
              have hlt := hle _ _ _ hnum
              have h2 : rs'[rs.length]? = some rs'[rs.length] := List.getElem?_eq_getElem hlt
              have hp' : rs ++ [rs'[rs.length]] <+: rs' := by
                obtain ⟨z, rfl⟩ := hp
                cases z with
                | nil => exact absurd hlt (by simp)
                | cons x z => exact ⟨z, by simp⟩
              obtain ⟨Γ', hw⟩ := ih ps (rs ++ [rs'[rs.length]]) rs' Γ (by omega) hp' (by simpa using hnum)
              refine ⟨Γ', ?_⟩
              have e : instantiate rs' (.fvar rs.length) = rs'[rs.length] := by simp [instantiate, h2]
              rw [e]; exact .fresh hw
            · cases hnum
        · have ha' : ∀ i, a ≠ .fvar i := fun i h => ha ⟨i, h⟩
          rw [fvars_atom ha'] at hnum
          obtain ⟨Γ', hw⟩ := ih ps rs rs' Γ (by omega) hp hnum
          rw [instantiate_atom _ ha']
          exact ⟨Γ', .same ha' hw⟩
      | app f a =>
        simp only [Term.size] at hn
        obtain ⟨Γ', hw⟩ := ih (f :: a :: ps) rs rs' Γ (by simp; omega) hp (by simpa [fvars_app] using hnum)
        exact ⟨Γ', .app hw⟩
      | bind b f a =>
        simp only [Term.size] at hn
        obtain ⟨Γ', hw⟩ := ih (f :: a :: ps) rs rs' (Γ.pushTy (instantiate rs' f)) (by simp; omega) hp
          (by simpa [fvars_bind] using hnum)
        exact ⟨Γ', .bind hw⟩

/-! ### Types -/

/-- A well-typed subterm below some binders. -/
def Part (K : KCtx) (Γ : LCtx) (t : Term) : Prop :=
  ∃ (B : BCtx) (J : Jdg) (d : Nat), (∀ i, B (i + d) = none) ∧ STyped K Γ B t J ∧ FScoped Γ t

theorem fscoped_app {Γ : LCtx} {f a : Term} (h : FScoped Γ (.app f a)) : FScoped Γ f ∧ FScoped Γ a :=
  ⟨fun i hi => h i (hv_app.2 (.inl hi)), fun i hi => h i (hv_app.2 (.inr hi))⟩

theorem fscoped_bind {Γ : LCtx} {b : Binder} {f a : Term} (h : FScoped Γ (.bind b f a)) :
    FScoped Γ f ∧ FScoped Γ a :=
  ⟨fun i hi => h i (hv_bind.2 (.inl hi)), fun i hi => h i (hv_bind.2 (.inr hi))⟩

theorem Part.app {K : KCtx} {Γ : LCtx} {f a : Term} (h : Part K Γ (.app f a)) : Part K Γ f ∧ Part K Γ a := by
  obtain ⟨B, J, d, hB, h, hs⟩ := h
  rcases h.app_inv with ⟨A, C, _, h1, h2, _⟩ | ⟨A, C, h1, h2, _⟩
  all_goals exact ⟨⟨B, _, d, hB, h1, (fscoped_app hs).1⟩, ⟨B, _, d, hB, h2, (fscoped_app hs).2⟩⟩

theorem Part.bind {K : KCtx} {Γ : LCtx} {b : Binder} {f a : Term} (h : Part K Γ (.bind b f a)) :
    Part K Γ f ∧ Part K Γ a := by
  obtain ⟨B, J, d, hB, h, hs⟩ := h
  obtain ⟨J1, h1⟩ := h.body
  exact ⟨⟨B, _, d, hB, h.bind_dom, (fscoped_bind hs).1⟩, ⟨_, J1, d + 1, cons_none hB f, h1, (fscoped_bind hs).2⟩⟩

/-- The replacements are parts of the query. -/
theorem Walk.part {K : KCtx} {Δ : LCtx} {ps ts rs rs' : List Term} {Γ Γ' : LCtx} (h : Walk ps ts Γ rs Γ' rs')
    (ht : ∀ t ∈ ts, Part K Δ t) (hr : ∀ r ∈ rs, Part K Δ r) : ∀ r ∈ rs', Part K Δ r := by
  induction h with
  | nil => exact hr
  | back _ _ ih => exact ih (fun t h => ht t (List.mem_cons_of_mem _ h)) hr
  | fresh _ ih =>
    refine ih (fun t h => ht t (List.mem_cons_of_mem _ h)) fun r h => ?_
    rcases List.mem_append.1 h with h | h
    · exact hr r h
    · rw [List.mem_singleton.1 h]; exact ht _ (by simp)
  | same _ _ ih => exact ih (fun t h => ht t (List.mem_cons_of_mem _ h)) hr
  | app _ ih =>
    have hp := (ht _ (List.mem_cons_self ..)).app
    refine ih (fun t h => ?_) hr
    simp only [List.mem_cons] at h
    rcases h with rfl | rfl | h
    · exact hp.1
    · exact hp.2
    · exact ht t (List.mem_cons_of_mem _ h)
  | bind _ ih =>
    have hp := (ht _ (List.mem_cons_self ..)).bind
    refine ih (fun t h => ?_) hr
    simp only [List.mem_cons] at h
    rcases h with rfl | rfl | h
    · exact hp.1
    · exact hp.2
    · exact ht t (List.mem_cons_of_mem _ h)

/-- No variables and no sorts among the atoms. -/
def NoVars (T : Term) : Prop :=
  ∀ a ∈ T.atoms, (∀ i, a ≠ .fvar i) ∧ a ≠ .sym .type0 ∧ ∀ m l, a ≠ .sym (.typeclass m l)

theorem instanceAtoms_false {a b : Atom} (h : a ≠ .sym .type0) : Unifier.matchInst.instanceAtoms a b = false := by
  cases a with
  | fvar i => rfl
  | bvar i => rfl
  | sym s =>
    cases s with
    | type0 => exact absurd rfl h
    | _ => rfl

/-- Directional matching against a type without variables and sorts is equality. -/
theorem matchInst_sound {K : KCtx} : ∀ (n : Nat) {T S : Term} {st st' : UState} {ps s : Nat} {b : Bool}, NoVars T →
    Unifier.matchInst K n st ps T s S = some (b, st') → b = decide (T = S) ∧ st' = st := by
  intro n
  induction n with
  | zero => intro T S st st' ps s b _ h; simp [Unifier.matchInst] at h
  | succ n ih =>
    intro T S st st' ps s b hT h
    cases T with
    | atom a =>
      have ha := hT a (by simp [Term.atoms])
      cases a with
      | fvar i => exact absurd rfl (ha.1 i)
      | _ =>
        cases S with
        | atom c =>
          simp only [Unifier.matchInst, instanceAtoms_false ha.2.1, Bool.or_false, Option.some.injEq,
            Prod.mk.injEq] at h
          obtain ⟨rfl, rfl⟩ := h
          simp
        | _ => simp [Unifier.matchInst] at h ⊢; simp [h]
    | app f a =>
      have hf : NoVars f := fun x hx => hT x (by simp [Term.atoms, hx])
      have ha : NoVars a := fun x hx => hT x (by simp [Term.atoms, hx])
      cases S with
      | app f' a' =>
        simp only [Unifier.matchInst] at h
        cases e : Unifier.matchInst K n st ps f s f' with
        | none => rw [e] at h; simp [Unifier.andThen] at h
        | some x =>
          obtain ⟨b1, st1⟩ := x
          obtain ⟨h1, rfl⟩ := ih hf e
          rw [e] at h
          cases b1 with
          | false =>
            simp only [Unifier.andThen, Option.some.injEq, Prod.mk.injEq] at h
            obtain ⟨rfl, rfl⟩ := h
            have : f ≠ f' := by simpa using h1.symm
            simp [this]
          | true =>
            simp only [Unifier.andThen] at h
            obtain ⟨h2, rfl⟩ := ih ha h
            have : f = f' := by simpa using h1.symm
            exact ⟨by rw [h2]; simp [this], rfl⟩
      | _ => simp [Unifier.matchInst] at h ⊢; simp [h]
    | bind c f a =>
      have hf : NoVars f := fun x hx => hT x (by simp [Term.atoms, hx])
      have ha : NoVars a := fun x hx => hT x (by simp [Term.atoms, hx])
      cases S with
      | bind c' f' a' =>
        simp only [Unifier.matchInst] at h
        split at h
        · rename_i hc
          subst hc
          cases e : Unifier.matchInst K n st ps f s f' with
          | none => rw [e] at h; simp [Unifier.andThen] at h
          | some x =>
            obtain ⟨b1, st1⟩ := x
            obtain ⟨h1, rfl⟩ := ih hf e
            rw [e] at h
            cases b1 with
            | false =>
              simp only [Unifier.andThen, Option.some.injEq, Prod.mk.injEq] at h
              obtain ⟨rfl, rfl⟩ := h
              have : f ≠ f' := by simpa using h1.symm
              simp [this]
            | true =>
              simp only [Unifier.andThen] at h
              obtain ⟨h2, rfl⟩ := ih ha h
              have : f = f' := by simpa using h1.symm
              exact ⟨by rw [h2]; simp [this], rfl⟩
        · rename_i hc
          simp only [Option.some.injEq, Prod.mk.injEq] at h
          obtain ⟨rfl, rfl⟩ := h
          simp [hc]
      | _ => simp [Unifier.matchInst] at h ⊢; simp [h]

/-- It ends when the fuel is the size of the type. -/
theorem matchInst_total {K : KCtx} : ∀ (n : Nat) {T S : Term} {st : UState} {ps s : Nat}, NoVars T →
    T.size ≤ n → Unifier.matchInst K n st ps T s S ≠ none := by
  intro n
  induction n with
  | zero => intro T S st ps s _ h; cases T <;> simp [Term.size] at h
  | succ n ih =>
    intro T S st ps s hT hn
    cases T with
    | atom a =>
      have ha := hT a (by simp [Term.atoms])
      cases a with
      | fvar i => exact absurd rfl (ha.1 i)
      | _ => cases S <;> simp [Unifier.matchInst]
    | app f a =>
      have hf : NoVars f := fun x hx => hT x (by simp [Term.atoms, hx])
      have ha : NoVars a := fun x hx => hT x (by simp [Term.atoms, hx])
      simp only [Term.size] at hn
      cases S with
      | app f' a' =>
        simp only [Unifier.matchInst]
        cases e : Unifier.matchInst K n st ps f s f' with
        | none => exact absurd e (ih hf (by omega))
        | some x =>
          obtain ⟨b1, st1⟩ := x
          cases b1 with
          | false => simp [Unifier.andThen]
          | true => simp only [Unifier.andThen]; exact ih ha (by omega)
      | _ => simp [Unifier.matchInst]
    | bind c f a =>
      have hf : NoVars f := fun x hx => hT x (by simp [Term.atoms, hx])
      have ha : NoVars a := fun x hx => hT x (by simp [Term.atoms, hx])
      simp only [Term.size] at hn
      cases S with
      | bind c' f' a' =>
        simp only [Unifier.matchInst]
        split
        · cases e : Unifier.matchInst K n st ps f s f' with
          | none => exact absurd e (ih hf (by omega))
          | some x =>
            obtain ⟨b1, st1⟩ := x
            cases b1 with
            | false => simp [Unifier.andThen]
            | true => simp only [Unifier.andThen]; exact ih ha (by omega)
        · simp
      | _ => simp [Unifier.matchInst]

theorem plain_noVars {T : Term} (h : PlainType T) : NoVars T := h.2

theorem plain_atoms {T : Term} (h : PlainType T) : T.isType0 = false ∧ T.asTypeclass = none ∧
    T.atomicVariable = none ∧ isKind T = false := by
  have h := h.2
  cases T with
  | atom a =>
    have h := h a (by simp [Term.atoms])
    cases a with
    | fvar i => exact absurd rfl (h.1 i)
    | bvar i => exact ⟨rfl, rfl, rfl, rfl⟩
    | sym s =>
      cases s with
      | type0 => exact absurd rfl h.2.1
      | typeclass m l => exact absurd rfl (h.2.2 m l)
      | _ => exact ⟨rfl, rfl, rfl, rfl⟩
  | app f a => exact ⟨rfl, rfl, rfl, rfl⟩
  | bind b f a => exact ⟨rfl, rfl, rfl, rfl⟩

theorem boundType_eq {K : KCtx} {Γ : LCtx} {t : Term} (h : t.escapes = false) :
    boundType K Γ t = (t.getType K Γ).map some := by
  cases t with
  | atom a =>
    cases a with
    | bvar i => simp [Term.escapes, Term.escapesAt] at h
    | _ => rfl
  | _ => rfl

/-- Compatibility with a plain type is equality of types. -/
theorem compatible_sound {K : KCtx} {fuel : Nat} {t T S : Term} {P Γ : LCtx} {b : Bool} (hT : PlainType T)
    (he : t.escapes = false) (hS : t.getType K Γ = some S) (h : typesCompatible K fuel t T P Γ = some b) :
    b = decide (S = T) := by
  obtain ⟨h1, h2, h3, _⟩ := plain_atoms hT
  simp only [typesCompatible, boundType_eq he, hS, Option.map_some, h1, Bool.false_and, Bool.false_eq_true,
    if_false, otherType, h2, h3] at h
  split at h
  · rename_i e; simp only [Option.some.injEq] at h; rw [← h]; simp [e]
  · rename_i e
    simp only [typeMatches, Option.map_eq_some_iff] at h
    obtain ⟨⟨b', st⟩, h, rfl⟩ := h
    obtain ⟨h, _⟩ := matchInst_sound fuel (plain_noVars hT) h
    have : T ≠ S := fun h => e h.symm
    simp [h, e, this]

theorem compatible_total {K : KCtx} {fuel : Nat} {t T S : Term} {P Γ : LCtx} (hT : PlainType T)
    (he : t.escapes = false) (hS : t.getType K Γ = some S) (hn : T.size ≤ fuel) :
    typesCompatible K fuel t T P Γ ≠ none := by
  obtain ⟨h1, h2, h3, _⟩ := plain_atoms hT
  simp only [typesCompatible, boundType_eq he, hS, Option.map_some, h1, Bool.false_and, Bool.false_eq_true,
    if_false, otherType, h2, h3, ne_eq]
  split
  · simp
  · simp only [typeMatches, Option.map_eq_none_iff]
    exact matchInst_total fuel (plain_noVars hT) hn

theorem verifyFrom_true {K : KCtx} {fuel : Nat} {P Γ : LCtx} : ∀ {rs : List Term} {i : Nat},
    verifyFrom K fuel P Γ i rs = some true ↔ ∀ j r, rs[j]? = some r → r.escapes = false ∧
      ∀ T, P.get (i + j) = some T → typesCompatible K fuel r T P Γ = some true := by
  intro rs
  induction rs with
  | nil => intro i; simp [verifyFrom]
  | cons t ts ih =>
    intro i
    have split0 : (∀ j r, (t :: ts)[j]? = some r → r.escapes = false ∧
        ∀ T, P.get (i + j) = some T → typesCompatible K fuel r T P Γ = some true) ↔
        (t.escapes = false ∧ ∀ T, P.get i = some T → typesCompatible K fuel t T P Γ = some true) ∧
        ∀ j r, ts[j]? = some r → r.escapes = false ∧
          ∀ T, P.get (i + 1 + j) = some T → typesCompatible K fuel r T P Γ = some true := by
      constructor
      · intro h
        refine ⟨h 0 t rfl, fun j r hj => ?_⟩
        have := h (j + 1) r (by simpa using hj)
        rwa [show i + (j + 1) = i + 1 + j by omega] at this
      · rintro ⟨h0, h1⟩ j r hj
        cases j with
        | zero => simp only [List.getElem?_cons_zero, Option.some.injEq] at hj; subst hj; exact h0
        | succ j =>
          have := h1 j r (by simpa using hj)
          rwa [show i + (j + 1) = i + 1 + j by omega]
    rw [split0, ← ih, verifyFrom]
    cases he : t.escapes with
    | true => simp
    | false =>
      simp only [Bool.false_eq_true, if_false, true_and]
      cases hP : P.get i with
      | none => simp
      | some T =>
        simp only [Option.some.injEq, forall_eq']
        cases hc : typesCompatible K fuel t T P Γ with
        | none => simp
        | some b => cases b <;> simp

theorem verifyFrom_none {K : KCtx} {fuel : Nat} {P Γ : LCtx} : ∀ {rs : List Term} {i : Nat},
    verifyFrom K fuel P Γ i rs = none → ∃ r ∈ rs, ∃ j T, r.escapes = false ∧ P.get j = some T ∧
      typesCompatible K fuel r T P Γ = none := by
  intro rs
  induction rs with
  | nil => intro i h; simp [verifyFrom] at h
  | cons t ts ih =>
    intro i h
    rw [verifyFrom] at h
    cases he : t.escapes with
    | true => rw [he] at h; simp at h
    | false =>
      simp only [he, Bool.false_eq_true, if_false] at h
      have tail : verifyFrom K fuel P Γ (i + 1) ts = none → ∃ r ∈ t :: ts, ∃ j T, r.escapes = false ∧
          P.get j = some T ∧ typesCompatible K fuel r T P Γ = none := fun h => by
        obtain ⟨r, hr, x⟩ := ih h
        exact ⟨r, List.mem_cons_of_mem _ hr, x⟩
      cases hP : P.get i with
      | none => rw [hP] at h; exact tail h
      | some T =>
        simp only [hP] at h
        cases hc : typesCompatible K fuel t T P Γ with
        | none => exact ⟨t, by simp, i, T, he, hP, hc⟩
        | some b =>
          rw [hc] at h
          cases b with
          | false => simp at h
          | true => exact tail h

/-- The computed type of a closed part. -/
theorem Part.getType {K : KCtx} {Γ Γ' : LCtx} (hΓ : CtxOk Γ) (hb : Below Γ Γ') {t : Term} (h : Part K Γ t)
    (he : t.escapes = false) : ∃ J S, STyped K Γ BCtx.nil t J ∧ t.getType K Γ' = some S ∧
      (isKind S = false → J = .ty S) := by
  obtain ⟨B, J, d, hB, h, hs⟩ := h
  have h := h.closed_nil hB he
  obtain ⟨S, h1, h2⟩ := getType_below hΓ hb hs h
  exact ⟨J, S, h, h1, h2⟩

/-- Verified replacements have the types of the pattern variables. -/
theorem verify_typed {K : KCtx} {fuel : Nat} {P Γ Γ' : LCtx} {rs : List Term} (hΓ : CtxOk Γ) (hb : Below Γ Γ')
    (hp : ∀ r ∈ rs, Part K Γ r) (h : verify K fuel P Γ' rs = some true) {i : Nat} {r T : Term}
    (hr : rs[i]? = some r) (hi : P.get i = some T) (hT : PlainType T) : SHasType K Γ r T := by
  obtain ⟨he, hc⟩ := (verifyFrom_true.1 h) i r hr
  obtain ⟨J, S, h1, h2, h3⟩ := (hp r (List.mem_of_getElem? hr)).getType hΓ hb he
  have := compatible_sound hT he h2 (hc T (by simpa using hi))
  have e : S = T := by simpa using this.symm
  subst e
  have hj := h3 (plain_atoms hT).2.2.2
  rw [hj] at h1; exact h1

theorem verify_total {K : KCtx} {fuel : Nat} {P Γ Γ' : LCtx} {rs : List Term} (hΓ : CtxOk Γ) (hb : Below Γ Γ')
    (hp : ∀ r ∈ rs, Part K Γ r) (hT : ∀ i T, P.get i = some T → PlainType T ∧ T.size ≤ fuel) :
    verify K fuel P Γ' rs ≠ none := by
  intro h
  obtain ⟨r, hr, j, T, he, hj, h⟩ := verifyFrom_none h
  obtain ⟨J, S, _, h2, _⟩ := (hp r hr).getType hΓ hb he
  exact compatible_total (hT j T hj).1 he h2 (hT j T hj).2 h

/-- The computed type of a value. -/
theorem getType_of_value {K : KCtx} {Δ Δ' : LCtx} (hΔ : CtxOk Δ) (hb : Below Δ Δ') {s T : Term}
    (h : SHasType K Δ s T) (hk : isKind T = false) : ∃ S, s.getType K Δ' = some S ∧ S = T := by
  have hs := (HasType.fscoped hΔ h.typed).1
  obtain ⟨Δ1, h1, h2, h3⟩ := exists_pad hΔ (Δ'.length - Δ.length)
  have e : getType K Δ' s = getType K Δ1 s := getType_congr s.size (Nat.le_refl _)
    (by have := hb.le; omega) fun i hi => by rw [hb.get i (fscoped_lt hs hi), h3.get i (fscoped_lt hs hi)]
  have h' : SHasType K Δ1 s T := h.weaken fun i T hi => by rw [h3.get i (get_lt hi), hi]
  rw [e]
  rcases getType_of_typed s.size (Nat.le_refl _) h1 h'.typed with e1 | ⟨k, _⟩
  · exact ⟨T, e1, rfl⟩
  · rw [hk] at k; cases k

/-- Suitable replacements are verified. -/
theorem verify_suits {K : KCtx} {fuel : Nat} {P Γ Γ' : LCtx} {rs : List Term} (hΓ : CtxOk Γ) (hb : Below Γ Γ')
    (hf : 0 < fuel) (h : ∀ i r, rs[i]? = some r → r.escapes = false ∧ ∀ T, P.get i = some T → Suits K Γ P r T) :
    verify K fuel P Γ' rs = some true := by
  refine verifyFrom_true.2 fun i r hr => ⟨(h i r hr).1, fun T hT => ?_⟩
  have he := (h i r hr).1
  rw [Nat.zero_add] at hT
  have below : ∀ U, SHasType K Γ r U → ∃ S, r.getType K Γ' = some S ∧ (isKind S = false → U = S) := by
    intro U hU
    obtain ⟨S, h1, h2⟩ := getType_below hΓ hb (HasType.fscoped hΓ hU.typed).1 hU
    refine ⟨S, h1, fun k => ?_⟩
    have := h2 k
    simpa using this
  rcases (h i r hr).2 T hT with ⟨h1, k⟩ | ⟨rfl, h1, k⟩ | ⟨j, S, rfl, hj, h1, k⟩
  · obtain ⟨S, h2, h3⟩ := getType_of_value hΓ hb h1 k
    subst h3
    have : S.isType0 = false := by
      cases e : S.isType0 with
      | false => rfl
      | true => rw [Term.isType0, beq_iff_eq] at e; rw [e] at k; cases k
    simp [typesCompatible, boundType_eq he, h2, this]
  · obtain ⟨S, h2, h3⟩ := below _ h1
    have hk : isKind S = true := by
      cases e : isKind S with
      | true => rfl
      | false => have := h3 e; rw [← this] at e; cases e
    simp only [typesCompatible, boundType_eq he, h2, Option.map_some, k, Bool.not_true, Bool.and_false,
      Bool.false_eq_true, if_false]
    split
    · rfl
    · obtain ⟨n, rfl⟩ := Nat.exists_eq_succ_of_ne_zero (by omega : fuel ≠ 0)
      rename_i hne
      cases S with
      | atom a =>
        cases a with
        | sym s =>
          cases s with
          | type0 => exact absurd rfl hne
          | typeclass m l => simp [otherType, Term.asTypeclass, Term.atomicVariable, typeMatches, Unifier.matchInst, Unifier.matchInst.instanceAtoms]
          | _ => cases hk
        | _ => cases hk
      | _ => cases hk
  · obtain ⟨S', h2, h3⟩ := getType_of_value hΓ hb h1 k
    subst h3
    have hS : S'.isType0 = false := by
      cases e : S'.isType0 with
      | false => rfl
      | true => rw [Term.isType0, beq_iff_eq] at e; rw [e] at k; cases k
    simp only [typesCompatible, boundType_eq he, h2, Option.map_some]
    rw [show (Term.fvar j).isType0 = false from rfl]
    simp only [Bool.false_and, Bool.false_eq_true, if_false]
    split
    · rfl
    · simp [otherType, Term.asTypeclass, Term.atomicVariable, hj, hS]
      intro h; cases h

end Pdt
end Acorn
