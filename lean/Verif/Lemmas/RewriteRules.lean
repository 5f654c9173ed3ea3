/-
Bindings and substitution in the index of rewrite rules.
-/
import Verif.Spec.RewriteTree
import Verif.Lemmas.PdtTyped
import Verif.Lemmas.PdtLiterals
namespace Acorn
namespace Rewrites
open Spec Term

variable {K : KCtx}

theorem fill_congr {σ τ : Nat → Term} (t : Term) (h : ∀ i, t.hasVar i = true → σ i = τ i) :
    fill σ t = fill τ t := by
  induction t with
  | atom a =>
    cases a with
    | fvar i => exact h i (by simp [hv_fvar])
    | _ => rfl
  | app f a ihf iha =>
    simp only [fill]
    rw [ihf fun i hi => h i (hv_app.2 (.inl hi)), iha fun i hi => h i (hv_app.2 (.inr hi))]
  | bind b f a ihf iha =>
    simp only [fill]
    rw [ihf fun i hi => h i (hv_bind.2 (.inl hi)), iha fun i hi => h i (hv_bind.2 (.inr hi))]

theorem fill_vmap (σ : Nat → Term) (g : Nat → Nat) (t : Term) : fill σ (t.vmap g) = fill (fun i => σ (g i)) t := by
  induction t with
  | atom a => cases a <;> rfl
  | app f a ihf iha => simp only [vmap_app, fill, ihf, iha]
  | bind b f a ihf iha => simp only [vmap_bind, fill, ihf, iha]

theorem fill_instantiate (rs : List Term) (t : Term) :
    instantiate rs t = fill (fun i => rs.getD i (.fvar i)) t := by
  induction t with
  | atom a => cases a <;> rfl
  | app f a ihf iha => simp only [instantiate, fill, ihf, iha]
  | bind b f a ihf iha => simp only [instantiate, fill, ihf, iha]

/-- Filling with closed terms is substitution. -/
theorem fill_sub {σ : Nat → Term} (hσ : ∀ i, (σ i).escapes = false) (t : Term) : fill σ t = sub σ bid t := by
  induction t with
  | atom a => cases a <;> rfl
  | app f a ihf iha => simp only [fill, Term.sub, ihf, iha]
  | bind b f a ihf iha =>
    simp only [fill, Term.sub, ihf, iha]
    congr 1
    have h1 : lift σ = σ := by
      funext i
      exact ren_closed _ _ (hσ i)
    rw [h1, ups_bid]

/-- What is known of the values. -/
structure Extends (m m' : Bindings) : Prop where
  keep : ∀ i t, m.get? i = some t → m'.get? i = some t

theorem Extends.refl (m : Bindings) : Extends m m := ⟨fun _ _ h => h⟩
theorem Extends.trans {m m' m'' : Bindings} (h : Extends m m') (h' : Extends m' m'') : Extends m m'' :=
  ⟨fun i t e => h'.keep i t (h.keep i t e)⟩

theorem extractTypes_extends (T : Term) : ∀ {S : Term} {m m' : Bindings}, extractTypes T S m = some m' →
    Extends m m' := by
  induction T with
  | atom a =>
    intro S m m' e
    cases a with
    | fvar i =>
      simp only [extractTypes] at e
      split at e
      · split at e
        · cases e; exact .refl _
        · cases e
      · rename_i hn
        cases e
        refine ⟨fun j t ht => ?_⟩
        rw [AMap.get?_insert]
        split
        · rename_i h; subst h; rw [hn] at ht; cases ht
        · exact ht
    | bvar i =>
      cases S with
      | atom b =>
        simp only [extractTypes] at e
        split at e
        · cases e; exact .refl _
        · cases e
      | _ => simp [extractTypes] at e
    | sym s =>
      cases S with
      | atom b =>
        simp only [extractTypes] at e
        split at e
        · cases e; exact .refl _
        · split at e
          · cases e; exact .refl _
          · cases e
      | _ => simp [extractTypes] at e
  | app f a ihf iha =>
    intro S m m' e
    cases S with
    | app f' a' =>
      simp only [extractTypes] at e
      split at e
      · rename_i m1 e1; exact (ihf e1).trans (iha e)
      · cases e
    | _ => simp [extractTypes] at e
  | bind b f a ihf iha =>
    intro S m m' e
    cases S with
    | bind b' f' a' =>
      simp only [extractTypes] at e
      split at e
      · split at e
        · rename_i m1 e1; exact (ihf e1).trans (iha e)
        · cases e
      · cases e
    | _ => simp [extractTypes] at e

/-- Types without variables bind nothing; they must agree. -/
theorem extractTypes_plain (T : Term) (hT : ∀ a ∈ T.atoms, (∀ i, a ≠ .fvar i) ∧ a ≠ .sym .type0 ∧
    ∀ m l, a ≠ .sym (.typeclass m l)) : ∀ {S : Term} {m : Bindings},
    extractTypes T S m = if T = S then some m else none := by
  induction T with
  | atom a =>
    intro S m
    have ha := hT a (by simp [Term.atoms])
    cases a with
    | fvar i => exact absurd rfl (ha.1 i)
    | bvar i =>
      cases S with
      | atom b =>
        simp only [extractTypes, Term.atom.injEq]
      | _ => simp [extractTypes]
    | sym s =>
      cases S with
      | atom b =>
        simp only [extractTypes, Term.atom.injEq]
        split
        · rfl
        · split
          · rename_i h _; exact absurd h (ha.2.2 _ _)
          · rfl
      | _ => simp [extractTypes]
  | app f a ihf iha =>
    intro S m
    cases S with
    | app f' a' =>
      simp only [extractTypes]
      rw [ihf fun x hx => hT x (by simp [Term.atoms, hx])]
      by_cases h : f = f'
      · simp only [h, if_true]
        rw [iha fun x hx => hT x (by simp [Term.atoms, hx])]
        simp
      · simp [h]
    | _ => simp [extractTypes]
  | bind b f a ihf iha =>
    intro S m
    cases S with
    | bind b' f' a' =>
      simp only [extractTypes]
      rw [ihf fun x hx => hT x (by simp [Term.atoms, hx])]
      by_cases hb : b = b'
      · by_cases h : f = f'
        · simp only [h, hb, if_true]
          rw [iha fun x hx => hT x (by simp [Term.atoms, hx])]
          simp
        · simp [h]
      · simp [hb]
    | _ => simp [extractTypes]

theorem bindReplacements_spec : ∀ {rs : List Term} {i : Nat} {m m' : Bindings},
    bindReplacements i rs m = some m' → (∀ r ∈ rs, r.escapes = false) ∧
      ∀ j, m'.get? j = if i ≤ j ∧ j < i + rs.length then rs[j - i]? else m.get? j := by
  intro rs
  induction rs with
  | nil =>
    intro i m m' e
    simp only [bindReplacements, Option.some.injEq] at e
    subst e
    exact ⟨by simp, fun j => by rw [if_neg (by simp)]⟩
  | cons t ts ih =>
    intro i m m' e
    simp only [bindReplacements] at e
    split at e
    · cases e
    · rename_i he
      obtain ⟨h1, h2⟩ := ih e
      refine ⟨fun r hr => ?_, fun j => ?_⟩
      · rcases List.mem_cons.1 hr with rfl | hr
        · simpa using he
        · exact h1 r hr
      · rw [h2 j, AMap.get?_insert]
        simp only [List.length_cons]
        by_cases hj : j = i
        · subst hj
          rw [if_neg (by omega), if_pos rfl, if_pos (by omega)]; simp
        · by_cases hlt : i + 1 ≤ j ∧ j < i + 1 + ts.length
          · rw [if_pos hlt, if_pos (by omega)]
            obtain ⟨k, rfl⟩ : ∃ k, j = i + 1 + k := ⟨j - (i + 1), by omega⟩
            have a1 : i + 1 + k - (i + 1) = k := by omega
            have a2 : i + 1 + k - i = k + 1 := by omega
            rw [a1, a2]; rfl
          · rw [if_neg hlt, if_neg hj, if_neg (by omega)]

theorem bindReplacements_some : ∀ {rs : List Term} (i : Nat) (m : Bindings), (∀ r ∈ rs, r.escapes = false) →
    ∃ m', bindReplacements i rs m = some m' := by
  intro rs
  induction rs with
  | nil => intro i m _; exact ⟨m, rfl⟩
  | cons t ts ih =>
    intro i m h
    simp only [bindReplacements, h t (by simp), Bool.false_eq_true, if_false]
    exact ih _ _ fun r hr => h r (by simp [hr])

theorem inferTypes_extends {P Γ : LCtx} : ∀ {rs : List Term} {i : Nat} {m m' : Bindings},
    inferTypes K P Γ i rs m = some (some m') → Extends m m' := by
  intro rs
  induction rs with
  | nil => intro i m m' e; simp only [inferTypes, Option.some.injEq] at e; subst e; exact .refl _
  | cons t ts ih =>
    intro i m m' e
    simp only [inferTypes] at e
    split at e
    · exact ih e
    · split at e
      · cases e
      · cases e
      · split at e
        · cases e
        · split at e
          · cases e
          · rename_i m1 e1; exact (extractTypes_extends _ e1).trans (ih e)

theorem resolve_plain {P : LCtx} {T : Term} (hT : PlainType T) (n : Nat) : resolveConstraint P n T = none := by
  cases n with
  | zero => rfl
  | succ n =>
    obtain ⟨_, h2, h3, _⟩ := Pdt.plain_atoms hT
    cases T with
    | atom a =>
      have h := hT.2 a (by simp [Term.atoms])
      cases a with
      | fvar i => exact absurd rfl (h.1 i)
      | bvar i => rfl
      | sym s =>
        cases s with
        | typeclass m l => exact absurd rfl (h.2.2 m l)
        | _ => rfl
    | _ => rfl

/-- With plain types nothing is inferred: the types must agree. -/
theorem inferTypes_plain {P Γ : LCtx} (hP : PlainVars P) : ∀ {rs : List Term} {i : Nat} {m : Bindings},
    (∀ (j : Nat) (r : Term), rs[j]? = some r → ∃ S, r.getType K Γ = some S) →
    ∃ o, inferTypes K P Γ i rs m = some o ∧ (o = some m ∨ o = none) ∧
      (o = some m ↔ ∀ (j : Nat) (r T : Term), rs[j]? = some r → P.get (i + j) = some T → r.getType K Γ = some T) := by
  intro rs
  induction rs with
  | nil => intro i m _; exact ⟨some m, rfl, .inl rfl, by simp⟩
  | cons t ts ih =>
    intro i m hty
    obtain ⟨o, h1, h2, h3⟩ := ih (i := i + 1) (m := m) fun j r hr => hty (j + 1) r hr
    have shift : (∀ (j : Nat) (r T : Term), ts[j]? = some r → P.get (i + 1 + j) = some T → r.getType K Γ = some T) ↔
        ∀ (j : Nat) (r T : Term), 0 < j → (t :: ts)[j]? = some r → P.get (i + j) = some T → r.getType K Γ = some T := by
      constructor
      · intro h j r T hj hr hT
        obtain ⟨k, rfl⟩ : ∃ k, j = k + 1 := ⟨j - 1, by omega⟩
        exact h k r T hr (by rw [show i + 1 + k = i + (k + 1) by omega]; exact hT)
      · intro h j r T hr hT
        exact h (j + 1) r T (by omega) hr (by rw [show i + (j + 1) = i + 1 + j by omega]; exact hT)
    simp only [inferTypes]
    cases hp : P.get i with
    | none =>
      refine ⟨o, h1, h2, h3.trans (shift.trans ⟨fun h j r T hr hT => ?_, fun h j r T _ hr hT => h j r T hr hT⟩)⟩
      cases j with
      | zero => rw [Nat.add_zero, hp] at hT; cases hT
      | succ j => exact h _ r T (by omega) hr hT
    | some T =>
      obtain ⟨S, hS⟩ := hty 0 t rfl
      simp only [resolve_plain (hP i T hp), hS, extractTypes_plain T (hP i T hp).2]
      by_cases hTS : T = S
      · subst hTS
        simp only [if_true]
        refine ⟨o, h1, h2, h3.trans (shift.trans ⟨fun h j r U hr hU => ?_, fun h j r T _ hr hT => h j r T hr hT⟩)⟩
        cases j with
        | zero =>
          rw [Nat.add_zero, hp] at hU; cases hU
          simp only [List.getElem?_cons_zero, Option.some.injEq] at hr; subst hr; exact hS
        | succ j => exact h _ r U (by omega) hr hU
      · simp only [hTS, if_false]
        refine ⟨none, rfl, .inr rfl, ⟨(fun h => by cases h), fun h => ?_⟩⟩
        have := h 0 t T rfl (by rw [Nat.add_zero]; exact hp)
        rw [hS] at this
        exact absurd (by cases this; rfl) hTS

/-! ### Substitution -/

/-- What a variable becomes. -/
def value (m : Bindings) (vs : List Nat) (next : Nat) (i : Nat) : Term :=
  match m.get? i with
  | some t => t
  | none => .fvar (next + vs.idxOf i)

theorem substitute_spec {m : Bindings} {vs : List Nat} {next : Nat} (t : Term) : ∀ {t' : Term},
    substitute m vs next t = some t' → t' = fill (value m vs next) t := by
  induction t with
  | atom a =>
    intro t' e
    cases a with
    | fvar i =>
      simp only [substitute] at e
      simp only [fill, value]
      split at e
      · rename_i h; cases e; rw [h]
      · rename_i h
        split at e
        · cases e; rw [h]
        · cases e
    | _ => simp only [substitute, Option.some.injEq] at e; exact e.symm
  | app f a ihf iha =>
    intro t' e
    simp only [substitute, Option.bind_eq_bind, Option.bind_eq_some_iff, Option.pure_def, Option.some.injEq] at e
    obtain ⟨f', e1, a', e2, rfl⟩ := e
    rw [ihf e1, iha e2]; rfl
  | bind b f a ihf iha =>
    intro t' e
    simp only [substitute, Option.bind_eq_bind, Option.bind_eq_some_iff, Option.pure_def, Option.some.injEq] at e
    obtain ⟨f', e1, a', e2, rfl⟩ := e
    rw [ihf e1, iha e2]; rfl

theorem substitute_total {m : Bindings} {vs : List Nat} {next : Nat} (t : Term)
    (h : ∀ i, t.hasVar i = true → m.get? i ≠ none ∨ i ∈ vs) :
    substitute m vs next t = some (fill (value m vs next) t) := by
  induction t with
  | atom a =>
    cases a with
    | fvar i =>
      simp only [substitute, fill, value]
      cases hm : m.get? i with
      | some x => rfl
      | none =>
        rcases h i (by simp [hv_fvar]) with h | h
        · exact absurd hm h
        · simp [h]
    | _ => rfl
  | app f a ihf iha =>
    simp only [substitute, ihf fun i hi => h i (hv_app.2 (.inl hi)), iha fun i hi => h i (hv_app.2 (.inr hi)), fill]; rfl
  | bind b f a ihf iha =>
    simp only [substitute, ihf fun i hi => h i (hv_bind.2 (.inl hi)), iha fun i hi => h i (hv_bind.2 (.inr hi)), fill]; rfl

theorem foldl_unbound {m : Bindings} : ∀ (is vs : List Nat), vs.Nodup →
    (is.foldl (fun vs i => if !m.contains i && !vs.contains i then vs ++ [i] else vs) vs).Nodup ∧
    ∀ i, i ∈ is.foldl (fun vs i => if !m.contains i && !vs.contains i then vs ++ [i] else vs) vs ↔
      i ∈ vs ∨ (i ∈ is ∧ m.get? i = none) := by
  intro is
  induction is with
  | nil => intro vs h; simp [h]
  | cons x is ih =>
    intro vs h
    simp only [List.foldl_cons]
    by_cases hc : (!m.contains x && !vs.contains x) = true
    · rw [if_pos hc]
      simp only [Bool.and_eq_true, Bool.not_eq_true', List.contains_eq_mem, decide_eq_false_iff_not] at hc
      have hx : m.get? x = none := by simpa [AMap.contains] using hc.1
      obtain ⟨h1, h2⟩ := ih (vs ++ [x]) (by
        rw [List.nodup_append]; exact ⟨h, by simp, fun a ha b hb => by simp at hb; subst hb; rintro rfl; exact hc.2 ha⟩)
      refine ⟨h1, fun i => (h2 i).trans ?_⟩
      rw [List.mem_append, List.mem_singleton, List.mem_cons]
      constructor
      · rintro ((h | rfl) | h)
        · exact .inl h
        · exact .inr ⟨.inl rfl, hx⟩
        · exact .inr ⟨.inr h.1, h.2⟩
      · rintro (h | ⟨rfl | h, h'⟩)
        · exact .inl (.inl h)
        · exact .inl (.inr rfl)
        · exact .inr ⟨h, h'⟩
    · rw [if_neg hc]
      obtain ⟨h1, h2⟩ := ih vs h
      refine ⟨h1, fun i => (h2 i).trans ?_⟩
      simp only [List.mem_cons]
      constructor
      · rintro (h | h)
        · exact .inl h
        · exact .inr ⟨.inr h.1, h.2⟩
      · rintro (h | ⟨rfl | h, h'⟩)
        · exact .inl h
        · left
          apply Classical.byContradiction
          intro hn
          apply hc
          simp [AMap.contains, h', hn]
        · exact .inr ⟨h, h'⟩

theorem mem_ordered {P : LCtx} {m : Bindings} {t : Term} {i : Nat} :
    i ∈ ordered P (unbound m t) ↔ t.hasVar i = true ∧ m.get? i = none := by
  have h := (foldl_unbound (m := m) t.fvars [] List.nodup_nil).2 i
  rw [mem_fvars] at h
  simp only [ordered, List.mem_append, List.mem_filter]
  have e : i ∈ unbound m t ↔ t.hasVar i = true ∧ m.get? i = none := by
    rw [unbound]; refine h.trans ?_; simp
  rw [← e]
  constructor
  · rintro (h | h) <;> exact h.1
  · intro h
    cases hb : (P.get i).any Term.isType0 with
    | true => exact .inl ⟨h, rfl⟩
    | false => exact .inr ⟨h, rfl⟩

theorem ordered_nodup {P : LCtx} {m : Bindings} {t : Term} : (ordered P (unbound m t)).Nodup := by
  have h : (unbound m t).Nodup := (foldl_unbound (m := m) t.fvars [] List.nodup_nil).1
  rw [ordered, List.nodup_append]
  refine ⟨h.filter _, h.filter _, fun a ha b hb => ?_⟩
  rintro rfl
  simp only [List.mem_filter, Bool.not_eq_true'] at ha hb
  rw [ha.2] at hb; cases hb.2

theorem get_setType (Γ : LCtx) (i : Nat) (T : Term) (j : Nat) :
    LCtx.get (setType Γ i T) j = if j = i then some T else Γ.get j := by
  have hlen : i < (Γ ++ List.replicate (i + 1 - Γ.length) (none : Option Term)).length := by simp; omega
  simp only [LCtx.get, setType, List.getElem?_set]
  by_cases h : j = i
  · subst h; simp only [if_true, if_pos hlen]; rfl
  · rw [if_neg (fun e => h e.symm), if_neg h]
    by_cases hj : j < Γ.length
    · rw [List.getElem?_append_left hj]
    · rw [List.getElem?_append_right (by omega), List.getElem?_replicate, List.getElem?_eq_none (by omega)]
      split <;> rfl

/-- The context of the new term: the old one, and the types of the new variables. -/
theorem newCtx_plain {P : LCtx} (hP : PlainVars P) {m : Bindings} {vs : List Nat} {next : Nat} :
    ∀ (rest : List Nat) (k : Nat) (Γ : LCtx), ∃ Γ', newCtx P m vs next k rest Γ = some Γ' ∧
      ∀ j, Γ'.get j = if next + k ≤ j ∧ j < next + k + rest.length then
        ((rest[j - (next + k)]?).bind P.get).or (Γ.get j) else Γ.get j := by
  intro rest
  induction rest with
  | nil => intro k Γ; exact ⟨Γ, rfl, fun j => by rw [if_neg (by simp)]⟩
  | cons v rest ih =>
    intro k Γ
    have step : ∀ (Γ1 : LCtx), (∀ j, Γ1.get j = if j = next + k then (P.get v).or (Γ.get j) else Γ.get j) →
        ∀ Γ' : LCtx, (∀ j, Γ'.get j = if next + (k + 1) ≤ j ∧ j < next + (k + 1) + rest.length then
          ((rest[j - (next + (k + 1))]?).bind P.get).or (Γ1.get j) else Γ1.get j) →
        ∀ j, Γ'.get j = if next + k ≤ j ∧ j < next + k + (v :: rest).length then
          (((v :: rest)[j - (next + k)]?).bind P.get).or (Γ.get j) else Γ.get j := by
      intro Γ1 h1 Γ' h2 j
      rw [h2 j, h1 j]
      simp only [List.length_cons]
      by_cases hj : j = next + k
      · subst hj
        rw [if_neg (by omega), if_pos rfl, if_pos (by omega)]; simp
      · by_cases hlt : next + (k + 1) ≤ j ∧ j < next + (k + 1) + rest.length
        · rw [if_pos hlt, if_neg hj, if_pos (by omega)]
          obtain ⟨x, rfl⟩ : ∃ x, j = next + (k + 1) + x := ⟨j - (next + (k + 1)), by omega⟩
          rw [show next + (k + 1) + x - (next + (k + 1)) = x by omega,
            show next + (k + 1) + x - (next + k) = x + 1 by omega]; rfl
        · rw [if_neg hlt, if_neg hj, if_neg (by omega)]
    simp only [newCtx]
    cases hv : P.get v with
    | none =>
      obtain ⟨Γ', h1, h2⟩ := ih (k + 1) Γ
      exact ⟨Γ', h1, step Γ (fun j => by rw [hv]; simp) Γ' h2⟩
    | some T =>
      have hT := hP v T hv
      have hs : substitute m vs next T = some T := by
        rw [substitute_total T fun i hi => absurd (mem_fvars.2 hi) (by
          intro h
          simp only [Term.fvars, List.mem_filterMap] at h
          obtain ⟨a, ha, he⟩ := h
          cases a with
          | fvar j => exact (hT.2 _ ha).1 j rfl
          | _ => simp at he)]
        congr 1
        have : ∀ (T : Term), (∀ a ∈ T.atoms, ∀ i, a ≠ .fvar i) → fill (value m vs next) T = T := by
          intro T
          induction T with
          | atom a => intro h; cases a with
            | fvar i => exact absurd rfl (h (.fvar i) (by simp [Term.atoms]) i)
            | _ => rfl
          | app f a h1 h2 =>
            intro h
            simp only [fill]
            rw [h1 fun x hx => h x (by simp [Term.atoms, hx]), h2 fun x hx => h x (by simp [Term.atoms, hx])]
          | bind b f a h1 h2 =>
            intro h
            simp only [fill]
            rw [h1 fun x hx => h x (by simp [Term.atoms, hx]), h2 fun x hx => h x (by simp [Term.atoms, hx])]
        exact this T fun a ha => (hT.2 a ha).1
      simp only [hs]
      obtain ⟨Γ', h1, h2⟩ := ih (k + 1) (setType Γ (next + k) T)
      refine ⟨Γ', h1, step _ (fun j => ?_) Γ' h2⟩
      rw [get_setType, hv]
      split <;> rfl

end Rewrites
end Acorn
