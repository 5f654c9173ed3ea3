/-
What the index of rewrite rules stores and finds.
-/
import Verif.Lemmas.RewriteRules
import Verif.Lemmas.ClauseTotal
import Verif.Lemmas.PlainClauses
namespace Acorn
namespace Rewrites
open Spec Term Pdt

variable {K : KCtx}

/-! ### One rule -/

theorem buildBindings_spec {rs : List Term} {P Γ : LCtx} {m : Bindings}
    (e : buildBindings K rs P Γ = some (some m)) : ∀ (i : Nat) (t : Term), rs[i]? = some t → m.get? i = some t := by
  simp only [buildBindings] at e
  split at e
  · cases e
  · rename_i m0 e0
    split at e
    · cases e
    · cases e
    · rename_i m1 e1
      simp only [Option.some.injEq] at e
      split at e
      · cases e
        intro i t hi
        refine (inferTypes_extends e1).keep i t ?_
        have hlt := (List.getElem?_eq_some_iff.1 hi).1
        rw [(bindReplacements_spec e0).2 i, if_pos (by omega)]
        exact hi
      · cases e

/-- What a rewrite does with the variables of a rule. -/
theorem applyValue_sound {Γ : LCtx} {next : Nat} {rs : List Term} {v : Value} {r : Rewrite}
    (e : applyValue K Γ next rs v = some (some r)) : r.id = v.id ∧ r.forwards = v.forwards ∧
      ∃ τ : Nat → Term, (∀ (i : Nat) (t : Term), rs[i]? = some t → τ i = t) ∧ r.term = fill τ v.output := by
  simp only [applyValue] at e
  split at e
  · cases e
  · cases e
  · rename_i m em
    split at e
    · cases e
    · split at e
      · cases e
      · rename_i t et
        simp only [Option.some.injEq] at e
        subst e
        exact ⟨rfl, rfl, _, fun i t hi => by rw [value, buildBindings_spec em i t hi], substitute_spec _ et⟩

/-- The same where nothing is polymorphic. -/
structure Applied (K : KCtx) (Γ : LCtx) (next : Nat) (rs : List Term) (v : Value) (τ : Nat → Term) (r : Rewrite) : Prop where
  id : r.id = v.id
  forwards : r.forwards = v.forwards
  bound : ∀ (i : Nat) (t : Term), rs[i]? = some t → τ i = t
  term : r.term = fill τ v.output
  fresh : ∀ i, rs.length ≤ i → v.output.hasVar i = true → ∃ j, τ i = .fvar j ∧ next ≤ j ∧
    ∀ T, v.ctx.get i = some T → r.ctx.get j = some T
  apart : ∀ i i', rs.length ≤ i → rs.length ≤ i' → v.output.hasVar i = true → v.output.hasVar i' = true →
    τ i = τ i' → i = i'
  typed : ∀ (j : Nat) (t T : Term), rs[j]? = some t → v.ctx.get j = some T → t.getType K Γ = some T
  old : ∀ j, j < next → r.ctx.get j = Γ.get j
  new : ∀ j T, r.ctx.get j = some T → Γ.get j = some T ∨ ∃ i, v.ctx.get i = some T

theorem applyValue_plain {Γ : LCtx} {next : Nat} {rs : List Term} {v : Value} (hP : PlainVars v.ctx)
    (hesc : ∀ r ∈ rs, r.escapes = false)
    (hty : ∀ (j : Nat) (r : Term), rs[j]? = some r → ∃ S, r.getType K Γ = some S) :
    ∃ o, applyValue K Γ next rs v = some o ∧ (∀ r, o = some r → ∃ τ, Applied K Γ next rs v τ r) ∧
      ((∀ (j : Nat) (r T : Term), rs[j]? = some r → v.ctx.get j = some T → r.getType K Γ = some T) → o ≠ none) := by
  obtain ⟨m, em⟩ := bindReplacements_some 0 (.empty : Bindings) hesc
  have hm := (bindReplacements_spec em).2
  have hm' : ∀ j, m.get? j = rs[j]? := by
    intro j
    rw [hm j]
    by_cases h : j < rs.length
    · rw [if_pos (by omega)]; rfl
    · rw [if_neg (by omega), List.getElem?_eq_none (by omega)]; rfl
  obtain ⟨o, h1, h2, h3⟩ := inferTypes_plain (K := K) (i := 0) (m := m) (Γ := Γ) hP hty
  simp only [Nat.zero_add] at h3
  rcases h2 with rfl | rfl
  case inr =>
    refine ⟨none, by simp [applyValue, buildBindings, em, h1], (fun r h => by cases h), fun h => ?_⟩
    exact absurd (h3.2 h) (by simp)
  have hall : (m.entries.all fun e => inferredOk K v.ctx Γ rs.length e.1 e.2) = true := by
    rw [List.all_eq_true]
    rintro ⟨i, t⟩ he
    have hi : m.get? i = some t := AMap.get?_eq_some.2 he
    rw [hm' i] at hi
    have := (List.getElem?_eq_some_iff.1 hi).1
    simp [inferredOk, this]
  have hb : buildBindings K rs v.ctx Γ = some (some m) := by
    simp only [buildBindings, em, h1, hall, if_true]
  have hnd := ordered_nodup (P := v.ctx) (m := m) (t := v.output)
  have hmem := fun i => mem_ordered (P := v.ctx) (m := m) (t := v.output) (i := i)
  generalize hvs : ordered v.ctx (unbound m v.output) = vs at hnd hmem
  obtain ⟨Γ', c1, c2⟩ := newCtx_plain hP (m := m) (vs := vs) (next := next) vs 0 Γ
  simp only [Nat.add_zero] at c2
  have hs : substitute m vs next v.output = some (fill (value m vs next) v.output) := by
    refine substitute_total _ fun i hi => ?_
    cases hmi : m.get? i with
    | some t => exact .inl (by simp)
    | none => exact .inr ((hmem i).2 ⟨hi, hmi⟩)
  have hval : ∀ i, rs.length ≤ i → value m vs next i = .fvar (next + vs.idxOf i) := by
    intro i hi
    rw [value, hm' i, List.getElem?_eq_none hi]
  have hin : ∀ i, rs.length ≤ i → v.output.hasVar i = true → i ∈ vs := fun i hi hv =>
    (hmem i).2 ⟨hv, by rw [hm' i, List.getElem?_eq_none hi]⟩
  refine ⟨some ⟨v.id, v.forwards, fill (value m vs next) v.output, Γ'⟩, ?_, ?_, fun _ => by simp⟩
  · simp only [applyValue, hb, hvs, c1, hs]
  · intro r hr
    cases hr
    refine ⟨value m vs next, rfl, rfl, fun i t hi => by rw [value, hm' i, hi], rfl, ?_, ?_, h3.1 rfl, ?_, ?_⟩
    · intro i hi hv
      refine ⟨_, hval i hi, by omega, fun T hT => ?_⟩
      have hlt := List.idxOf_lt_length_of_mem (hin i hi hv)
      rw [c2, if_pos (by omega), show next + vs.idxOf i - next = vs.idxOf i by omega,
        List.getElem?_eq_getElem hlt, List.getElem_idxOf hlt]
      simp [hT]
    · intro i i' hi hi' hv hv' he
      rw [hval i hi, hval i' hi'] at he
      simp only [Term.fvar, Term.atom.injEq, Atom.fvar.injEq] at he
      have he : vs.idxOf i = vs.idxOf i' := by omega
      have l1 := List.idxOf_lt_length_of_mem (hin i hi hv)
      have l2 := List.idxOf_lt_length_of_mem (hin i' hi' hv')
      have e1 := List.getElem_idxOf l1
      have e2 := List.getElem_idxOf l2
      rw [← e1, ← e2]
      simp only [he]
    · intro j hj
      rw [c2, if_neg (by omega)]
    · intro j T hT
      rw [c2] at hT
      split at hT
      · rw [Option.or_eq_some_iff] at hT
        rcases hT with h | ⟨_, h⟩
        · obtain ⟨i, _, h⟩ := Option.bind_eq_some_iff.1 h
          exact .inr ⟨i, h⟩
        · exact .inl h
      · exact .inl hT

theorem applyValues_mem {Γ : LCtx} {next : Nat} {rs : List Term} : ∀ {vs : List Value} {out : List Rewrite},
    applyValues K Γ next rs vs = some out → ∀ r, r ∈ out ↔ ∃ v ∈ vs, applyValue K Γ next rs v = some (some r) := by
  intro vs
  induction vs with
  | nil => intro out e r; simp only [applyValues, Option.some.injEq] at e; subst e; simp
  | cons v vs ih =>
    intro out e r
    simp only [applyValues] at e
    split at e
    · cases e
    · rename_i o ho
      rw [Option.map_eq_some_iff] at e
      obtain ⟨rest, e, rfl⟩ := e
      simp only [List.mem_append, List.mem_cons, Option.mem_toList, ih e r, exists_eq_or_imp, ho, Option.some.injEq,
        Option.mem_def]

theorem applyValues_total {Γ : LCtx} {next : Nat} {rs : List Term} : ∀ {vs : List Value},
    (∀ v ∈ vs, applyValue K Γ next rs v ≠ none) → applyValues K Γ next rs vs ≠ none := by
  intro vs
  induction vs with
  | nil => intro _; simp [applyValues]
  | cons v vs ih =>
    intro h
    simp only [applyValues]
    split
    · rename_i hn; exact absurd hn (h v (by simp))
    · have := ih fun x hx => h x (by simp [hx])
      simpa using this

/-! ### Storage -/

/-- What is inserted for a rule. -/
def entriesOf (id : Nat) (l : Literal) (P : LCtx) : List (Term × Value × LCtx) :=
  (l.left, ⟨id, true, l.right, P⟩, P) ::
    if l.right.isTrue then [] else
      match reversed l P with
      | some (r, a, P') => [(r, ⟨id, false, a, P'⟩, P')]
      | none => []

theorem insertTerms_some {p p' : Tree} {id : Nat} {a b : Term} {d : Bool} {P : LCtx}
    (e : insertTerms p id a b d P = some p') : a.isTrue = false ∧ p.insertOrAppend a ⟨id, d, b, P⟩ P = some p' := by
  simp only [insertTerms] at e
  split at e
  · cases e
  · rename_i h; exact ⟨by simpa using h, e⟩

theorem insertLiteral_terms {p p' : Tree} {id : Nat} {l : Literal} {P : LCtx} {h : List (Term × Value × LCtx)}
    (hp : TermTree p h) (e : insertLiteral p id l P = some p') : TermTree p' (h ++ entriesOf id l P) ∧
      (l.right.isTrue = false → ∃ x, reversed l P = some x) := by
  simp only [insertLiteral, Option.bind_eq_bind, Option.bind_eq_some_iff] at e
  obtain ⟨p1, e1, e2⟩ := e
  have t1 := TermTree.insert hp (insertTerms_some e1).2
  split at e2
  · rename_i ht
    cases e2
    refine ⟨?_, fun h => by rw [h] at ht; cases ht⟩
    simpa [entriesOf, ht] using t1
  · rename_i ht
    rw [Option.bind_eq_some_iff] at e2
    obtain ⟨⟨r, a, P'⟩, e2, e3⟩ := e2
    have t2 := TermTree.insert t1 (insertTerms_some e3).2
    refine ⟨?_, fun _ => ⟨_, e2⟩⟩
    simpa [entriesOf, ht, e2] using t2

theorem _root_.Acorn.Spec.RuleTree.terms {p : Tree} {h : List (Nat × Literal × LCtx)} (hp : RuleTree p h) :
    TermTree p (h.flatMap fun e => entriesOf e.1 e.2.1 e.2.2) ∧
      ∀ e ∈ h, e.2.1.right.isTrue = false → ∃ x, reversed e.2.1 e.2.2 = some x := by
  induction hp with
  | empty => exact ⟨.empty, by simp⟩
  | insert _ hi ih =>
    obtain ⟨h1, h2⟩ := insertLiteral_terms ih.1 hi
    refine ⟨by simpa using h1, fun e he => ?_⟩
    rcases List.mem_append.1 he with he | he
    · exact ih.2 e he
    · rw [List.mem_singleton.1 he]; exact h2

/-! ### The reversed rule -/

theorem vmap_vmap (f g : Nat → Nat) (t : Term) : (t.vmap f).vmap g = t.vmap fun i => g (f i) := by
  induction t with
  | atom a => cases a <;> rfl
  | app f a ihf iha => simp only [vmap_app, ihf, iha]
  | bind b f a ihf iha => simp only [vmap_bind, ihf, iha]

theorem vmap_renameVars (g : Nat → Nat) (t : Term) : t.vmap g = renameVars g t := by
  induction t with
  | atom a => cases a <;> rfl
  | app f a ihf iha => rw [vmap_app, ihf, iha]; rfl
  | bind b f a ihf iha => rw [vmap_bind, ihf, iha]; rfl

theorem vmap_id (t : Term) : t.vmap (fun i => i) = t := by
  induction t with
  | atom a => cases a <;> rfl
  | app f a ihf iha => rw [vmap_app, ihf, iha]
  | bind b f a ihf iha => rw [vmap_bind, ihf, iha]

theorem foldl_ids : ∀ (is ids : List Nat), ids.Nodup →
    let ids' := is.foldl (fun ids i => if ids.contains i then ids else ids ++ [i]) ids
    ids <+: ids' ∧ ids'.Nodup ∧ (∀ i ∈ is, i ∈ ids') ∧ (∀ i ∈ ids', i ∈ ids ∨ i ∈ is) ∧
      numbered ids.length (is.map ids'.idxOf) = some ids'.length := by
  intro is
  induction is with
  | nil => intro ids h; exact ⟨List.prefix_rfl, h, by simp, by simp, rfl⟩
  | cons x is ih =>
    intro ids h
    simp only [List.foldl_cons]
    by_cases hx : ids.contains x = true
    · rw [if_pos hx]
      obtain ⟨h1, h2, h3, h4, h5⟩ := ih ids h
      simp only [List.contains_eq_mem, decide_eq_true_eq] at hx
      refine ⟨h1, h2, ?_, ?_, ?_⟩
      · intro i hi
        rcases List.mem_cons.1 hi with rfl | hi
        · exact h1.subset hx
        · exact h3 i hi
      · intro i hi
        rcases h4 i hi with h | h
        · exact .inl h
        · exact .inr (by simp [h])
      · simp only [List.map_cons, numbered]
        rw [idxOf_prefix h1 hx, if_pos (List.idxOf_lt_length_of_mem hx)]
        exact h5
    · rw [if_neg hx]
      simp only [List.contains_eq_mem, decide_eq_true_eq] at hx
      have hn : (ids ++ [x]).Nodup := by
        rw [List.nodup_append]; exact ⟨h, by simp, fun a ha b hb => by simp at hb; subst hb; rintro rfl; exact hx ha⟩
      obtain ⟨h1, h2, h3, h4, h5⟩ := ih (ids ++ [x]) hn
      have hp : ids <+: ids ++ [x] := List.prefix_append _ _
      refine ⟨hp.trans h1, h2, ?_, ?_, ?_⟩
      · intro i hi
        rcases List.mem_cons.1 hi with rfl | hi
        · exact h1.subset (by simp)
        · exact h3 i hi
      · intro i hi
        rcases h4 i hi with h | h
        · rcases List.mem_append.1 h with h | h
          · exact .inl h
          · exact .inr (by simp at h; simp [h])
        · exact .inr (by simp [h])
      · simp only [List.map_cons, numbered]
        have hi : (ids ++ [x]).idxOf x = ids.length := by
          rw [List.idxOf_append, if_neg hx]; simp
        rw [idxOf_prefix h1 (by simp : x ∈ ids ++ [x]), hi, if_neg (by omega), if_pos rfl]
        simpa using h5

theorem collectIds_spec (t : Term) {ids : List Nat} (h : ids.Nodup) : ids <+: collectIds ids t ∧
    (collectIds ids t).Nodup ∧ (∀ i, t.hasVar i = true → i ∈ collectIds ids t) ∧
    (∀ i ∈ collectIds ids t, i ∈ ids ∨ t.hasVar i = true) ∧
    numbered ids.length (t.fvars.map (collectIds ids t).idxOf) = some (collectIds ids t).length := by
  obtain ⟨h1, h2, h3, h4, h5⟩ := foldl_ids t.fvars ids h
  exact ⟨h1, h2, fun i hi => h3 i (mem_fvars.2 hi), fun i hi => (h4 i hi).imp_right mem_fvars.1, h5⟩

theorem closeIds_spec {Γ : LCtx} : ∀ (n i : Nat) (ids : List Nat), ids.Nodup → ids <+: closeIds Γ n i ids ∧
    (closeIds Γ n i ids).Nodup := by
  intro n
  induction n with
  | zero => intro i ids h; exact ⟨List.prefix_rfl, h⟩
  | succ n ih =>
    intro i ids h
    simp only [closeIds]
    split
    · exact ⟨List.prefix_rfl, h⟩
    · rename_i v _
      have hc : ids <+: ((Γ.get v).elim ids (collectIds ids)) ∧ ((Γ.get v).elim ids (collectIds ids)).Nodup := by
        cases Γ.get v with
        | none => exact ⟨List.prefix_rfl, h⟩
        | some T => exact ⟨(collectIds_spec T h).1, (collectIds_spec T h).2.1⟩
      obtain ⟨h1, h2⟩ := ih (i + 1) _ hc.2
      exact ⟨hc.1.trans h1, h2⟩

theorem renumberKeep_vmap {ids : List Nat} (t : Term) (h : ∀ i, t.hasVar i = true → i ∈ ids) :
    renumberKeep ids t = t.byIds ids := by
  induction t with
  | atom a =>
    cases a with
    | fvar i =>
      have := h i (by simp [hv_fvar])
      simp [renumberKeep, this, Term.byIds]
    | _ => rfl
  | app f a ihf iha =>
    simp only [renumberKeep, Term.byIds, vmap_app]
    rw [ihf fun i hi => h i (hv_app.2 (.inl hi)), iha fun i hi => h i (hv_app.2 (.inr hi))]
  | bind b f a ihf iha =>
    simp only [renumberKeep, Term.byIds, vmap_bind]
    rw [ihf fun i hi => h i (hv_bind.2 (.inl hi)), iha fun i hi => h i (hv_bind.2 (.inr hi))]

theorem idxOf_inj {ids : List Nat} {i j : Nat} (hi : i ∈ ids) (hj : j ∈ ids) (h : ids.idxOf i = ids.idxOf j) :
    i = j := by
  have l1 := List.idxOf_lt_length_of_mem hi
  have l2 := List.idxOf_lt_length_of_mem hj
  rw [← List.getElem_idxOf l1, ← List.getElem_idxOf l2]
  simp only [h]

theorem plain_vmap {T : Term} (hT : PlainType T) (g : Nat → Nat) : T.vmap g = T := by
  have h := vmap_congr (g := g) (h := fun i => i) T fun i hi => by
    have := mem_fvars.2 hi
    simp only [Term.fvars, List.mem_filterMap] at this
    obtain ⟨a, ha, he⟩ := this
    cases a with
    | fvar j => exact absurd rfl ((hT.2 _ ha).1 j)
    | _ => simp at he
  rw [h, vmap_id]

theorem fvars_vmap (g : Nat → Nat) (t : Term) : (t.vmap g).fvars = t.fvars.map g := by
  induction t with
  | atom a => cases a <;> rfl
  | app f a ihf iha => rw [vmap_app, fvars_app, fvars_app, ihf, iha, List.map_append]
  | bind b f a ihf iha => rw [vmap_bind, fvars_bind, fvars_bind, ihf, iha, List.map_append]

theorem hasVar_vmap_of {g : Nat → Nat} {t : Term} {i : Nat} (h : t.hasVar i = true) : (t.vmap g).hasVar (g i) = true := by
  rw [← mem_fvars, fvars_vmap]
  exact List.mem_map.2 ⟨i, mem_fvars.2 h, rfl⟩

/-- How a stored rule comes from the inserted one: its variables are renamed. -/
structure Stored (id : Nat) (l : Literal) (P : LCtx) (x : Term × Value × LCtx) (g : Nat → Nat) : Prop where
  id : x.2.1.id = id
  ctx : x.2.1.ctx = x.2.2
  back : x.2.1.forwards = false → l.right.isTrue = false
  source : x.1 = (ruleFrom l x.2.1.forwards).vmap g
  output : x.2.1.output = (ruleTo l x.2.1.forwards).vmap g
  apart : ∀ i j, l.left.hasVar i = true ∨ l.right.hasVar i = true → l.left.hasVar j = true ∨ l.right.hasVar j = true →
    g i = g j → i = j
  types : ∀ i T, l.left.hasVar i = true ∨ l.right.hasVar i = true → P.get i = some T → PlainType T →
    x.2.2.get (g i) = some T
  plain : PlainVars P → ∀ k T, x.2.2.get k = some T → ∃ i, P.get i = some T
  none : ∀ i, l.left.hasVar i = true ∨ l.right.hasVar i = true → P.get i = none → x.2.2.get (g i) = none

theorem reversed_spec {l : Literal} {P P' : LCtx} {r a : Term} (e : reversed l P = some (r, a, P')) :
    ∃ g : Nat → Nat, r = l.right.vmap g ∧ a = l.left.vmap g ∧
      (∀ i j, l.left.hasVar i = true ∨ l.right.hasVar i = true → l.left.hasVar j = true ∨ l.right.hasVar j = true →
        g i = g j → i = j) ∧
      (∀ i, l.left.hasVar i = true ∨ l.right.hasVar i = true → ∃ T, P.get i = some T ∧
        (PlainType T → P'.get (g i) = some T)) ∧
      (PlainVars P → ∀ k T, P'.get k = some T → ∃ i, P.get i = some T) ∧
      ∃ n, NumberedBy n [r] := by
  simp only [reversed, Option.bind_eq_bind, Option.bind_eq_some_iff] at e
  obtain ⟨⟨r0, a0, Γ', ids1⟩, e1, Γ'', e2, e3⟩ := e
  simp only [Option.pure_def, Option.some.injEq, Prod.mk.injEq] at e3
  obtain ⟨rfl, rfl, rfl⟩ := e3
  obtain ⟨n1, n2, n3, n4, n5⟩ := normalizedReversed_spec e1
  simp only [Pdt.normalizedReversed, Option.bind_eq_bind, Option.bind_eq_some_iff, Option.pure_def,
    Option.some.injEq, Prod.mk.injEq] at e1
  obtain ⟨⟨r1, ids1'⟩, _, ⟨a1, ids2⟩, _, P1, h3, rfl, rfl, rfl, rfl⟩ := e1
  dsimp only at n2 n3 e2
  dsimp only
  obtain ⟨c1, c2, c3, c4, c5⟩ := collectIds_spec r1 List.nodup_nil
  obtain ⟨d1, d2, d3, d4, d5⟩ := collectIds_spec a1 c2
  obtain ⟨f1, f2⟩ := closeIds_spec (Γ := P1) (closeFuel P1 (collectIds (collectIds [] r1) a1)) 0 _ d2
  generalize hids : closeIds P1 (closeFuel P1 (collectIds (collectIds [] r1) a1)) 0 (collectIds (collectIds [] r1) a1) = ids at *
  have hr : ∀ i, r1.hasVar i = true → i ∈ ids := fun i hi => f1.subset (d1.subset (c3 i hi))
  have ha : ∀ i, a1.hasVar i = true → i ∈ ids := fun i hi => f1.subset (d3 i hi)
  have hmem1 : ∀ i, l.left.hasVar i = true ∨ l.right.hasVar i = true → i ∈ ids2 := fun i hi => hi.elim (n5 i) (n4 i)
  have hmem2 : ∀ i, l.left.hasVar i = true ∨ l.right.hasVar i = true → ids2.idxOf i ∈ ids := by
    intro i hi
    rcases hi with hi | hi
    · exact ha _ (by rw [n3]; exact hasVar_vmap_of hi)
    · exact hr _ (by rw [n2]; exact hasVar_vmap_of hi)
  obtain ⟨q1, q2⟩ := remap_spec h3
  obtain ⟨q3, q4⟩ := remap_spec e2
  refine ⟨fun i => ids.idxOf (ids2.idxOf i), ?_, ?_, ?_, ?_, ?_, (collectIds [] r1).length, ?_⟩
  · rw [renumberKeep_vmap _ hr, n2]; exact vmap_vmap _ _ _
  · rw [renumberKeep_vmap _ ha, n3]; exact vmap_vmap _ _ _
  · intro i j hi hj h
    exact idxOf_inj (hmem1 i hi) (hmem1 j hj) (idxOf_inj (hmem2 i hi) (hmem2 j hj) h)
  · intro i hi
    have l1 := List.idxOf_lt_length_of_mem (hmem1 i hi)
    obtain ⟨T, t1, t2, t3⟩ := q2 (ids2.idxOf i) i (by rw [List.getElem?_eq_getElem l1, List.getElem_idxOf l1])
    refine ⟨T, t1, fun hT => ?_⟩
    have l2 := List.idxOf_lt_length_of_mem (hmem2 i hi)
    obtain ⟨T', u1, u2, u3⟩ := q4 (ids.idxOf (ids2.idxOf i)) (ids2.idxOf i)
      (by rw [List.getElem?_eq_getElem l2, List.getElem_idxOf l2])
    rw [t3] at u1; cases u1
    rw [u3, Term.byIds, Term.byIds, plain_vmap hT, plain_vmap hT]
  · intro hP k T hT
    obtain ⟨i, U, i1, i2, rfl⟩ := get_remap e2 hT
    obtain ⟨j, V, j1, j2, rfl⟩ := get_remap h3 i2
    refine ⟨j, ?_⟩
    rw [j2, Term.byIds, Term.byIds, plain_vmap (hP j V j2), plain_vmap (hP j V j2)]
  · rw [NumberedBy, renumberKeep_vmap _ hr]
    simp only [List.flatMap_cons, List.flatMap_nil, List.append_nil, Term.byIds, fvars_vmap]
    have : r1.fvars.map ids.idxOf = r1.fvars.map (collectIds [] r1).idxOf := by
      refine List.map_congr_left fun i hi => ?_
      have := c3 i (mem_fvars.1 hi)
      rw [idxOf_prefix (d1.trans f1) this]
    rw [this]
    simpa using c5

theorem entries_stored {id : Nat} {l : Literal} {P : LCtx} {x : Term × Value × LCtx} (hx : x ∈ entriesOf id l P) :
    ∃ g, Stored id l P x g := by
  simp only [entriesOf, List.mem_cons] at hx
  rcases hx with rfl | hx
  · refine ⟨fun i => i, rfl, rfl, fun h => ?_, ?_, ?_, fun i j _ _ h => h, fun i T _ h _ => h, fun _ k T h => ⟨k, h⟩,
      fun i _ h => h⟩
    · simp at h
    · rw [vmap_id]; rfl
    · rw [vmap_id]; rfl
  · split at hx
    · cases hx
    · rename_i ht
      split at hx
      · rename_i r a P' e
        rw [List.mem_singleton] at hx
        subst hx
        obtain ⟨g, g1, g2, g3, g4, g5, g6⟩ := reversed_spec e
        refine ⟨g, rfl, rfl, fun _ => by simpa using ht, g1, g2, g3, fun i T hi hT hp => ?_, g5, fun i hi hn => ?_⟩
        · obtain ⟨T', h1, h2⟩ := g4 i hi
          rw [hT] at h1; cases h1
          exact h2 hp
        · obtain ⟨T', h1, h2⟩ := g4 i hi
          rw [hn] at h1; cases h1
      · cases hx

/-- Both directions are stored, with numbered variables. -/
theorem entry_of {id : Nat} {l : Literal} {P : LCtx} {d : Bool} (hd : d = false → ∃ x, reversed l P = some x)
    (ht : d = false → l.right.isTrue = false) (hn : d = true → ∃ n, NumberedBy n [l.left]) :
    ∃ x ∈ entriesOf id l P, x.2.1.forwards = d ∧ ∃ n, NumberedBy n [x.1] := by
  cases d with
  | true => exact ⟨_, List.mem_cons_self, rfl, hn rfl⟩
  | false =>
    obtain ⟨⟨r, a, P'⟩, e⟩ := hd rfl
    obtain ⟨g, _, _, _, _, _, g6⟩ := reversed_spec e
    exact ⟨(r, ⟨id, false, a, P'⟩, P'), by simp [entriesOf, ht rfl, e], rfl, g6⟩

theorem atoms_vmap (g : Nat → Nat) (t : Term) : ∀ a ∈ (t.vmap g).atoms, a ∈ t.atoms ∨ ∃ i, a = .fvar i := by
  induction t with
  | atom a =>
    cases a with
    | fvar i => intro a ha; exact .inr ⟨g i, List.mem_singleton.1 ha⟩
    | _ => intro a ha; left; exact ha
  | app f a ihf iha =>
    intro x hx
    simp only [vmap_app, Term.atoms, List.mem_append] at hx ⊢
    rcases hx with hx | hx
    · exact (ihf x hx).imp_left .inl
    · exact (iha x hx).imp_left .inr
  | bind b f a ihf iha =>
    intro x hx
    simp only [vmap_bind, Term.atoms, List.mem_append] at hx ⊢
    rcases hx with hx | hx
    · exact (ihf x hx).imp_left .inl
    · exact (iha x hx).imp_left .inr

theorem bounded_length : ∀ (n : Nat) {l : List Nat}, l.Nodup → (∀ i ∈ l, i < n) → l.length ≤ n := by
  intro n l hn h
  have := hn.length_le_of_subset (l₂ := List.range n) fun i hi => List.mem_range.2 (h i hi)
  simpa using this

/-- The stored terms fit into the keys. -/
theorem entries_fit {id : Nat} {l : Literal} {P : LCtx} (hl : Fits l.left) (hr : Fits l.right)
    {x : Term × Value × LCtx} (hx : x ∈ entriesOf id l P) : Fits x.1 := by
  simp only [entriesOf, List.mem_cons] at hx
  rcases hx with rfl | hx
  · exact hl
  · split at hx
    · cases hx
    · split at hx
      · rename_i r a P' e
        rw [List.mem_singleton] at hx
        subst hx
        obtain ⟨g, rfl, _, _, _, _, n, hn⟩ := reversed_spec e
        obtain ⟨_, h2, h3⟩ := numbered_all _ _ _ hn
        simp only [List.flatMap_cons, List.flatMap_nil, List.append_nil, fvars_vmap, List.mem_map, mem_fvars] at h2 h3
        have : ∀ k, ∃ i, k < n → l.right.hasVar i = true ∧ g i = k := by
          intro k
          by_cases hk : k < n
          · obtain ⟨i, hi⟩ := h2 k (Nat.zero_le _) hk; exact ⟨i, fun _ => hi⟩
          · exact ⟨0, fun h => absurd h hk⟩
        obtain ⟨c, hc⟩ := Classical.axiomOfChoice this
        have hb : ∀ i, l.right.hasVar i = true → i < 65536 := fun i hi => by
          have := hr (.fvar i) (by simpa [Term.hasVar] using hi)
          exact this
        have hle : ((List.range n).map c).length ≤ 65536 := by
          refine bounded_length _ ?_ ?_
          · rw [List.nodup_iff_pairwise_ne, List.pairwise_map]
            refine List.Pairwise.imp_of_mem ?_ List.nodup_range
            intro a b ha hb' hne he
            rw [List.mem_range] at ha hb'
            exact hne (by rw [← (hc a ha).2, ← (hc b hb').2, he])
          · intro i hi
            obtain ⟨k, hk, rfl⟩ := List.mem_map.1 hi
            exact hb _ (hc k (List.mem_range.1 hk)).1
        simp only [List.length_map, List.length_range] at hle
        intro b hb'
        rcases atoms_vmap g _ b hb' with h | ⟨i, rfl⟩
        · cases b with
          | fvar i =>
            have : i ∈ (l.right.vmap g).fvars := mem_fvars.2 (by simpa [Term.hasVar] using hb')
            rw [fvars_vmap] at this
            obtain ⟨j, hj, rfl⟩ := List.mem_map.1 this
            have := h3 (g j) ⟨j, mem_fvars.1 hj, rfl⟩
            show _ < _
            omega
          | _ => exact hr _ h
        · have : i ∈ (l.right.vmap g).fvars := mem_fvars.2 (by simpa [Term.hasVar] using hb')
          rw [fvars_vmap] at this
          obtain ⟨j, hj, rfl⟩ := List.mem_map.1 this
          have := h3 (g j) ⟨j, mem_fvars.1 hj, rfl⟩
          show _ < _
          omega
      · cases hx

/-! ### The search -/

variable {fuel : Nat}

theorem getRewrites_sound {p : Tree} {L : List (Term × Value × LCtx)} (hp : TermTree p L) (hfit : ∀ e ∈ L, Fits e.1)
    {t : Term} (ht : Fits t) {next : Nat} {Γ : LCtx} {out : List Rewrite}
    (e : getRewrites K fuel p t next Γ = some out) {r : Rewrite} (hr : r ∈ out) :
    ∃ x ∈ L, ∃ rs Γ' Q x0, x0 ∈ L ∧ x0.1 = x.1 ∧ x0.2.2 = Q ∧ Walk [x.1] [t] Γ [] Γ' rs ∧
      verify K fuel Q Γ' rs = some true ∧ applyValue K Γ next rs x.2.1 = some (some r) := by
  simp only [getRewrites] at e
  split at e
  · cases e
  · rename_i acc b hf
    subst e
    refine find_keeps (I := fun acc => ∀ out, acc = some out → ∀ r ∈ out, ∃ x ∈ L, ∃ rs Γ' Q x0, x0 ∈ L ∧ x0.1 = x.1 ∧
      x0.2.2 = Q ∧ Walk [x.1] [t] Γ [] Γ' rs ∧ verify K fuel Q Γ' rs = some true ∧
      applyValue K Γ next rs x.2.1 = some (some r)) stackLimit _ [] [t] Γ [] (by simpa using ht) (by simp [stackLimit]) hf
      ?_ (by simp) _ rfl r hr
    intro acc id Γ' rs Q hI hh hQ hver out hout r hr
    obtain ⟨s, h1, h2, v, Q', hL, hn, hv, hQ', hw⟩ := hh.term hp hfit
    rw [hQ] at hQ'; cases hQ'
    simp only [collect, Option.bind_eq_bind, Option.bind_eq_some_iff, Option.pure_def, Option.some.injEq] at hout
    obtain ⟨found, rfl, vs, hvs, new, hnew, rfl⟩ := hout
    rcases List.mem_append.1 hr with hr | hr
    · exact hI found rfl r hr
    · obtain ⟨w, hw1, hw2⟩ := (applyValues_mem hnew r).1 hr
      rw [hv] at hvs; cases hvs
      obtain ⟨x, hx, rfl⟩ := List.mem_map.1 hw1
      obtain ⟨hxL, hx'⟩ := List.mem_filter.1 hx
      have hx' : x.1 = s := by simpa using hx'
      subst hx'
      exact ⟨x, hxL, rs, Γ', Q, (x.1, v, Q), by rw [hL]; simp, rfl, rfl, hw, hver, hw2⟩

theorem getRewrites_complete {p : Tree} {L : List (Term × Value × LCtx)} (hp : TermTree p L) (hfit : ∀ e ∈ L, Fits e.1)
    {t : Term} (ht : Fits t) (hsz : t.size < 500) {next : Nat} {Γ : LCtx} {out : List Rewrite}
    (e : getRewrites K fuel p t next Γ = some out) {x : Term × Value × LCtx} (hx : x ∈ L) {rs : List Term} {Γ' : LCtx}
    (hw : Walk [x.1] [t] Γ [] Γ' rs)
    (hver : ∀ x0 ∈ L, x0.1 = x.1 → verify K fuel x0.2.2 Γ' rs = some true) {r : Rewrite}
    (hr : applyValue K Γ next rs x.2.1 = some (some r)) : r ∈ out := by
  -- the first entry with this pattern decides about the types
  obtain ⟨L1, v, Q, L2, hL, hn⟩ : ∃ L1 v Q L2, L = L1 ++ (x.1, v, Q) :: L2 ∧ ∀ y ∈ L1, y.1 ≠ x.1 := by
    clear hp hfit hver e
    induction L with
    | nil => cases hx
    | cons y L ih =>
      by_cases hy : y.1 = x.1
      · obtain ⟨y1, y2, y3⟩ := y
        dsimp only at hy
        subst hy
        exact ⟨[], y2, y3, L, rfl, by simp⟩
      · rcases List.mem_cons.1 hx with rfl | hx
        · exact absurd rfl hy
        · obtain ⟨L1, v, Q, L2, rfl, hn⟩ := ih hx
          exact ⟨y :: L1, v, Q, L2, rfl, fun z hz => by
            rcases List.mem_cons.1 hz with rfl | hz
            · exact hy
            · exact hn z hz⟩
  have hQ : verify K fuel Q Γ' rs = some true := hver (x.1, v, Q) (by rw [hL]; simp) rfl
  simp only [getRewrites] at e
  split at e
  · cases e
  · rename_i acc b hf
    subst e
    have hb : b = true := by
      cases b with
      | true => rfl
      | false =>
        obtain ⟨s1, id, _, rs', P, _, _, _, h⟩ := find_false stackLimit _ [] [t] Γ [] (by simpa using ht)
          (by simp [stackLimit]) (by simpa [stackLimit] using hsz) hf
        simp [collect] at h
    subst hb
    subst hL
    obtain ⟨id, i1, i2, i3⟩ := Hit.of_term hp hn hfit hw
    have := find_true (Q := fun acc => ∀ out, acc = some out → r ∈ out) (by
        intro acc id rs h out hout
        simp only [collect, Option.bind_eq_bind, Option.bind_eq_some_iff, Option.pure_def, Option.some.injEq] at hout
        obtain ⟨found, rfl, vs, hvs, new, hnew, rfl⟩ := hout
        exact List.mem_append_left _ (h found rfl)) stackLimit _ [] [t] Γ [] (by simpa using ht)
      (by simp [stackLimit]) (subtrie_nodup p.trie.nodup []) hf i1 i2 hQ (by
        intro acc _ out hout
        simp only [collect, Option.bind_eq_bind, Option.bind_eq_some_iff, Option.pure_def, Option.some.injEq] at hout
        obtain ⟨found, rfl, vs, hvs, new, hnew, rfl⟩ := hout
        rw [i3] at hvs; cases hvs
        refine List.mem_append_right _ ((applyValues_mem hnew r).2 ⟨x.2.1, ?_, hr⟩)
        exact List.mem_map.2 ⟨x, List.mem_filter.2 ⟨hx, by simp⟩, rfl⟩)
    exact this out rfl

theorem getRewrites_total {p : Tree} {L : List (Term × Value × LCtx)} (hp : TermTree p L) (hfit : ∀ e ∈ L, Fits e.1)
    {t : Term} (ht : Fits t) {next : Nat} {Γ : LCtx}
    (hver : ∀ x ∈ L, ∀ Γ' rs, Walk [x.1] [t] Γ [] Γ' rs → verify K fuel x.2.2 Γ' rs ≠ none)
    (happ : ∀ x ∈ L, ∀ Γ' rs, Walk [x.1] [t] Γ [] Γ' rs → (∀ r ∈ rs, r.escapes = false) →
      applyValue K Γ next rs x.2.1 ≠ none) : getRewrites K fuel p t next Γ ≠ none := by
  intro e
  obtain ⟨inv, hlen⟩ := hp.inv hfit
  simp only [getRewrites] at e
  split at e
  · rename_i hf
    obtain ⟨id, Γ', rs, Q, hh, hQ, hn⟩ := find_none stackLimit _ [] [t] Γ [] (by simpa using ht) (by simp [stackLimit])
      (by simpa using inv) (fun e he => hlen e (mem_subtrie.1 he).1) hf
    obtain ⟨s, h1, h2, v, Q', hL, _, hv, hQ', hw⟩ := hh.term hp hfit
    rw [hQ] at hQ'; cases hQ'
    exact hver (s, v, Q) (by rw [hL]; simp) Γ' rs hw hn
  · rename_i acc b hf
    subst e
    refine find_keeps (I := fun acc => acc ≠ none) stackLimit _ [] [t] Γ [] (by simpa using ht)
      (by simp [stackLimit]) hf ?_ (by simp) rfl
    intro acc id Γ' rs Q hI hh hQ hver' hout
    obtain ⟨s, h1, h2, v, Q', hL, _, hv, hQ', hw⟩ := hh.term hp hfit
    cases acc with
    | none => exact hI rfl
    | some found =>
      simp only [collect, Option.bind_eq_bind, Option.bind_some, hv, Option.bind_eq_none_iff, Option.pure_def,
        reduceCtorEq, imp_false] at hout
      cases hnew : applyValues K Γ next rs ((L.filter fun e => decide (e.1 = s)).map fun e => e.2.1) with
      | some new => exact hout new hnew
      | none =>
        refine applyValues_total ?_ hnew
        intro w hw'
        obtain ⟨x, hx, rfl⟩ := List.mem_map.1 hw'
        obtain ⟨hxL, hx'⟩ := List.mem_filter.1 hx
        have hx' : x.1 = s := by simpa using hx'
        subst hx'
        refine happ x hxL Γ' rs hw fun r hr => ?_
        obtain ⟨i, hi⟩ := List.getElem?_of_mem hr
        exact (verifyFrom_true.1 hver' i r hi).1

/-! ### Together -/

/-- What is known about a rewrite that was found. -/
theorem rewrite_spec {p : Tree} {h : List (Nat × Literal × LCtx)} (hp : RuleTree p h)
    (hfit : ∀ e ∈ h, Fits e.2.1.left ∧ Fits e.2.1.right) {t : Term} (ht : Fits t) {next : Nat} {Γ : LCtx}
    {out : List Rewrite} (e : getRewrites K fuel p t next Γ = some out) {r : Rewrite} (hr : r ∈ out) :
    ∃ (l : Literal) (P : LCtx) (x : Term × Value × LCtx) (g : Nat → Nat) (rs : List Term) (Γ' : LCtx),
      (r.id, l, P) ∈ h ∧ Stored r.id l P x g ∧ x.2.1.forwards = r.forwards ∧
      Walk [x.1] [t] Γ [] Γ' rs ∧ (∀ s ∈ rs, s.escapes = false) ∧ applyValue K Γ next rs x.2.1 = some (some r) := by
  obtain ⟨ht1, _⟩ := hp.terms
  obtain ⟨x, hx, rs, Γ', Q, x0, _, _, _, hw, hver, happ⟩ := getRewrites_sound ht1 (by
    intro y hy
    obtain ⟨e, he, hy⟩ := List.mem_flatMap.1 hy
    exact entries_fit (hfit e he).1 (hfit e he).2 hy) ht e hr
  obtain ⟨⟨id, l, P⟩, he, hx⟩ := List.mem_flatMap.1 hx
  obtain ⟨g, hg⟩ := entries_stored hx
  obtain ⟨h1, h2, _⟩ := applyValue_sound happ
  have : r.id = id := h1.trans hg.id
  subst this
  exact ⟨l, P, x, g, rs, Γ', he, hg, h2.symm, hw, fun s hs => by
    obtain ⟨i, hi⟩ := List.getElem?_of_mem hs
    exact (verifyFrom_true.1 hver i s hi).1, happ⟩

/-- The variables of a stored pattern are those that the search has replaced. -/
theorem walk_vars {x : Term} {t : Term} {Γ Γ' : LCtx} {rs : List Term} (hw : Walk [x] [t] Γ [] Γ' rs) (k : Nat) :
    x.hasVar k = true ↔ k < rs.length := by
  have hn := hw.spec.2.2.1
  simp only [List.flatMap_cons, List.flatMap_nil, List.append_nil] at hn
  obtain ⟨_, h2, h3⟩ := numbered_all _ _ _ hn
  exact ⟨fun h => h3 k (mem_fvars.2 h), fun h => mem_fvars.1 (h2 k (Nat.zero_le _) h)⟩

theorem walk_fill {x : Term} {t : Term} {Γ Γ' : LCtx} {rs : List Term} (hw : Walk [x] [t] Γ [] Γ' rs) {τ : Nat → Term}
    (hτ : ∀ (i : Nat) (s : Term), rs[i]? = some s → τ i = s) : fill τ x = t := by
  have hi := hw.spec.2.1
  simp only [List.map_cons, List.map_nil, List.cons.injEq, and_true] at hi
  rw [← hi, fill_instantiate]
  refine fill_congr _ fun i hi => ?_
  have hlt := (walk_vars hw i).1 hi
  rw [hτ i rs[i] (List.getElem?_eq_getElem hlt)]
  simp [List.getD, hlt]

theorem hasVar_vmap_iff {g : Nat → Nat} {t : Term} {k : Nat} : (t.vmap g).hasVar k = true ↔
    ∃ i, t.hasVar i = true ∧ g i = k := by
  rw [← mem_fvars, fvars_vmap, List.mem_map]
  simp only [mem_fvars]

theorem fill_closed_plain {T : Term} (hT : PlainType T) (σ : Nat → Term) : fill σ T = T := by
  have h1 : ∀ i, T.hasVar i = false := by
    intro i
    rw [← Bool.not_eq_true, ← mem_fvars]
    intro h
    simp only [Term.fvars, List.mem_filterMap] at h
    obtain ⟨a, ha, he⟩ := h
    cases a with
    | fvar j => exact (hT.2 _ ha).1 j rfl
    | _ => simp at he
  rw [fill_congr (τ := .fvar) T fun i hi => by rw [h1 i] at hi; cases hi]
  have := vmap_renameVars (fun i => i) T
  rw [vmap_id] at this
  exact this.symm

end Rewrites
end Acorn
