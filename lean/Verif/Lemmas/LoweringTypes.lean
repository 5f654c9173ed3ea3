/-
Lowering types, and the kernel types of registered constants.
-/
import Verif.Spec.Lowering
import Verif.Lemmas.ValueSubst
import Verif.Lemmas.ValueTypes
namespace Acorn
namespace Elab

open Spec

universe u

variable {K : KCtx} {M : Interp.{u}} (h : Lawful K M) (L : Tables)

/-! ### Terms built from lists -/

theorem eval_apply (ρ β : Nat → M.D) : ∀ (as : List Term) (f : Term),
    eval M ρ β (f.apply as) = (as.map (eval M ρ β)).foldl M.app (eval M ρ β f)
  | [], _ => rfl
  | a :: as, f => by
    show eval M ρ β ((Term.app f a).apply as) = _
    rw [eval_apply ρ β as]
    rfl

theorem eval_pis (ρ : Nat → M.D) (y : M.D) (r : Term) (hr : ∀ β, eval M ρ β r = y) :
    ∀ (as : List Term) (xs : List M.D), (∀ β, as.map (eval M ρ β) = xs) →
    ∀ β, eval M ρ β (as.foldr Term.pi r) = (kernelFrame h L).fnN xs y
  | [], xs, ha, β => by
    have := ha β
    subst this
    exact hr β
  | a :: as, xs, ha, β => by
    have h1 := ha β
    subst h1
    simp only [List.foldr_cons, List.map_cons, Frame.fnN, eval]
    show M.bind .pi _ _ = M.bind .pi _ _
    congr 1
    funext d
    refine eval_pis ρ y r hr as _ (fun γ => ?_) _
    have := ha γ
    simp only [List.map_cons, List.cons.injEq] at this
    exact this.2

/-! ### Types -/

mutual

theorem eval_lowerType (tv : List (String × Nat)) (ρ : Nat → M.D) : ∀ (t : Ty) (T : Term),
    lowerType L tv t = some T → ∀ β, eval M ρ β T = (kernelFrame h L).ty (typeMeaning M L tv ρ) t
  | .bool, T, e, β => by cases e; rfl
  | .data d as, T, e, β => by
    simp only [lowerType, Option.bind_eq_bind, Option.pure_def] at e
    obtain ⟨g, hg, e⟩ := Option.bind_eq_some_iff.1 e
    obtain ⟨Ts, hTs, e⟩ := Option.bind_eq_some_iff.1 e
    cases e
    rw [eval_apply, eval_lowerTypes tv ρ as Ts hTs β]
    show _ = (kernelFrame h L).data d _
    simp only [kernelFrame, hg]
    rfl
  | .fn as r, T, e, β => by
    simp only [lowerType, Option.bind_eq_bind, Option.pure_def] at e
    obtain ⟨Ts, hTs, e⟩ := Option.bind_eq_some_iff.1 e
    obtain ⟨R, hR, e⟩ := Option.bind_eq_some_iff.1 e
    cases e
    exact eval_pis h L ρ _ R (fun β => eval_lowerType tv ρ r R hR β) Ts _
      (fun β => eval_lowerTypes tv ρ as Ts hTs β) β
  | .tvar n, T, e, β => by
    simp only [lowerType, Option.map_eq_some_iff] at e
    obtain ⟨i, hi, e⟩ := e
    subst e
    show ρ i = typeMeaning M L tv ρ n
    simp only [typeMeaning, hi]
  | .arb n, T, e, β => by
    show _ = typeMeaning M L tv ρ n
    simp only [lowerType] at e
    simp only [typeMeaning]
    split at e
    · rename_i i hi
      cases e
      simp only [hi]
      rfl
    · rename_i hi
      obtain ⟨g, hg, e⟩ := Option.map_eq_some_iff.1 e
      subst e
      simp only [hi, hg]
      rfl
  | .type0, T, e, β => by cases e; rfl
  | .constraint c, T, e, β => by
    simp only [lowerType, Option.map_eq_some_iff] at e
    obtain ⟨g, hg, e⟩ := e
    subst e
    show _ = (kernelFrame h L).constraint c
    simp only [kernelFrame, hg]
    rfl

theorem eval_lowerTypes (tv : List (String × Nat)) (ρ : Nat → M.D) : ∀ (ts : List Ty) (Ts : List Term),
    lowerTypes L tv ts = some Ts → ∀ β, Ts.map (eval M ρ β) = (kernelFrame h L).tys (typeMeaning M L tv ρ) ts
  | [], Ts, e, β => by cases e; rfl
  | t :: ts, Ts, e, β => by
    simp only [lowerTypes, Option.bind_eq_bind, Option.pure_def] at e
    obtain ⟨T, hT, e⟩ := Option.bind_eq_some_iff.1 e
    obtain ⟨Ts', hTs, e⟩ := Option.bind_eq_some_iff.1 e
    cases e
    simp only [List.map_cons, Frame.tys]
    rw [eval_lowerType tv ρ t T hT β, eval_lowerTypes tv ρ ts Ts' hTs β]

end

/-! ### Kinds -/

/-- `Type` and the typeclasses. -/
def KindTerm (k : Term) : Prop := ∃ s, k = .sym s ∧ isKindSym s = true

theorem paramKind_kind {L : Tables} {o : Option String} {k : Term} (e : paramKind L o = some k) : KindTerm k := by
  cases o with
  | none => cases e; exact ⟨_, rfl, rfl⟩
  | some c =>
    simp only [paramKind, Option.map_eq_some_iff] at e
    obtain ⟨g, _, e⟩ := e
    exact ⟨_, e.symm, rfl⟩

/-- As many elements as kinds, each in its kind. -/
def InKinds (M : Interp.{u}) : List M.D → List Term → Prop
  | [], [] => True
  | x :: xs, k :: ks => (∃ s, k = .sym s ∧ isKindSym s = true ∧ M.mem x (M.sym s)) ∧ InKinds M xs ks
  | _, _ => False

/-- Several variables pushed, the first one first. -/
def pushN {D : Type u} : List D → (Nat → D) → Nat → D
  | [], β => β
  | x :: xs, β => pushN xs (push x β)

theorem pushN_ge {D : Type u} : ∀ (xs : List D) (β : Nat → D) (i : Nat), pushN xs β (i + xs.length) = β i
  | [], _, _ => rfl
  | x :: xs, β, i => by
    show pushN xs (push x β) (i + (xs.length + 1)) = β i
    rw [show i + (xs.length + 1) = (i + 1) + xs.length by omega, pushN_ge xs]
    rfl

theorem pushN_lt {D : Type u} (d : D) : ∀ (xs : List D) (β : Nat → D) (i : Nat), i < xs.length →
    pushN xs β (xs.length - 1 - i) = xs.getD i d
  | x :: xs, β, 0, _ => by
    show pushN xs (push x β) (xs.length + 1 - 1 - 0) = x
    rw [show xs.length + 1 - 1 - 0 = 0 + xs.length by omega, pushN_ge]
    rfl
  | x :: xs, β, i + 1, hi => by
    simp only [List.length_cons] at hi
    show pushN xs (push x β) (xs.length + 1 - 1 - (i + 1)) = xs.getD i d
    rw [show xs.length + 1 - 1 - (i + 1) = xs.length - 1 - i by omega]
    exact pushN_lt d xs _ i (by omega)

include h in
theorem peel (ρ : Nat → M.D) (B : Term) : ∀ (xs : List M.D) (ks : List Term) (f : M.D) (β : Nat → M.D),
    InKinds M xs ks → M.mem f (eval M ρ β (ks.foldr Term.pi B)) →
    M.mem (xs.foldl M.app f) (eval M ρ (pushN xs β) B)
  | [], [], f, β, _, hf => hf
  | x :: xs, k :: ks, f, β, hx, hf => by
    obtain ⟨⟨s, hk, _, hx⟩, hxs⟩ := hx
    subst hk
    simp only [List.foldr_cons, eval] at hf
    have := ((h.mem_pi _ _ _).1 hf).2 x hx
    exact peel ρ B xs ks _ _ hxs this

theorem kinds_escape (B : Term) : ∀ (ks : List Term) (d : Nat), (∀ k ∈ ks, KindTerm k) →
    (ks.foldr Term.pi B).escapesAt d = B.escapesAt (d + ks.length)
  | [], d, _ => rfl
  | k :: ks, d, hk => by
    obtain ⟨s, hs, _⟩ := hk k (by simp)
    subst hs
    simp only [List.foldr_cons, Term.escapesAt, List.length_cons]
    rw [kinds_escape B ks (d + 1) fun k hk' => hk k (by simp [hk'])]
    rw [show d + 1 + ks.length = d + (ks.length + 1) by omega]
    simp

theorem kinds_hasVar (B : Term) (i : Nat) : ∀ (ks : List Term), (∀ k ∈ ks, KindTerm k) →
    (ks.foldr Term.pi B).hasVar i = B.hasVar i
  | [], _ => rfl
  | k :: ks, hk => by
    obtain ⟨s, hs, _⟩ := hk k (by simp)
    subst hs
    have := kinds_hasVar B i ks fun k hk' => hk k (by simp [hk'])
    simp only [Term.hasVar] at this
    simp [Term.hasVar, Term.atoms, this]

theorem mapM_kinds {L : Tables} : ∀ {os : List (Option String)} {ks : List Term},
    os.mapM (paramKind L) = some ks → ∀ k ∈ ks, KindTerm k
  | [], ks, e => by
    simp only [List.mapM_nil, Option.pure_def, Option.some.injEq] at e
    subst e
    simp
  | o :: os, ks, e => by
    simp only [List.mapM_cons, Option.bind_eq_bind, Option.pure_def] at e
    obtain ⟨k, hk, e⟩ := Option.bind_eq_some_iff.1 e
    obtain ⟨ks', hks, e⟩ := Option.bind_eq_some_iff.1 e
    cases e
    intro k' hk'
    rcases List.mem_cons.1 hk' with rfl | hk'
    · exact paramKind_kind hk
    · exact mapM_kinds hks k' hk'

section small

variable {S : Theory} {tv : List (String × Nat)} {ρ : Nat → M.D} (hR : Registered K L S)
  (hA : Agrees h L S tv ρ)

include h in
theorem bool_small : M.mem (vbool M) (vtype0 M) :=
  h.sym_type .bool .type0 rfl rfl ⟨rfl, fun _ => rfl⟩ (fun _ => vtt M) (fun _ => vtt M)

include hR hA in
theorem param_small (n : String) : M.mem (typeMeaning M L tv ρ n) (vtype0 M) := by
  unfold typeMeaning
  split
  · rename_i i hi
    exact hA.params n i hi
  · split
    · rename_i g hg
      have hk := hR.arbitrary n g hg
      refine h.sym_type (.type g.1 g.2) .type0 rfl ?_ ⟨rfl, fun _ => rfl⟩ (fun _ => vtt M) (fun _ => vtt M)
      simp only [KCtx.symbolType, KCtx.typeKind, hk, List.foldr_nil]
    · exact bool_small h

section

include hR hA

mutual

theorem small_mem : ∀ t : Ty, SmallTy S t →
    M.mem ((kernelFrame h L).ty (typeMeaning M L tv ρ) t) (vtype0 M)
  | .bool, _ => bool_small h
  | .data d as, hs => by
    obtain ⟨ks, hd, hs⟩ := hs
    obtain ⟨g, hg, hk⟩ := hR.datatype d ks hd
    have hks := mapM_kinds hk
    have h1 : M.mem (M.sym (.type g.1 g.2)) (eval M ρ (fun _ => vtt M) ((K.paramKinds g).foldr Term.pi .type0)) := by
      refine h.sym_type (.type g.1 g.2) _ rfl rfl ⟨?_, fun i => ?_⟩ _ _
      · show Term.escapesAt 0 _ = false
        rw [KCtx.typeKind, kinds_escape _ _ _ hks]
        rfl
      · rw [KCtx.typeKind, kinds_hasVar _ _ _ hks]
        rfl
    have h2 := peel h ρ .type0 _ _ _ _ (small_args as ks _ hs hk) h1
    show M.mem ((kernelFrame h L).data d _) _
    simp only [kernelFrame, hg]
    exact h2
  | .fn as r, hs => small_fn as r hs.1 (small_mem r hs.2)
  | .tvar n, _ => param_small h L hR hA n
  | .arb n, _ => param_small h L hR hA n
  | .type0, hs => hs.elim
  | .constraint _, hs => hs.elim

theorem small_fn : ∀ (as : List Ty) (r : Ty), SmallTys S as →
    M.mem ((kernelFrame h L).ty (typeMeaning M L tv ρ) r) (vtype0 M) →
    M.mem ((kernelFrame h L).fnN ((kernelFrame h L).tys (typeMeaning M L tv ρ) as)
      ((kernelFrame h L).ty (typeMeaning M L tv ρ) r)) (vtype0 M)
  | [], _, _, hr => hr
  | a :: as, r, hs, hr => h.pi_small _ _ (small_mem a hs.1) fun _ _ => small_fn as r hs.2 hr

theorem small_args : ∀ (as : List Ty) (ks : List (Option String)) (Ks : List Term), SmallArgs S as ks →
    ks.mapM (paramKind L) = some Ks →
    InKinds M ((kernelFrame h L).tys (typeMeaning M L tv ρ) as) Ks
  | [], [], Ks, _, e => by
    simp only [List.mapM_nil, Option.pure_def, Option.some.injEq] at e
    subst e
    trivial
  | [], _ :: _, _, hs, _ => hs.elim
  | _ :: _, [], _, hs, _ => hs.elim
  | a :: as, k :: ks, Ks, hs, e => by
    obtain ⟨h1, h2, h3⟩ := hs
    simp only [List.mapM_cons, Option.bind_eq_bind, Option.pure_def] at e
    obtain ⟨k', hk, e⟩ := Option.bind_eq_some_iff.1 e
    obtain ⟨ks', hks, e⟩ := Option.bind_eq_some_iff.1 e
    cases e
    refine ⟨?_, small_args as ks ks' h3 hks⟩
    cases k with
    | none =>
      cases hk
      exact ⟨_, rfl, rfl, small_mem a h1⟩
    | some c =>
      obtain ⟨g, hg, hm⟩ := hA.inClass a c (h2 c rfl)
      simp only [paramKind, hg, Option.map_some, Option.some.injEq] at hk
      exact ⟨_, hk.symm, rfl, hm⟩

end

end

/-! ### Constants -/

theorem eval_convert (ρ : Nat → M.D) (n : Nat) (t : Term) : ∀ (d : Nat) (β : Nat → M.D),
    eval M ρ β (t.convertFreeToBoundAt n d) =
      eval M (fun i => if i < n then β (d + n - 1 - i) else ρ i) (fun i => if d ≤ i then β (i + n) else β i) t := by
  induction t with
  | atom a =>
    intro d β
    cases a with
    | fvar i =>
      simp only [Term.convertFreeToBoundAt, eval]
      split <;> rfl
    | bvar i =>
      simp only [Term.convertFreeToBoundAt, eval]
      split <;> rfl
    | sym s => rfl
  | app f a ihf iha => intro d β; simp only [Term.convertFreeToBoundAt, eval, ihf, iha]
  | bind b ty body ih1 ih2 =>
    intro d β
    simp only [Term.convertFreeToBoundAt, eval, ih1, ih2]
    congr 1
    funext x
    congr 1
    · funext i
      split
      · rename_i hi
        rw [show d + 1 + n - 1 - i = (d + n - 1 - i) + 1 by omega]
        rfl
      · rfl
    · funext i
      cases i with
      | zero => rfl
      | succ i =>
        simp only [push, Nat.add_le_add_iff_right]
        split
        · rw [show i + 1 + n = (i + n) + 1 by omega]
        · rfl

theorem convert_kind {k : Term} (hk : KindTerm k) (n : Nat) : k.convertFreeToBound n = k := by
  obtain ⟨s, rfl, _⟩ := hk
  unfold Term.convertFreeToBound
  split <;> rfl

theorem telescope_kinds (C : Term) : ∀ (ks : List Term) (i : Nat), (∀ k ∈ ks, KindTerm k) →
    (ks.zipIdx i).foldr (fun b acc => Term.pi (b.1.convertFreeToBound b.2) acc) C = ks.foldr Term.pi C
  | [], _, _ => rfl
  | k :: ks, i, hk => by
    simp only [List.zipIdx_cons, List.foldr_cons]
    rw [convert_kind (hk k (by simp)), telescope_kinds C ks (i + 1) fun k hk' => hk k (by simp [hk'])]

theorem apply_escape (d : Nat) : ∀ (as : List Term) (f : Term), (∀ a ∈ as, a.escapesAt d = false) →
    f.escapesAt d = false → (f.apply as).escapesAt d = false
  | [], f, _, hf => hf
  | a :: as, f, ha, hf => by
    show ((Term.app f a).apply as).escapesAt d = false
    exact apply_escape d as _ (fun b hb => ha b (by simp [hb])) (by simp [Term.escapesAt, hf, ha a (by simp)])

theorem apply_hasVar (i : Nat) : ∀ (as : List Term) (f : Term), (f.apply as).hasVar i = true →
    f.hasVar i = true ∨ ∃ a ∈ as, a.hasVar i = true
  | [], f, hf => .inl hf
  | a :: as, f, hf => by
    rcases apply_hasVar i as (.app f a) hf with h1 | ⟨b, hb, h1⟩
    · simp only [Term.hasVar, Term.atoms, List.any_append, Bool.or_eq_true] at h1
      rcases h1 with h1 | h1
      · exact .inl h1
      · exact .inr ⟨a, by simp, h1⟩
    · exact .inr ⟨b, by simp [hb], h1⟩

theorem pis_escape (r : Term) : ∀ (as : List Term) , (∀ d, ∀ a ∈ as, a.escapesAt d = false) →
    (∀ d, r.escapesAt d = false) → ∀ d, (as.foldr Term.pi r).escapesAt d = false
  | [], _, hr, d => hr d
  | a :: as, ha, hr, d => by
    simp only [List.foldr_cons, Term.escapesAt, Bool.or_eq_false_iff]
    exact ⟨ha d a (by simp), pis_escape r as (fun d b hb => ha d b (by simp [hb])) hr (d + 1)⟩

theorem pis_hasVar (i : Nat) (r : Term) : ∀ (as : List Term), (as.foldr Term.pi r).hasVar i = true →
    r.hasVar i = true ∨ ∃ a ∈ as, a.hasVar i = true
  | [], hr => .inl hr
  | a :: as, ha => by
    simp only [List.foldr_cons, Term.hasVar, Term.atoms, List.any_append, Bool.or_eq_true] at ha
    rcases ha with h1 | h1
    · exact .inr ⟨a, by simp, h1⟩
    · rcases pis_hasVar i r as h1 with h1 | ⟨b, hb, h1⟩
      · exact .inl h1
      · exact .inr ⟨b, by simp [hb], h1⟩

mutual

theorem lowerType_closed {L : Tables} (tv : List (String × Nat)) : ∀ (t : Ty) (T : Term), lowerType L tv t = some T →
    (∀ d, T.escapesAt d = false) ∧ ∀ i, T.hasVar i = true → ∃ n, tv.lookup n = some i
  | .bool, T, e => by cases e; exact ⟨fun _ => rfl, fun i hi => by cases hi⟩
  | .data d as, T, e => by
    simp only [lowerType, Option.bind_eq_bind, Option.pure_def] at e
    obtain ⟨g, hg, e⟩ := Option.bind_eq_some_iff.1 e
    obtain ⟨Ts, hTs, e⟩ := Option.bind_eq_some_iff.1 e
    cases e
    have ih := lowerTypes_closed tv as Ts hTs
    refine ⟨fun d => apply_escape d _ _ (fun a ha => (ih a ha).1 d) rfl, fun i hi => ?_⟩
    rcases apply_hasVar i _ _ hi with h1 | ⟨a, ha, h1⟩
    · cases h1
    · exact (ih a ha).2 i h1
  | .fn as r, T, e => by
    simp only [lowerType, Option.bind_eq_bind, Option.pure_def] at e
    obtain ⟨Ts, hTs, e⟩ := Option.bind_eq_some_iff.1 e
    obtain ⟨R, hR, e⟩ := Option.bind_eq_some_iff.1 e
    cases e
    have ih := lowerTypes_closed tv as Ts hTs
    have ih2 := lowerType_closed tv r R hR
    refine ⟨pis_escape _ _ (fun d a ha => (ih a ha).1 d) ih2.1, fun i hi => ?_⟩
    rcases pis_hasVar i _ _ hi with h1 | ⟨a, ha, h1⟩
    · exact ih2.2 i h1
    · exact (ih a ha).2 i h1
  | .tvar n, T, e => by
    simp only [lowerType, Option.map_eq_some_iff] at e
    obtain ⟨i, hi, e⟩ := e
    subst e
    refine ⟨fun _ => rfl, fun j hj => ⟨n, ?_⟩⟩
    simp [Term.hasVar, Term.atoms] at hj
    rw [hi, hj]
  | .arb n, T, e => by
    simp only [lowerType] at e
    split at e
    · rename_i i hi
      cases e
      refine ⟨fun _ => rfl, fun j hj => ⟨n, ?_⟩⟩
      simp [Term.hasVar, Term.atoms] at hj
      rw [hi, hj]
    · obtain ⟨g, hg, e⟩ := Option.map_eq_some_iff.1 e
      subst e
      exact ⟨fun _ => rfl, fun i hi => by cases hi⟩
  | .type0, T, e => by cases e; exact ⟨fun _ => rfl, fun i hi => by cases hi⟩
  | .constraint c, T, e => by
    simp only [lowerType, Option.map_eq_some_iff] at e
    obtain ⟨g, hg, e⟩ := e
    subst e
    exact ⟨fun _ => rfl, fun i hi => by cases hi⟩

theorem lowerTypes_closed {L : Tables} (tv : List (String × Nat)) : ∀ (ts : List Ty) (Ts : List Term),
    lowerTypes L tv ts = some Ts →
    ∀ T ∈ Ts, (∀ d, T.escapesAt d = false) ∧ ∀ i, T.hasVar i = true → ∃ n, tv.lookup n = some i
  | [], Ts, e => by cases e; simp
  | t :: ts, Ts, e => by
    simp only [lowerTypes, Option.bind_eq_bind, Option.pure_def] at e
    obtain ⟨T, hT, e⟩ := Option.bind_eq_some_iff.1 e
    obtain ⟨Ts', hTs, e⟩ := Option.bind_eq_some_iff.1 e
    cases e
    intro T' hT'
    rcases List.mem_cons.1 hT' with rfl | hT'
    · exact lowerType_closed tv t _ hT
    · exact lowerTypes_closed tv ts _ hTs _ hT'

end

theorem lookup_zip_range {n : String} {i : Nat} : ∀ (ns : List String) (k : Nat),
    (ns.zip (List.range' k ns.length)).lookup n = some i → k ≤ i ∧ i < k + ns.length ∧ ns[i - k]? = some n
  | [], k, e => by cases e
  | m :: ns, k, e => by
    simp only [List.length_cons, List.range'_succ, List.zip_cons_cons, List.lookup_cons] at e
    split at e
    · rename_i hm
      have hm := beq_iff_eq.1 hm
      cases e
      subst hm
      simp
    · obtain ⟨h1, h2, h3⟩ := lookup_zip_range ns (k + 1) e
      refine ⟨by omega, by simp only [List.length_cons]; omega, ?_⟩
      rw [show i - k = (i - (k + 1)) + 1 by omega]
      simpa using h3

theorem typeVarMap_lookup {ns : List String} {n : String} {i : Nat} (e : (typeVarMap ns).lookup n = some i) :
    i < ns.length ∧ ns[i]? = some n := by
  unfold typeVarMap at e
  rw [List.range_eq_range'] at e
  have := lookup_zip_range ns 0 e
  simpa using this.2

theorem lookup_zip_range_mem {n : String} : ∀ (ns : List String) (k : Nat), n ∈ ns →
    ∃ i, (ns.zip (List.range' k ns.length)).lookup n = some i
  | m :: ns, k, hn => by
    simp only [List.length_cons, List.range'_succ, List.zip_cons_cons, List.lookup_cons]
    split
    · exact ⟨_, rfl⟩
    · rename_i hm
      rcases List.mem_cons.1 hn with rfl | hn
      · simp at hm
      · exact lookup_zip_range_mem ns (k + 1) hn

theorem typeVarMap_mem {ns : List String} {n : String} (hn : n ∈ ns) : ∃ i, (typeVarMap ns).lookup n = some i := by
  unfold typeVarMap
  rw [List.range_eq_range']
  exact lookup_zip_range_mem ns 0 hn

theorem typeVarMap_none {ns : List String} {n : String} (hn : n ∉ ns) : (typeVarMap ns).lookup n = none := by
  cases e : (typeVarMap ns).lookup n with
  | none => rfl
  | some i =>
    have := (typeVarMap_lookup e).2
    exact absurd (List.mem_of_getElem? this) hn

theorem lookup_zip_get {α : Type u} {n : String} : ∀ (ns : List String) (xs : List α) (i : Nat) (x : α), ns.Nodup →
    ns[i]? = some n → xs[i]? = some x → (ns.zip xs).lookup n = some x
  | [], _, i, _, _, e, _ => by simp at e
  | _ :: _, [], i, _, _, _, e => by simp at e
  | m :: ns, y :: xs, 0, x, _, e, e' => by
    simp only [List.getElem?_cons_zero, Option.some.injEq] at e e'
    subst e e'
    simp
  | m :: ns, y :: xs, i + 1, x, hn, e, e' => by
    simp only [List.getElem?_cons_succ] at e e'
    simp only [List.zip_cons_cons, List.lookup_cons]
    have hne : (n == m) = false := by
      cases hb : n == m with
      | false => rfl
      | true =>
        have := beq_iff_eq.1 hb
        subst this
        exact absurd (List.mem_of_getElem? e) (List.nodup_cons.1 hn).1
    rw [hne]
    exact lookup_zip_get ns xs i x (List.nodup_cons.1 hn).2 e e'

theorem zip_meanings {F : Frame.{u}} (θ : String → F.T) : ∀ (ns : List String) (ps : List Ty),
    meanings F θ (ns.zip ps) = ns.zip (F.tys θ ps)
  | [], _ => by simp [meanings]
  | _ :: _, [] => by simp [meanings, Frame.tys]
  | n :: ns, p :: ps => by
    have := zip_meanings θ ns ps
    simp only [meanings] at this
    simp [meanings, Frame.tys, this]

theorem tys_getD {F : Frame.{u}} (θ : String → F.T) (d : F.T) : ∀ (ps : List Ty) (i : Nat), i < ps.length →
    (F.tys θ ps)[i]? = some ((F.tys θ ps).getD i d)
  | p :: ps, 0, _ => by simp [Frame.tys]
  | p :: ps, i + 1, hi => by
    simp only [List.length_cons] at hi
    simp only [Frame.tys, List.getElem?_cons_succ, List.getD_cons_succ]
    exact tys_getD θ d ps i (by omega)

theorem smallArgs_length {S : Theory} : ∀ {as : List Ty} {ks : List (Option String)}, SmallArgs S as ks →
    as.length = ks.length
  | [], [], _ => rfl
  | [], _ :: _, hs => hs.elim
  | _ :: _, [], hs => hs.elim
  | _ :: as, _ :: ks, hs => by simp [smallArgs_length hs.2.2]

theorem mapM_snd {L : Tables} : ∀ (params : List (String × Option String)),
    params.mapM (fun p => paramKind L p.2) = (params.map (·.2)).mapM (paramKind L)
  | [] => rfl
  | p :: ps => by simp [List.mapM_cons, mapM_snd ps]

theorem mapM_length' {L : Tables} : ∀ {os : List (Option String)} {ks : List Term},
    os.mapM (paramKind L) = some ks → ks.length = os.length
  | [], ks, e => by
    simp only [List.mapM_nil, Option.pure_def, Option.some.injEq] at e
    subst e
    rfl
  | o :: os, ks, e => by
    simp only [List.mapM_cons, Option.bind_eq_bind, Option.pure_def] at e
    obtain ⟨k, hk, e⟩ := Option.bind_eq_some_iff.1 e
    obtain ⟨ks', hks, e⟩ := Option.bind_eq_some_iff.1 e
    cases e
    simp [mapM_length' hks]

theorem convert_escape (n : Nat) (t : Term) : ∀ d, t.escapesAt d = false →
    (t.convertFreeToBoundAt n d).escapesAt (d + n) = false := by
  induction t with
  | atom a =>
    intro d e
    cases a with
    | fvar i =>
      simp only [Term.convertFreeToBoundAt]
      split
      · simp only [Term.escapesAt, decide_eq_false_iff_not]
        omega
      · rfl
    | bvar i =>
      simp only [Term.escapesAt, decide_eq_false_iff_not] at e
      simp only [Term.convertFreeToBoundAt]
      rw [if_neg (by omega)]
      simp only [Term.escapesAt, decide_eq_false_iff_not]
      omega
    | sym s => rfl
  | app f a ihf iha =>
    intro d e
    simp only [Term.escapesAt, Bool.or_eq_false_iff] at e
    simp [Term.convertFreeToBoundAt, Term.escapesAt, ihf d e.1, iha d e.2]
  | bind b ty body ih1 ih2 =>
    intro d e
    simp only [Term.escapesAt, Bool.or_eq_false_iff] at e
    have := ih2 (d + 1) e.2
    rw [show d + 1 + n = d + n + 1 by omega] at this
    simp [Term.convertFreeToBoundAt, Term.escapesAt, ih1 d e.1, this]

theorem convert_hasVar (n : Nat) (t : Term) (i : Nat) : ∀ d, (t.convertFreeToBoundAt n d).hasVar i = true →
    t.hasVar i = true ∧ n ≤ i := by
  induction t with
  | atom a =>
    intro d e
    cases a with
    | fvar j =>
      simp only [Term.convertFreeToBoundAt] at e
      split at e
      · simp [Term.hasVar, Term.atoms] at e
      · simp [Term.hasVar, Term.atoms] at e ⊢
        exact ⟨e, by omega⟩
    | bvar j =>
      simp only [Term.convertFreeToBoundAt] at e
      split at e <;> simp [Term.hasVar, Term.atoms] at e
    | sym s => simp [Term.convertFreeToBoundAt, Term.hasVar, Term.atoms] at e
  | app f a ihf iha =>
    intro d e
    simp only [Term.convertFreeToBoundAt, Term.hasVar, Term.atoms, List.any_append, Bool.or_eq_true] at e ihf iha ⊢
    rcases e with e | e
    · exact ⟨.inl (ihf d e).1, (ihf d e).2⟩
    · exact ⟨.inr (iha d e).1, (iha d e).2⟩
  | bind b ty body ih1 ih2 =>
    intro d e
    simp only [Term.convertFreeToBoundAt, Term.hasVar, Term.atoms, List.any_append, Bool.or_eq_true] at e ih1 ih2 ⊢
    rcases e with e | e
    · exact ⟨.inl (ih1 d e).1, (ih1 d e).2⟩
    · exact ⟨.inr (ih2 (d + 1) e).1, (ih2 (d + 1) e).2⟩

include hR hA in
/-- The symbol of a constant, applied to type arguments, is an element of the type of the instance. -/
theorem const_mem {n : String} {params : List (String × Option String)} {g : Ty} {ps : List Ty}
    (hn : S.const n = some (params, g)) (hp : SmallArgs S ps (params.map (·.2))) :
    M.mem (constMeaning M L n ((kernelFrame h L).tys (typeMeaning M L tv ρ) ps))
      ((kernelFrame h L).ty (typeMeaning M L tv ρ) (g.instantiate ((params.map (·.1)).zip ps))) := by
  obtain ⟨hnd, s, T, hs, hk, hT, hty⟩ := hR.const n params g hn
  simp only [constMeaning, hs]
  unfold registeredType at hT
  have hlen := smallArgs_length hp
  split at hT
  · rename_i he
    have he := List.isEmpty_iff.1 he
    subst he
    cases ps with
    | cons _ _ => exact hp.elim
    | nil =>
      have hc := lowerType_closed [] g T hT
      have hg : T.Ground := ⟨hc.1 0, fun i => by
        cases hv : T.hasVar i with
        | false => rfl
        | true => obtain ⟨m, hm⟩ := hc.2 i hv; cases hm⟩
      have h1 := h.sym_type s T hk hty hg ρ (fun _ => vtt M)
      rw [eval_lowerType h L [] ρ g T hT] at h1
      rw [ty_instantiate (F := kernelFrame h L) (typeMeaning M L tv ρ)]
      rw [ty_congr (F := kernelFrame h L) (θ' := typeMeaning M L [] ρ)]
      · exact h1
      · intro m hm
        have := (hA.apart n _ g hn m hm).resolve_left (by simp)
        show typeMeaning M L tv ρ m = _
        simp only [typeMeaning, this, List.lookup_nil]
  · rename_i he
    simp only [Option.bind_eq_bind, Option.pure_def] at hT
    obtain ⟨ks, hks, hT⟩ := Option.bind_eq_some_iff.1 hT
    obtain ⟨B, hB, hT⟩ := Option.bind_eq_some_iff.1 hT
    cases hT
    rw [mapM_snd] at hks
    have hkk := mapM_kinds hks
    have hkl := mapM_length' hks
    simp only [piFromTelescope] at hty
    rw [telescope_kinds _ _ _ hkk] at hty
    have hB' := lowerType_closed _ g B hB
    have hne : ks.length ≠ 0 := by
      rw [hkl]
      intro h0
      apply he
      simp only [List.length_map, List.length_eq_zero_iff] at h0
      rw [h0]
      rfl
    have hconv : B.convertFreeToBound ks.length = B.convertFreeToBoundAt ks.length 0 := by
      unfold Term.convertFreeToBound
      rw [if_neg hne]
    rw [hconv] at hty
    have hg : (ks.foldr Term.pi (B.convertFreeToBoundAt ks.length 0)).Ground := by
      refine ⟨?_, fun i => ?_⟩
      · show Term.escapesAt 0 _ = false
        rw [kinds_escape _ _ _ hkk]
        exact convert_escape _ _ 0 (hB'.1 0)
      · rw [kinds_hasVar _ _ _ hkk]
        cases hv : (B.convertFreeToBoundAt ks.length 0).hasVar i with
        | false => rfl
        | true =>
          obtain ⟨h1, h2⟩ := convert_hasVar _ _ _ _ hv
          obtain ⟨m, hm⟩ := hB'.2 i h1
          have := (typeVarMap_lookup hm).1
          simp only [List.length_map] at this hkl
          omega
    have h1 := h.sym_type s _ hk hty hg ρ (fun _ => vtt M)
    have h2 := peel h ρ _ _ _ _ _ (small_args h L hR hA ps _ ks hp hks) h1
    rw [eval_convert, eval_lowerType h L _ _ g B hB] at h2
    rw [ty_instantiate (F := kernelFrame h L) (typeMeaning M L tv ρ),
      zip_meanings (F := kernelFrame h L) (typeMeaning M L tv ρ)]
    rw [ty_congr (F := kernelFrame h L) (θ' := typeMeaning M L (typeVarMap (params.map (·.1)))
      (fun i => if i < ks.length then
        pushN ((kernelFrame h L).tys (typeMeaning M L tv ρ) ps) (fun _ => vtt M) (0 + ks.length - 1 - i) else ρ i))]
    · exact h2
    · intro m hm
      by_cases hin : m ∈ params.map (·.1)
      · obtain ⟨i, hi⟩ := typeVarMap_mem hin
        obtain ⟨hlt, hget⟩ := typeVarMap_lookup hi
        simp only [List.length_map] at hlt hkl hlen
        have hl : ((kernelFrame h L).tys (typeMeaning M L tv ρ) ps).length = ks.length := by
          exact (tys_length (F := kernelFrame h L) (typeMeaning M L tv ρ) ps).trans (hlen.trans hkl.symm)
        have hz := lookup_zip_get _ _ i _ hnd hget
          (tys_getD (F := kernelFrame h L) (typeMeaning M L tv ρ) (vtt M) ps i (by omega))
        simp only [Frame.with_, hz, Option.getD_some, typeMeaning, hi]
        rw [if_pos (by omega), Nat.zero_add, ← hl]
        exact (pushN_lt _ _ _ i (by omega)).symm
      · have hout := (hA.apart n _ g hn m hm).resolve_left hin
        have hz : ((params.map (·.1)).zip ((kernelFrame h L).tys (typeMeaning M L tv ρ) ps)).lookup m = none :=
          lookup_zip_none hin
        refine Eq.trans (b := typeMeaning M L tv ρ m) ?_ ?_
        · simp only [Frame.with_, hz]
          rfl
        · simp only [typeMeaning, hout, typeVarMap_none hin]

end small
end Elab
end Acorn
