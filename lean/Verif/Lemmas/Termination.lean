import Verif.Spec.Termination
/-
Soundness of the termination checker.
-/
namespace Acorn.Termination
open Spec

universe u
variable {D : Type u} {lt : D → D → Prop} {ev : List D → Val → D} {name : Nat}

theorem traverse_app {map : List (Option Nat)} {strict : List Bool} {f : Val} {args : List Val}
    (hf : ∀ g as, f ≠ .app g as) :
    traverse name map strict (.app f args) =
      (if f.asName = some name then checkArgs map 0 strict args else traverse name map strict f).bind
        fun strict => traverseAll name map strict args := by
  rw [traverse]
  exact fun g as h => hf g as h

theorem checkArgs_spec {map : List (Option Nat)} (strict : List Bool) (k : Nat) (args : List Val)
    (strict' : List Bool) (h : checkArgs map k strict args = some strict') :
    strict'.length = strict.length ∧ ∀ i : Nat, strict'[i]? = some true →
      strict[i]? = some true ∧ ∃ j, args[i]? = some (.var j) ∧ k + i ≠ j ∧ map[j]? = some (some (k + i)) := by
  induction strict generalizing k args strict' with
  | nil =>
    rw [checkArgs] at h
    cases h
    simp
  | cons b strict ih =>
    cases args with
    | nil =>
      simp only [checkArgs, Option.map_eq_some_iff] at h
      obtain ⟨s, hs, rfl⟩ := h
      obtain ⟨h1, h2⟩ := ih _ _ _ hs
      refine ⟨by simp [h1], fun i hi => ?_⟩
      cases i with
      | zero => simp at hi
      | succ i =>
        obtain ⟨_, j, hj, _⟩ := h2 i (by simpa using hi)
        simp at hj
    | cons a args =>
      simp only [checkArgs, Option.bind_eq_some_iff, Option.map_eq_some_iff] at h
      obtain ⟨s, hs, s', hs', rfl⟩ := h
      obtain ⟨h1, h2⟩ := ih _ _ _ hs'
      refine ⟨by simp [h1], fun i hi => ?_⟩
      cases i with
      | zero =>
        simp only [List.getElem?_cons_zero, Option.some.injEq, Bool.and_eq_true] at hi
        obtain ⟨rfl, rfl⟩ := hi
        refine ⟨rfl, ?_⟩
        unfold strictSub at hs
        split at hs
        · rename_i j
          split at hs
          · rename_i hij
            simp only [Option.map_eq_some_iff, beq_iff_eq] at hs
            obtain ⟨x, hx, rfl⟩ := hs
            exact ⟨j, rfl, by simpa using hij, by simpa using hx⟩
          · cases hs
        · cases hs
      | succ i =>
        obtain ⟨a1, j, a2, a3, a4⟩ := h2 i (by simpa using hi)
        have e : k + 1 + i = k + (i + 1) := by omega
        rw [e] at a3 a4
        exact ⟨by simpa using a1, j, by simpa using a2, a3, a4⟩

/-- The substructure map is right about the first `n` levels. -/
structure MapOk (lt : D → D → Prop) (n : Nat) (env : List D) (map : List (Option Nat)) : Prop where
  len : map.length = env.length
  le : n ≤ env.length
  sub : ∀ j s : Nat, map[j]? = some (some s) → s < n → j ≠ s →
    ∀ x y, env[j]? = some x → env[s]? = some y → lt x y

theorem MapOk.extend {n : Nat} {env : List D} {map : List (Option Nat)} (h : MapOk lt n env map)
    (k : Nat) (ds : List D) (hd : ds.length = k) (sup : Option Nat)
    (hs : ∀ s, sup = some s → s < n → ∀ y, env[s]? = some y → ∀ d ∈ ds, lt d y) :
    MapOk lt n (env ++ ds) (map ++ List.replicate k sup) := by
  refine ⟨by simp [h.len, hd], by have := h.le; simp; omega, ?_⟩
  intro j s hj hsn hjs x y hx hy
  have hsl : s < env.length := by have := h.le; omega
  rw [List.getElem?_append_left hsl] at hy
  by_cases hjl : j < map.length
  · rw [List.getElem?_append_left hjl] at hj
    rw [List.getElem?_append_left (by rw [← h.len]; exact hjl)] at hx
    exact h.sub j s hj hsn hjs x y hx hy
  · rw [List.getElem?_append_right (by omega)] at hj
    rw [List.getElem?_append_right (by rw [← h.len]; omega)] at hx
    rw [List.getElem?_replicate] at hj
    split at hj
    · cases hj
      exact hs s rfl hsn y hy x (List.mem_of_getElem? hx)
    · cases hj

/-- A position still marked strict after a traversal shrinks in every call. -/
def Shrinks (lt : D → D → Prop) (env : List D) (strict : List Bool) (ys : List D) : Prop :=
  ∀ i : Nat, strict[i]? = some true → ∃ y x, ys[i]? = some y ∧ env[i]? = some x ∧ lt y x

/-- What a traversal from `strict` to `strict'` establishes, apart from calls. -/
def Less (strict strict' : List Bool) : Prop :=
  strict'.length = strict.length ∧ ∀ i : Nat, strict'[i]? = some true → strict[i]? = some true

theorem Less.refl (s : List Bool) : Less s s := ⟨rfl, fun _ h => h⟩

theorem Less.trans {a b c : List Bool} (h : Less a b) (h' : Less b c) : Less a c :=
  ⟨h'.1.trans h.1, fun i hi => h.2 i (h'.2 i hi)⟩

theorem Shrinks.less {env : List D} {a b : List Bool} {ys : List D} (h : Shrinks lt env a ys)
    (hl : Less a b) : Shrinks lt env b ys := fun i hi => h i (hl.2 i hi)

theorem calls_named {f : Val} (hf : f.asName = some name) {env p ys : List D}
    (h : Calls lt ev name env f p ys) : ys = p := by
  induction h with
  | call => rfl
  | tyApp _ ih => exact ih hf
  | _ => simp [Val.asName] at hf

theorem calls_uncurry {f : Val} {as bs : List Val} {env p ys : List D}
    (h : Calls lt ev name env (.app (.app f as) bs) p ys) :
    Calls lt ev name env (Val.apply f (as ++ bs)) p ys := by
  have key : Calls lt ev name env (.app f (as ++ bs)) p ys := by
    cases h with
    | fn h =>
      cases h with
      | fn h => exact .fn (by simpa using h)
      | arg ha h => exact .arg (List.mem_append.mpr (.inl ha)) h
    | arg ha h => exact .arg (List.mem_append.mpr (.inr ha)) h
  unfold Val.apply
  split
  · rename_i he
    simp only [List.isEmpty_iff] at he
    rw [he] at key
    cases key with
    | fn h => simpa using h
    | arg ha _ => simp at ha
  · exact key

/-- The claim about one traversed value. -/
def Sound (lt : D → D → Prop) (ev : List D → Val → D) (name n : Nat) (v : Val) : Prop :=
  ∀ map strict strict', traverse name map strict v = some strict' → Less strict strict' ∧
    (strict.length = n → ∀ env, MapOk lt n env map → ∀ p ys, Calls lt ev name env v p ys →
      Shrinks lt env strict' ys)

theorem Shrinks.prefix {env : List D} {ds : List D} {n : Nat} {strict : List Bool} (hl : strict.length = n)
    (hn : n ≤ env.length) {ys : List D} (h : Shrinks lt (env ++ ds) strict ys) : Shrinks lt env strict ys := by
  intro i hi
  obtain ⟨y, x, h1, h2, h3⟩ := h i hi
  have : i < strict.length := (List.getElem?_eq_some_iff.mp hi).1
  rw [List.getElem?_append_left (by omega)] at h2
  exact ⟨y, x, h1, h2, h3⟩

theorem replicate_false_shrinks (env ys : List D) (k : Nat) : Shrinks lt env (List.replicate k false) ys := by
  intro i hi
  rw [List.getElem?_replicate] at hi
  split at hi <;> simp at hi

theorem sound_all (hev : ∀ env (j : Nat) (x : D), env[j]? = some x → ev env (.var j) = x) (n N : Nat) :
    (∀ v : Val, v.size ≤ N → Sound lt ev name n v) ∧
    (∀ vs : List Val, Val.sizes vs ≤ N → ∀ map strict strict', traverseAll name map strict vs = some strict' →
      Less strict strict' ∧ (strict.length = n → ∀ env, MapOk lt n env map → ∀ v ∈ vs, ∀ p ys,
        Calls lt ev name env v p ys → Shrinks lt env strict' ys)) ∧
    (∀ cs : List (Nat × Val × Val), Val.caseSizes cs ≤ N → ∀ map strict sup strict',
      traverseCases name map strict sup cs = some strict' →
      Less strict strict' ∧ (strict.length = n → ∀ env, MapOk lt n env map → ∀ c ∈ cs, ∀ ds : List D,
        ds.length = c.1 → (∀ s, sup = some s → s < n → ∀ y, env[s]? = some y → ∀ d ∈ ds, lt d y) →
        ∀ p ys, Calls lt ev name (env ++ ds) c.2.1 p ys ∨ Calls lt ev name (env ++ ds) c.2.2 p ys →
        Shrinks lt env strict' ys)) := by
  induction N with
  | zero =>
    refine ⟨fun v hv => ?_, fun vs hvs => ?_, fun cs hcs => ?_⟩
    · have := v.size_pos; omega
    · cases vs with
      | nil =>
        intro map strict strict' h
        rw [traverseAll] at h
        cases h
        exact ⟨.refl _, by simp⟩
      | cons v vs => simp [Val.sizes] at hvs
    · cases cs with
      | nil =>
        intro map strict sup strict' h
        rw [traverseCases] at h
        cases h
        exact ⟨.refl _, by simp⟩
      | cons c cs => simp [Val.caseSizes] at hcs
  | succ N ih =>
    obtain ⟨ihv, ihs, ihc⟩ := ih
    refine ⟨fun v hv => ?_, fun vs hvs => ?_, fun cs hcs => ?_⟩
    · intro map strict strict' h
      have one : ∀ (w : Val), w.size ≤ N → ∀ strict strict' : List Bool, traverse name map strict w = some strict' → Less strict strict' ∧
          (strict.length = n → ∀ env, MapOk lt n env map → ∀ p ys, Calls lt ev name env w p ys →
            Shrinks lt env strict' ys) := fun w hw s s' he => ihv w hw map s s' he
      cases v with
      | var j =>
        rw [traverse] at h
        cases h
        exact ⟨.refl _, fun _ env _ p ys hc => nomatch hc⟩
      | bool b =>
        rw [traverse] at h
        cases h
        exact ⟨.refl _, fun _ env _ p ys hc => nomatch hc⟩
      | const m =>
        rw [traverse] at h
        cases h
        by_cases hm : m = name
        · rw [if_pos hm]
          refine ⟨⟨by simp, fun i hi => ?_⟩, fun _ env _ p ys _ => replicate_false_shrinks _ _ _⟩
          rw [List.getElem?_replicate] at hi
          split at hi <;> simp at hi
        · rw [if_neg hm]
          refine ⟨.refl _, fun _ env _ p ys hc => ?_⟩
          cases hc
          exact absurd rfl hm
      | tyApp f =>
        rw [traverse] at h
        simp only [Val.size] at hv
        obtain ⟨h1, h2⟩ := one f (by omega) _ _ h
        refine ⟨h1, fun hl env hm p ys hc => ?_⟩
        cases hc with
        | tyApp hc => exact h2 hl env hm _ _ hc
      | group f =>
        rw [traverse] at h
        simp only [Val.size] at hv
        obtain ⟨h1, h2⟩ := one f (by omega) _ _ h
        refine ⟨h1, fun hl env hm p ys hc => ?_⟩
        cases hc with
        | group hc => exact h2 hl env hm _ _ hc
      | not f =>
        rw [traverse] at h
        simp only [Val.size] at hv
        obtain ⟨h1, h2⟩ := one f (by omega) _ _ h
        refine ⟨h1, fun hl env hm p ys hc => ?_⟩
        cases hc with
        | not hc => exact h2 hl env hm _ _ hc
      | try_ f =>
        rw [traverse] at h
        simp only [Val.size] at hv
        obtain ⟨h1, h2⟩ := one f (by omega) _ _ h
        refine ⟨h1, fun hl env hm p ys hc => ?_⟩
        cases hc with
        | try_ hc => exact h2 hl env hm _ _ hc
      | binder k f =>
        rw [traverse] at h
        simp only [Val.size] at hv
        obtain ⟨h1, h2⟩ := ihv f (by omega) _ _ _ h
        refine ⟨h1, fun hl env hm p ys hc => ?_⟩
        cases hc with
        | binder hd hc =>
          exact (h2 hl _ (hm.extend k _ hd none (by simp)) _ _ hc).prefix (h1.1.trans hl) hm.le
      | binary a b =>
        simp only [traverse, Option.bind_eq_some_iff] at h
        obtain ⟨s1, e1, e2⟩ := h
        simp only [Val.size] at hv
        obtain ⟨h1, h2⟩ := one a (by omega) _ _ e1
        obtain ⟨h3, h4⟩ := one b (by omega) _ _ e2
        refine ⟨h1.trans h3, fun hl env hm p ys hc => ?_⟩
        cases hc with
        | binaryL hc => exact (h2 hl env hm _ _ hc).less h3
        | binaryR hc => exact h4 (h1.1.trans hl) env hm _ _ hc
      | ite a b c =>
        simp only [traverse, Option.bind_eq_some_iff] at h
        obtain ⟨s1, e1, s2, e2, e3⟩ := h
        simp only [Val.size] at hv
        obtain ⟨h1, h2⟩ := one a (by omega) _ _ e1
        obtain ⟨h3, h4⟩ := one b (by omega) _ _ e2
        obtain ⟨h5, h6⟩ := one c (by omega) _ _ e3
        refine ⟨(h1.trans h3).trans h5, fun hl env hm p ys hc => ?_⟩
        cases hc with
        | iteA hc => exact (h2 hl env hm _ _ hc).less (h3.trans h5)
        | iteB hc => exact (h4 (h1.1.trans hl) env hm _ _ hc).less h5
        | iteC hc => exact h6 ((h1.trans h3).1.trans hl) env hm _ _ hc
      | app f args =>
        by_cases hf : ∃ g as, f = .app g as
        · obtain ⟨g, as, rfl⟩ := hf
          rw [traverse] at h
          simp only [Val.size] at hv
          have hsz := Val.size_apply g (as ++ args)
          rw [Val.sizes_append] at hsz
          obtain ⟨h1, h2⟩ := one _ (by omega) _ _ h
          exact ⟨h1, fun hl env hm p ys hc => h2 hl env hm _ _ (calls_uncurry hc)⟩
        · have hf : ∀ g as, f ≠ .app g as := fun g as e => hf ⟨g, as, e⟩
          rw [traverse_app hf, Option.bind_eq_some_iff] at h
          obtain ⟨s1, e1, e2⟩ := h
          simp only [Val.size] at hv
          obtain ⟨h3, h4⟩ := ihs args (by omega) _ _ _ e2
          by_cases hn : f.asName = some name
          · rw [if_pos hn] at e1
            obtain ⟨hlen, hargs⟩ := checkArgs_spec _ _ _ _ e1
            have h1 : Less strict s1 := ⟨hlen, fun i hi => (hargs i hi).1⟩
            refine ⟨h1.trans h3, fun hl env hm p ys hc => ?_⟩
            cases hc with
            | fn hc =>
              have hys := calls_named hn hc
              subst hys
              intro i hi
              obtain ⟨_, j, hj, hij, hmap⟩ := hargs i (h3.2 i hi)
              rw [Nat.zero_add] at hij hmap
              have hin : i < n := by
                have := (List.getElem?_eq_some_iff.mp (h3.2 i hi)).1
                omega
              have hjl : j < env.length := by
                have := (List.getElem?_eq_some_iff.mp hmap).1
                rw [hm.len] at this
                exact this
              have hil : i < env.length := by have := hm.le; omega
              have ha : i < args.length := (List.getElem?_eq_some_iff.mp hj).1
              refine ⟨env[j], env[i], ?_, List.getElem?_eq_getElem hil, ?_⟩
              · rw [List.getElem?_append_left (by simpa using ha), List.getElem?_map, hj, Option.map_some,
                  hev env j env[j] (List.getElem?_eq_getElem hjl)]
              · exact hm.sub j i hmap hin (fun h => hij h.symm) _ _ (List.getElem?_eq_getElem hjl)
                  (List.getElem?_eq_getElem hil)
            | arg ha hc => exact h4 (h1.1.trans hl) env hm _ ha _ _ hc
          · rw [if_neg hn] at e1
            obtain ⟨h1, h2⟩ := one f (by omega) _ _ e1
            refine ⟨h1.trans h3, fun hl env hm p ys hc => ?_⟩
            cases hc with
            | fn hc => exact (h2 hl env hm _ _ hc).less h3
            | arg ha hc => exact h4 (h1.1.trans hl) env hm _ ha _ _ hc
      | match_ s cs =>
        simp only [traverse, Option.bind_eq_some_iff] at h
        obtain ⟨s1, e1, e2⟩ := h
        simp only [Val.size] at hv
        obtain ⟨h1, h2⟩ := one s (by omega) _ _ e1
        obtain ⟨h3, h4⟩ := ihc cs (by omega) _ _ _ _ e2
        have hsup : ∀ (env : List D) (ds : List D), (∀ d ∈ ds, lt d (ev env s)) →
            ∀ j, s.asVar = some j → j < n → ∀ y, env[j]? = some y → ∀ d ∈ ds, lt d y := by
          intro env ds hds j hj _ y hy d hd
          cases s <;> simp [Val.asVar] at hj
          subst hj
          have := hds d hd
          rwa [hev env _ y hy] at this
        refine ⟨h1.trans h3, fun hl env hm p ys hc => ?_⟩
        cases hc with
        | scrutinee hc => exact (h2 hl env hm _ _ hc).less h3
        | pattern hmem hd hlt hc =>
          exact h4 (h1.1.trans hl) env hm _ hmem _ hd (hsup env _ hlt) _ _ (.inl hc)
        | result hmem hd hlt hc =>
          exact h4 (h1.1.trans hl) env hm _ hmem _ hd (hsup env _ hlt) _ _ (.inr hc)
    · intro map strict strict' h
      cases vs with
      | nil =>
        rw [traverseAll] at h
        cases h
        exact ⟨.refl _, by simp⟩
      | cons v vs =>
        simp only [traverseAll, Option.bind_eq_some_iff] at h
        obtain ⟨s1, e1, e2⟩ := h
        simp only [Val.sizes] at hvs
        obtain ⟨h1, h2⟩ := ihv v (by omega) _ _ _ e1
        obtain ⟨h3, h4⟩ := ihs vs (by omega) _ _ _ e2
        refine ⟨h1.trans h3, fun hl env hm w hw p ys hc => ?_⟩
        rcases List.mem_cons.mp hw with rfl | hw
        · exact (h2 hl env hm _ _ hc).less h3
        · exact h4 (h1.1.trans hl) env hm w hw _ _ hc
    · intro map strict sup strict' h
      cases cs with
      | nil =>
        rw [traverseCases] at h
        cases h
        exact ⟨.refl _, by simp⟩
      | cons c cs =>
        obtain ⟨k, pt, rs⟩ := c
        simp only [traverseCases, Option.bind_eq_some_iff] at h
        obtain ⟨s1, e1, s2, e2, e3⟩ := h
        simp only [Val.caseSizes] at hcs
        obtain ⟨h1, h2⟩ := ihv pt (by omega) _ _ _ e1
        obtain ⟨h3, h4⟩ := ihv rs (by omega) _ _ _ e2
        obtain ⟨h5, h6⟩ := ihc cs (by omega) _ _ _ _ e3
        refine ⟨(h1.trans h3).trans h5, fun hl env hm c hc ds hd hs p ys hcall => ?_⟩
        rcases List.mem_cons.mp hc with rfl | hc
        · have hm' := hm.extend k ds hd sup hs
          rcases hcall with hcall | hcall
          · exact ((h2 hl _ hm' _ _ hcall).prefix (h1.1.trans hl) hm.le).less (h3.trans h5)
          · exact ((h4 (h1.1.trans hl) _ hm' _ _ hcall).prefix ((h1.trans h3).1.trans hl) hm.le).less h5
        · exact h6 ((h1.trans h3).1.trans hl) env hm c hc ds hd hs _ _ hcall

/-! ### No panic -/

theorem scopedAll_append {k : Nat} (as bs : List Val) : ScopedAll k (as ++ bs) ↔ ScopedAll k as ∧ ScopedAll k bs := by
  induction as with
  | nil => simp [ScopedAll]
  | cons a as ih => simp [ScopedAll, ih, and_assoc]

theorem scoped_apply {k : Nat} {f : Val} {args : List Val} (hf : Scoped k f) (ha : ScopedAll k args) :
    Scoped k (Val.apply f args) := by
  unfold Val.apply
  split
  · exact hf
  · simp only [Scoped]; exact ⟨hf, ha⟩

theorem checkArgs_total {map : List (Option Nat)} (strict : List Bool) (i : Nat) (args : List Val)
    (h : ScopedAll map.length args) : ∃ s, checkArgs map i strict args = some s := by
  induction strict generalizing i args with
  | nil => exact ⟨[], by rw [checkArgs]⟩
  | cons b strict ih =>
    cases args with
    | nil =>
      obtain ⟨s, hs⟩ := ih (i + 1) [] (by simp [ScopedAll])
      exact ⟨_, by rw [checkArgs, hs, Option.map_some]⟩
    | cons a args =>
      simp only [ScopedAll] at h
      obtain ⟨s, hs⟩ := ih (i + 1) args h.2
      obtain ⟨x, hx⟩ : ∃ x, strictSub map i a = some x := by
        unfold strictSub
        split
        · rename_i j
          simp only [Scoped] at h
          split
          · rw [List.getElem?_eq_getElem h.1, Option.map_some]
            exact ⟨_, rfl⟩
          · exact ⟨_, rfl⟩
        · exact ⟨_, rfl⟩
      exact ⟨_, by rw [checkArgs, hx, Option.bind_some, hs, Option.map_some]⟩

theorem total_all (N : Nat) :
    (∀ v : Val, v.size ≤ N → ∀ map strict, Scoped map.length v → ∃ s, traverse name map strict v = some s) ∧
    (∀ vs : List Val, Val.sizes vs ≤ N → ∀ map strict, ScopedAll map.length vs →
      ∃ s, traverseAll name map strict vs = some s) ∧
    (∀ cs : List (Nat × Val × Val), Val.caseSizes cs ≤ N → ∀ map strict sup, ScopedCases map.length cs →
      ∃ s, traverseCases name map strict sup cs = some s) := by
  induction N with
  | zero =>
    refine ⟨fun v hv => ?_, fun vs hvs => ?_, fun cs hcs => ?_⟩
    · have := v.size_pos; omega
    · cases vs with
      | nil => exact fun _ s _ => ⟨s, by rw [traverseAll]⟩
      | cons v vs => simp [Val.sizes] at hvs
    · cases cs with
      | nil => exact fun _ s _ _ => ⟨s, by rw [traverseCases]⟩
      | cons c cs => simp [Val.caseSizes] at hcs
  | succ N ih =>
    obtain ⟨ihv, ihs, ihc⟩ := ih
    refine ⟨fun v hv => ?_, fun vs hvs => ?_, fun cs hcs => ?_⟩
    · intro map strict hs
      cases v with
      | var j => exact ⟨_, by rw [traverse]⟩
      | bool b => exact ⟨_, by rw [traverse]⟩
      | const m => exact ⟨_, by rw [traverse]⟩
      | tyApp f =>
        simp only [Val.size] at hv; simp only [Scoped] at hs
        rw [traverse]; exact ihv f (by omega) _ _ hs
      | group f =>
        simp only [Val.size] at hv; simp only [Scoped] at hs
        rw [traverse]; exact ihv f (by omega) _ _ hs
      | not f =>
        simp only [Val.size] at hv; simp only [Scoped] at hs
        rw [traverse]; exact ihv f (by omega) _ _ hs
      | try_ f =>
        simp only [Val.size] at hv; simp only [Scoped] at hs
        rw [traverse]; exact ihv f (by omega) _ _ hs
      | binder k f =>
        simp only [Val.size] at hv; simp only [Scoped] at hs
        rw [traverse]; exact ihv f (by omega) _ _ (by simpa using hs)
      | binary a b =>
        simp only [Val.size] at hv; simp only [Scoped] at hs
        obtain ⟨s1, e1⟩ := ihv a (by omega) map strict hs.1
        rw [traverse, e1, Option.bind_some]; exact ihv b (by omega) _ _ hs.2
      | ite a b c =>
        simp only [Val.size] at hv; simp only [Scoped] at hs
        obtain ⟨s1, e1⟩ := ihv a (by omega) map strict hs.1
        obtain ⟨s2, e2⟩ := ihv b (by omega) map s1 hs.2.1
        rw [traverse, e1, Option.bind_some, e2, Option.bind_some]; exact ihv c (by omega) _ _ hs.2.2
      | app f args =>
        simp only [Val.size] at hv; simp only [Scoped] at hs
        by_cases hf : ∃ g as, f = .app g as
        · obtain ⟨g, as, rfl⟩ := hf
          simp only [Val.size] at hv; simp only [Scoped] at hs
          rw [traverse]
          have hsz := Val.size_apply g (as ++ args)
          rw [Val.sizes_append] at hsz
          exact ihv _ (by omega) _ _ (scoped_apply hs.1.1 ((scopedAll_append _ _).mpr ⟨hs.1.2, hs.2⟩))
        · have hf : ∀ g as, f ≠ .app g as := fun g as e => hf ⟨g, as, e⟩
          rw [traverse_app hf]
          by_cases hn : f.asName = some name
          · obtain ⟨s1, e1⟩ := checkArgs_total strict 0 args hs.2
            rw [if_pos hn, e1, Option.bind_some]; exact ihs args (by omega) _ _ hs.2
          · obtain ⟨s1, e1⟩ := ihv f (by omega) map strict hs.1
            rw [if_neg hn, e1, Option.bind_some]; exact ihs args (by omega) _ _ hs.2
      | match_ s cs =>
        simp only [Val.size] at hv; simp only [Scoped] at hs
        obtain ⟨s1, e1⟩ := ihv s (by omega) map strict hs.1
        rw [traverse, e1, Option.bind_some]; exact ihc cs (by omega) _ _ _ hs.2
    · intro map strict hs
      cases vs with
      | nil => exact ⟨strict, by rw [traverseAll]⟩
      | cons v vs =>
        simp only [Val.sizes] at hvs; simp only [ScopedAll] at hs
        obtain ⟨s1, e1⟩ := ihv v (by omega) map strict hs.1
        rw [traverseAll, e1, Option.bind_some]; exact ihs vs (by omega) _ _ hs.2
    · intro map strict sup hs
      cases cs with
      | nil => exact ⟨strict, by rw [traverseCases]⟩
      | cons c cs =>
        obtain ⟨k, pt, rs⟩ := c
        simp only [Val.caseSizes] at hcs; simp only [ScopedCases] at hs
        obtain ⟨s1, e1⟩ := ihv pt (by omega) (map ++ List.replicate k sup) strict (by simpa using hs.1)
        obtain ⟨s2, e2⟩ := ihv rs (by omega) (map ++ List.replicate k sup) s1 (by simpa using hs.2.1)
        rw [traverseCases, e1, Option.bind_some, e2, Option.bind_some]
        exact ihc cs (by omega) _ _ _ hs.2.2

end Acorn.Termination
