/-
C48: declared datatypes are what they say, and have models.
-/
import Verif.Lemmas.DatatypeParadox
import Verif.Lemmas.SetStructs
import Verif.Lemmas.Variance
namespace Acorn
open Elab Spec
open Spec.SetModel (S U)

universe u

/-! ### Examples -/

namespace DemoDatatypes

/-- `inductive Tree[A] { leaf, node(A, Tree[A]), many(Bool -> A, Bool -> Tree[A]) }`. -/
def tree : List Con :=
  [⟨"Tree.leaf", []⟩, ⟨"Tree.node", [.arb "A", .data "Tree" [.arb "A"]]⟩,
    ⟨"Tree.many", [.fn [.bool] (.arb "A"), .fn [.bool] (.data "Tree" [.arb "A"])]⟩]

/-- `structure Pair[A] { first: A, second: A -> Bool }`. -/
def pair : Struct := ⟨"Pair", "Pair.new", "Pair.constraint", [("Pair.first", .arb "A"), ("Pair.second", .fn [.arb "A"] .bool)]⟩

/-- `second(first)`. -/
def holds : Value := .app (.var 1 (.fn [.arb "A"] .bool)) [.var 0 (.arb "A")]

/-- `inductive Option[T] { none, some(T) }`. -/
def option : List Con := [⟨"Option.none", []⟩, ⟨"Option.some", [.arb "T"]⟩]

/-- `structure Set[K] { contains: K -> Bool }`. -/
def set : Struct := ⟨"Set", "Set.new", "Set.constraint", [("Set.contains", .fn [.arb "K"] .bool)]⟩

/-- `inductive Foo { mk(Set[Foo]) }`. -/
def foo : List Con := [⟨"Foo.mk", [.data "Set" [.data "Foo" []]]⟩]

/-- `structure Cont[A] { run: (A -> Bool) -> Bool }`. -/
def cont : Struct := ⟨"Cont", "Cont.new", "Cont.constraint", [("Cont.run", .fn [.fn [.arb "A"] .bool] .bool)]⟩

/-- `inductive Bar { mk(Cont[Bar]) }`. -/
def bar : List Con := [⟨"Bar.mk", [.data "Cont" [.data "Bar" []]]⟩]

/-- `inductive Stream { mk(Bool, Bool -> Stream) }`. -/
def stream : List Con := [⟨"Stream.mk", [.bool, .fn [.bool] (.data "Stream" [])]⟩]

/-- No datatypes. -/
noncomputable def none : String → List S → S := fun _ _ => ∅

theorem none_small : SmallData none := fun _ _ _ => SetModel.U_empty

end DemoDatatypes

open DemoDatatypes (tree pair)

/-! ### The facts of inductive types -/

section
variable {F : Frame.{u}} {C : String → List F.T → F.D}

/-- The generic form of a value, in which the given type parameters are variables, means what the value
means. -/
theorem C48_generic_form_keeps_meaning (θ : String → F.T) (env : List F.D) (params : List String) (v : Value)
    (h : EachConst (fun _ ps t => FullyApplied params ps t) v) :
    F.den C θ env (v.genericize params) = F.den C θ env v :=
  den_genericize θ env v (EachConst.mono (fun _ _ _ h θ => constGeneric_meaning θ (.inl h)) h)

/-- The facts of an inductive declaration say exactly that the type is freely generated by its
constructors. -/
theorem C48_inductive_facts_say_free (θ : String → F.T) {name : String} {params : List String} {cs : List Con}
    {facts : List Value} (hv : ∀ c ∈ cs, ∀ t ∈ c.args, ∀ p, t.hasVar p = false)
    (ht : ConsTyped F C θ name params cs) (e : inductiveFacts name params cs = some facts) :
    (∀ f ∈ facts, F.Holds C θ [] f) ↔ Freely F (F.data name (params.map θ)) (cs.map (conIn F C θ name params)) :=
  inductiveFacts_iff θ hv ht e

/-- An accepted declaration has facts: making them does not panic. -/
theorem C48_inductive_facts_exist {lookup : String → Option (List Variance)} {name : String} {params : List String}
    {cs : List Con} (h : acceptsInductive lookup name params cs = true) :
    ∃ facts, inductiveFacts name params cs = some facts :=
  inductiveFacts_some name params (by rintro rfl; simp [acceptsInductive] at h)

/-- The constant `induction` that a declaration defines says of a predicate: if it holds of a constructor's
value whenever it holds of the arguments of the type itself, it holds of every value. -/
theorem C48_induction_constant (θ : String → F.T) {name : String} {params : List String} {cs : List Con} {d : Value}
    (hv : ∀ c ∈ cs, ∀ t ∈ c.args, ∀ p, t.hasVar p = false)
    (e : inductionDef (selfType name params) params cs = some d) (p : F.D)
    (hp : F.mem p (F.fn (F.data name (params.map θ)) F.bool)) :
    F.app (F.den C θ [] d) p = F.tt ↔
      ((∀ c ∈ cs, ∀ xs, F.Fits xs (F.tys θ c.args) →
        (∀ (i : Nat) x, xs[i]? = some x → c.args[i]? = some (selfType name params) → F.app p x = F.tt) →
        F.app p (F.appN (C c.name (params.map θ)) xs) = F.tt) →
      ∀ x, F.mem x (F.data name (params.map θ)) → F.app p x = F.tt) :=
  inductionDef_iff θ hv e p hp

/-! ### The facts of structures -/

/-- The facts of a structure say exactly that its objects and the tuples of its fields correspond one to
one. -/
theorem C48_structure_facts_say_tuples (θ : String → F.T) {s : Struct} {params : List String}
    (hv : ∀ f ∈ s.fields, ∀ p, f.2.hasVar p = false) :
    (∀ f ∈ s.plainFacts params, F.Holds C θ [] f) ↔
      Tuples F (F.data s.name (params.map θ)) (F.tys θ s.types) (C s.new (params.map θ))
        (s.fields.map fun f => C f.1 (params.map θ)) :=
  Struct.plainFacts_iff θ hv

/-- The facts of a structure with a constraint, when `some` of the option type is injective and never
`none`, say exactly that its objects are the tuples of fields that meet the constraint, and that `new` gives
`some` of the object for these and `none` for others. -/
theorem C48_constrained_structure_facts (θ : String → F.T) {s : Struct} {params : List String}
    (hv : ∀ f ∈ s.fields, ∀ p, f.2.hasVar p = false) (c : Value)
    (hc : EachConst (fun _ ps t => FullyApplied params ps t) c)
    (hb : ∀ n ∈ boundNames c, n ∉ params ∧ ∀ f ∈ s.fields, n ∉ tyNames f.2) (o sm nn : String)
    (hinj : ∀ d e, F.mem d (F.data s.name (params.map θ)) → F.mem e (F.data s.name (params.map θ)) →
      F.app (C sm [F.data s.name (params.map θ)]) d = F.app (C sm [F.data s.name (params.map θ)]) e → d = e)
    (hne : ∀ d, F.mem d (F.data s.name (params.map θ)) →
      F.app (C sm [F.data s.name (params.map θ)]) d ≠ C nn [F.data s.name (params.map θ)]) :
    (∀ f ∈ s.constrainedFacts params c (some (o, sm, nn)), F.Holds C θ [] f) ↔
      (∀ xs, F.Fits xs (F.tys θ s.types) → F.appN (C s.constraintFn (params.map θ)) xs = F.den C θ xs c) ∧
      TuplesWith F (F.data s.name (params.map θ)) (F.tys θ s.types) (s.fields.map fun f => C f.1 (params.map θ))
        (fun xs => F.Holds C θ xs c) (C s.new (params.map θ)) (C sm [F.data s.name (params.map θ)])
        (C nn [F.data s.name (params.map θ)]) :=
  Struct.constrainedFacts_iff θ hv c hc hb o sm nn hinj hne

end

/-! ### Models -/

/-- An accepted inductive declaration in which the type occurs only directly, that is, with its own
parameters and not inside another datatype, has a model: whatever sets the other datatypes are, there are a
set for the type and functions for the constructors, of the declared types, for which all its facts hold;
all else stays as it is. -/
theorem C48_accepted_has_model_partial {data C : String → List S → S} (hs : SmallData data)
    {lookup : String → Option (List Variance)} {name : String} {params : List String} {cs : List Con}
    (ha : acceptsInductive lookup name params cs = true)
    (ho : ∀ c ∈ cs, ∀ t ∈ c.args, TyOver params t) (hd : ∀ c ∈ cs, ∀ t ∈ c.args, TyDirect name (params.map .arb) t)
    (hn : (cs.map (·.name)).Nodup) :
    ∃ data' C', SmallData data' ∧ (∀ d, d ≠ name → data' d = data d) ∧ (∀ n, n ∉ cs.map (·.name) → C' n = C n) ∧
      ∃ facts, inductiveFacts name params cs = some facts ∧ ∀ θ : String → S, (∀ p ∈ params, θ p ∈ U) →
        ConsTyped (setTypes data') C' θ name params cs ∧ ∀ f ∈ facts, (setTypes data').Holds C' θ [] f := by
  obtain ⟨facts, hfacts⟩ := C48_inductive_facts_exist ha
  refine ⟨declData data name params cs, declConst data name params cs C, Elab.declData_small hs,
    fun d h => Elab.declData_other h, fun n h => ?_, facts, hfacts, fun θ hθ => ?_⟩
  · funext ts
    rw [declConst, dif_neg]
    rintro ⟨i, c, hi, rfl⟩
    exact h (List.mem_map.2 ⟨c, List.mem_of_getElem? hi, rfl⟩)
  · obtain ⟨h1, h2⟩ := accepted_model (C := C) hs ha ho hd hn θ hθ
    exact ⟨h1, (inductiveFacts_iff (F := setTypes (declData data name params cs)) θ (fun c hc t ht p => noVar_of_over p (ho c hc t ht)) h1 hfacts).2 h2⟩

/-- A structure has a model: whatever sets the other datatypes are, there are a set for the type and
functions for its fields and its constructor, of the declared types, for which all its facts hold. -/
theorem C48_structure_has_model {data C : String → List S → S} (hs : SmallData data) {s : Struct} {params : List String}
    (ho : ∀ f ∈ s.fields, TyOver params f.2) (hf : ∀ f ∈ s.fields, TyFree s.name f.2)
    (hn : (s.new :: s.constraintFn :: s.fields.map (·.1)).Nodup) :
    ∃ data' C', SmallData data' ∧ (∀ d, d ≠ s.name → data' d = data d) ∧
      (∀ n, n ∉ s.new :: s.constraintFn :: s.fields.map (·.1) → C' n = C n) ∧
      ∀ θ : String → S, (∀ p ∈ params, θ p ∈ U) →
        (∀ f ∈ s.fields, C' f.1 (params.map θ) ∈ (setTypes data').fnN [data' s.name (params.map θ)] ((setTypes data').ty θ f.2)) ∧
        C' s.new (params.map θ) ∈ (setTypes data').fnN ((setTypes data').tys θ s.types) (data' s.name (params.map θ)) ∧
        ∀ f ∈ s.plainFacts params, (setTypes data').Holds C' θ [] f := by
  let P : List S → List S → Prop := fun _ _ => True
  let new : List S → S := fun ts => E0.lamN ((setTypes data).tys (paramsAre params ts) s.types) SetModel.tuple
  have hnew : ∀ θ : String → S, new (params.map θ) =
      E0.lamN ((setTypes (Struct.declData data s params P)).tys θ s.types) SetModel.tuple := fun θ => by
    rw [Struct.tys_decl ho hf θ]
  refine ⟨Struct.declData data s params P, Struct.declConst data C s params P new (fun _ => ∅),
    Struct.declData_small ho hs, fun d h => Struct.declData_other h, fun n h => Struct.declConst_other h, fun θ hθ => ⟨?_, ?_, ?_⟩⟩
  · exact Struct.member_typed ho hf hn θ
  · rw [show Struct.declConst data C s params P new (fun _ => ∅) s.new (params.map θ) = new (params.map θ) by
      rw [Struct.declConst, if_pos rfl], hnew θ, fnN_any]
    exact mem_lamN (F := E0) fun xs hx => (Struct.mem_decl ho hf θ).2 ⟨xs, rfl, hx, trivial⟩
  · refine (Struct.plainFacts_iff (F := setTypes (Struct.declData data s params P)) θ fun f hfs p => noVar_of_over p (ho f hfs)).2 ?_
    refine Struct.plain_model ho hf hn θ (fun xs hx => ?_) fun _ _ => trivial
    rw [hnew θ]
    exact appN_lamN (F := E0) hx

/-- A structure with a constraint has a model, when there is an option type: there are a set for the type and
functions for its fields, its constructor and its constraint, of the declared types, for which all its facts
hold. -/
theorem C48_constrained_structure_has_model {data C : String → List S → S} (hs : SmallData data) {s : Struct}
    {params : List String} (ho : ∀ f ∈ s.fields, TyOver params f.2) (hf : ∀ f ∈ s.fields, TyFree s.name f.2)
    (hn : (s.new :: s.constraintFn :: s.fields.map (·.1)).Nodup) {c : Value}
    (hc : EachConst (fun _ ps t => FullyApplied params ps t) c)
    (hb : ∀ n ∈ boundNames c, n ∉ params ∧ ∀ f ∈ s.fields, n ∉ tyNames f.2)
    (hk : ValueFree s.name (s.new :: s.constraintFn :: s.fields.map (·.1)) c) (hp : ∀ n ∈ typeNames c, n ∈ params)
    (hbool : ∀ θ : String → S, (∀ p ∈ params, θ p ∈ U) → ∀ xs, (setTypes data).Fits xs ((setTypes data).tys θ s.types) →
      (setTypes data).den C θ xs c ∈ SetModel.bool)
    {o sm nn : String} (hno : o ≠ s.name) (hsm : sm ∉ s.new :: s.constraintFn :: s.fields.map (·.1))
    (hnn : nn ∉ s.new :: s.constraintFn :: s.fields.map (·.1))
    (hopt : ∀ A ∈ U, C nn [A] ∈ data o [A] ∧ C sm [A] ∈ (setTypes data).fnN [A] (data o [A]) ∧
      Freely (setTypes data) (data o [A]) [⟨C nn [A], [], []⟩, ⟨C sm [A], [A], [False]⟩]) :
    ∃ data' C', SmallData data' ∧ (∀ d, d ≠ s.name → data' d = data d) ∧
      (∀ n, n ∉ s.new :: s.constraintFn :: s.fields.map (·.1) → C' n = C n) ∧
      ∀ θ : String → S, (∀ p ∈ params, θ p ∈ U) →
        (∀ f ∈ s.fields, C' f.1 (params.map θ) ∈ (setTypes data').fnN [data' s.name (params.map θ)] ((setTypes data').ty θ f.2)) ∧
        C' s.new (params.map θ) ∈
          (setTypes data').fnN ((setTypes data').tys θ s.types) (data' o [data' s.name (params.map θ)]) ∧
        C' s.constraintFn (params.map θ) ∈ (setTypes data').fnN ((setTypes data').tys θ s.types) SetModel.bool ∧
        ∀ f ∈ s.constrainedFacts params c (some (o, sm, nn)), (setTypes data').Holds C' θ [] f := by
  classical
  let P : List S → List S → Prop := fun ts xs => (setTypes data).Holds C (paramsAre params ts) xs c
  let D : List S → S := Struct.declData data s params P s.name
  let new : List S → S := fun ts => E0.lamN ((setTypes data).tys (paramsAre params ts) s.types)
    fun xs => if P ts xs then SetModel.app (C sm [D ts]) (SetModel.tuple xs) else C nn [D ts]
  let con : List S → S := fun ts => E0.lamN ((setTypes data).tys (paramsAre params ts) s.types)
    fun xs => (setTypes data).den C (paramsAre params ts) xs c
  have hsmall : SmallData (Struct.declData data s params P) := Struct.declData_small ho hs
  have hother : ∀ n, n ∉ s.new :: s.constraintFn :: s.fields.map (·.1) → Struct.declConst data C s params P new con n = C n :=
    fun n h => Struct.declConst_other h
  refine ⟨Struct.declData data s params P, Struct.declConst data C s params P new con, hsmall,
    fun d h => Struct.declData_other h, hother, fun θ hθ => ?_⟩
  have hts : ∀ t ∈ params.map θ, t ∈ U := by
    intro t ht
    obtain ⟨p, hp, rfl⟩ := List.mem_map.1 ht
    exact hθ p hp
  have hDU : D (params.map θ) ∈ U := hsmall s.name _ hts
  obtain ⟨hnone, hsome, hfree⟩ := hopt _ hDU
  have htys := Struct.tys_decl (data := data) (P := P) ho hf θ
  have hnewc : Struct.declConst data C s params P new con s.new (params.map θ) = new (params.map θ) := by
    rw [Struct.declConst, if_pos rfl]
  have hconc : Struct.declConst data C s params P new con s.constraintFn (params.map θ) = con (params.map θ) := by
    rw [Struct.declConst, if_neg, if_pos rfl]
    intro e
    simp [e] at hn
  have hden : ∀ xs, (setTypes (Struct.declData data s params P)).den (Struct.declConst data C s params P new con) θ xs c =
      (setTypes data).den C (paramsAre params (params.map θ)) xs c := by
    intro xs
    rw [den_free (fun d h => Struct.declData_other h) hother θ xs hk]
    exact den_congr (F := setTypes data) xs c fun n h => (paramsAre_map θ (hp n h)).symm
  have hPden : ∀ xs, P (params.map θ) xs ↔
      (setTypes (Struct.declData data s params P)).Holds (Struct.declConst data C s params P new con) θ xs c := by
    intro xs
    show (setTypes data).den C _ xs c = _ ↔ _ = _
    rw [hden]
  refine ⟨Struct.member_typed ho hf hn θ, ?_, ?_, ?_⟩
  · rw [hnewc, htys, fnN_any, Struct.declData_other hno]
    refine mem_lamN (F := E0) fun xs hx => ?_
    rw [← htys] at hx
    split
    · next h => exact (SetModel.mem_pi.1 hsome).2 _ ((Struct.mem_decl ho hf θ).2 ⟨xs, rfl, hx, h⟩)
    · exact hnone
  · rw [hconc, htys, fnN_any]
    refine mem_lamN (F := E0) fun xs hx => hbool _ (fun p _ => paramsAre_small hts p) xs ((fits_any _ _ _).2 hx)
  · have hsmc := hother sm hsm
    have hnnc := hother nn hnn
    have hfit : ∀ d, d ∈ D (params.map θ) → (setTypes data).Fits [d] [D (params.map θ)] := fun d hd => ⟨hd, trivial⟩
    refine (Struct.constrainedFacts_iff (F := setTypes (Struct.declData data s params P)) θ (fun f hfs p => noVar_of_over p (ho f hfs)) c hc hb o sm nn ?_ ?_).2 ⟨?_, ?_⟩
    · intro d e hd he h
      rw [hsmc] at h
      have := hfree.injective _ (List.mem_cons_of_mem _ (List.mem_singleton.2 rfl)) [d] [e] (hfit d hd) (hfit e he) h
      exact List.cons.inj this |>.1
    · intro d hd h
      rw [hsmc, hnnc] at h
      exact hfree.distinct 1 0 _ _ (by decide) rfl rfl [d] [] (hfit d hd) trivial h
    · intro xs hx
      rw [fits_any, htys] at hx
      rw [hconc, hden]
      exact appN_lamN (F := E0) hx
    · rw [show (fun xs => (setTypes (Struct.declData data s params P)).Holds (Struct.declConst data C s params P new con) θ xs c) =
        P (params.map θ) from funext fun xs => propext (hPden xs).symm, hsmc, hnnc]
      refine Struct.constrained_model ho hf hn θ _ _ fun xs hx => ?_
      rw [htys] at hx
      have e : E0.appN (new (params.map θ)) xs =
          if P (params.map θ) xs then SetModel.app (C sm [D (params.map θ)]) (SetModel.tuple xs) else C nn [D (params.map θ)] :=
        appN_lamN (F := E0) hx
      rw [e]
      exact ⟨fun h => if_pos h, fun h => if_neg h⟩

/-! ### Accepted declarations without a model -/

/-- The type parameter of a structure of predicates is contravariant, and an inductive type that is an
argument of the structure inside its own constructor is rejected. But an import does not copy the variances
of the structure, and in a module that imports it the declaration is accepted. Then its facts and those of
the structure cannot hold together, in any frame: there is an injection of the predicates over the type into
the type. -/
theorem C48_disagreement_imported_contravariant :
    paramVariance (fun _ => none) DemoDatatypes.set.types "K" = .negative ∧
    acceptsInductive (fun d => if d == "Set" then some [.negative] else none) "Foo" [] DemoDatatypes.foo = false ∧
    acceptsInductive (fun d => if d == "Set" then importVariances none (some [.negative]) else none) "Foo" []
      DemoDatatypes.foo = true ∧
    ∃ facts, inductiveFacts "Foo" [] DemoDatatypes.foo = some facts ∧
      ∀ (F : Frame.{u}) (C : String → List F.T → F.D),
        (∀ t, F.mem (C "Set.new" [t]) (F.fn (F.fn t F.bool) (F.data "Set" [t]))) →
        F.mem (C "Foo.mk" []) (F.fn (F.data "Set" [F.data "Foo" []]) (F.data "Foo" [])) →
        ¬ ∀ θ : String → F.T, (∀ f ∈ DemoDatatypes.set.plainFacts ["K"], F.Holds C θ [] f) ∧ ∀ f ∈ facts, F.Holds C θ [] f := by
  refine ⟨by decide +kernel, by decide +kernel, by decide +kernel, ?_⟩
  obtain ⟨facts, hf⟩ := inductiveFacts_some "Foo" [] (cs := DemoDatatypes.foo) (by decide)
  refine ⟨facts, hf, fun F C hset hmk h => ?_⟩
  obtain ⟨h1, h2⟩ := h fun _ => F.data "Foo" []
  have h1 := (Struct.plainFacts_iff (F := F) _ (by
    intro f hf p
    rcases List.mem_singleton.1 hf with rfl
    rfl)).1 h1
  have h2 := (inductiveFacts_iff (F := F) _ (by
    intro c hc t ht p
    rcases List.mem_singleton.1 hc with rfl
    rcases List.mem_singleton.1 ht with rfl
    rfl) (by
    intro c hc
    rcases List.mem_singleton.1 hc with rfl
    exact hmk) hf).1 h2
  have hnew : ∀ p, F.mem p (F.fn (F.data "Foo" []) F.bool) →
      F.mem (F.app (C "Set.new" [F.data "Foo" []]) p) (F.data "Set" [F.data "Foo" []]) :=
    fun p hp => F.mem_app _ _ _ _ (hset _) hp
  refine no_power (F := F) (F.data "Foo" []) (fun p => F.app (C "Foo.mk" []) (F.app (C "Set.new" [F.data "Foo" []]) p))
    (fun p hp => F.mem_app _ _ _ _ hmk (hnew p hp)) fun p q hp hq e => ?_
  have e := h2.injective _ (List.mem_singleton.2 rfl) [_] [_] ⟨hnew p hp, trivial⟩ ⟨hnew q hq, trivial⟩ e
  have hp' := h1.fields [p] ⟨hp, trivial⟩
  have hq' := h1.fields [q] ⟨hq, trivial⟩
  have e' : F.app (C "Set.new" [F.data "Foo" []]) p = F.app (C "Set.new" [F.data "Foo" []]) q := (List.cons.inj e).1
  have hpq : [p] = [q] := by
    rw [← hp', ← hq']
    show [F.app (C "Set.contains" _) (F.app (C "Set.new" _) p)] = [F.app (C "Set.contains" _) (F.app (C "Set.new" _) q)]
    exact congrArg (fun x => [F.app (C "Set.contains" [F.data "Foo" []]) x]) e'
  exact (List.cons.inj hpq).1

/-- The test asks for covariance, not for strict positivity, of the parameters of other datatypes. A structure
of predicates over predicates has a covariant parameter, and the inductive type that is an argument of this
structure inside its own constructor is accepted. But its facts and those of the structure cannot hold
together, in any frame. -/
theorem C48_disagreement_double_negation :
    paramVariance (fun _ => none) DemoDatatypes.cont.types "A" = .positive ∧
    acceptsInductive (fun d => if d == "Cont" then some [.positive] else none) "Bar" [] DemoDatatypes.bar = true ∧
    ∃ facts, inductiveFacts "Bar" [] DemoDatatypes.bar = some facts ∧
      ∀ (F : Frame.{u}) (C : String → List F.T → F.D),
        (∀ t, F.mem (C "Cont.new" [t]) (F.fn (F.fn (F.fn t F.bool) F.bool) (F.data "Cont" [t]))) →
        F.mem (C "Bar.mk" []) (F.fn (F.data "Cont" [F.data "Bar" []]) (F.data "Bar" [])) →
        ¬ ∀ θ : String → F.T, (∀ f ∈ DemoDatatypes.cont.plainFacts ["A"], F.Holds C θ [] f) ∧ ∀ f ∈ facts, F.Holds C θ [] f := by
  refine ⟨by decide +kernel, by decide +kernel, ?_⟩
  obtain ⟨facts, hf⟩ := inductiveFacts_some "Bar" [] (cs := DemoDatatypes.bar) (by decide)
  refine ⟨facts, hf, fun F C hset hmk h => ?_⟩
  obtain ⟨h1, h2⟩ := h fun _ => F.data "Bar" []
  have h1 := (Struct.plainFacts_iff (F := F) _ (by
    intro f hf p
    rcases List.mem_singleton.1 hf with rfl
    rfl)).1 h1
  have h2 := (inductiveFacts_iff (F := F) _ (by
    intro c hc t ht p
    rcases List.mem_singleton.1 hc with rfl
    rcases List.mem_singleton.1 ht with rfl
    rfl) (by
    intro c hc
    rcases List.mem_singleton.1 hc with rfl
    exact hmk) hf).1 h2
  have hnew : ∀ p, F.mem p (F.fn (F.fn (F.data "Bar" []) F.bool) F.bool) →
      F.mem (F.app (C "Cont.new" [F.data "Bar" []]) p) (F.data "Cont" [F.data "Bar" []]) :=
    fun p hp => F.mem_app _ _ _ _ (hset _) hp
  refine no_double_power (F := F) (F.data "Bar" [])
    (fun p => F.app (C "Bar.mk" []) (F.app (C "Cont.new" [F.data "Bar" []]) p))
    (fun p hp => F.mem_app _ _ _ _ hmk (hnew p hp)) fun p q hp hq e => ?_
  have e := h2.injective _ (List.mem_singleton.2 rfl) [_] [_] ⟨hnew p hp, trivial⟩ ⟨hnew q hq, trivial⟩ e
  have hp' := h1.fields [p] ⟨hp, trivial⟩
  have hq' := h1.fields [q] ⟨hq, trivial⟩
  have e' : F.app (C "Cont.new" [F.data "Bar" []]) p = F.app (C "Cont.new" [F.data "Bar" []]) q := (List.cons.inj e).1
  have hpq : [p] = [q] := by
    rw [← hp', ← hq']
    show [F.app (C "Cont.run" _) (F.app (C "Cont.new" _) p)] = [F.app (C "Cont.run" _) (F.app (C "Cont.new" _) q)]
    exact congrArg (fun x => [F.app (C "Cont.run" [F.data "Bar" []]) x]) e'
  exact (List.cons.inj hpq).1

/-- The test for a base case looks only for arguments of the type itself, so a type whose constructor takes
a function into the type is accepted, and its facts hold in a model where it has no value at all. -/
theorem C48_disagreement_no_base_case :
    acceptsInductive (fun _ => none) "Stream" [] DemoDatatypes.stream = true ∧
    ∃ facts, inductiveFacts "Stream" [] DemoDatatypes.stream = some facts ∧
      ∃ data C, SmallData data ∧ (∀ x, x ∉ data "Stream" []) ∧ ∀ θ : String → S,
        ConsTyped (setTypes data) C θ "Stream" [] DemoDatatypes.stream ∧ ∀ f ∈ facts, (setTypes data).Holds C θ [] f := by
  refine ⟨by decide +kernel, ?_⟩
  obtain ⟨facts, hf⟩ := inductiveFacts_some "Stream" [] (cs := DemoDatatypes.stream) (by decide)
  have hnone : ∀ xs, ¬ (setTypes DemoDatatypes.none).Fits xs [SetModel.bool, SetModel.pi SetModel.bool fun _ => ∅] := by
    intro xs hx
    match xs, hx with
    | [x, y], hx => exact ZFSet.notMem_empty _ ((SetModel.mem_pi.1 hx.2.1).2 _ hx.1)
  refine ⟨facts, hf, DemoDatatypes.none, fun _ _ => SetModel.lam SetModel.bool fun _ =>
    SetModel.lam (SetModel.pi SetModel.bool fun _ => ∅) fun _ => ∅, DemoDatatypes.none_small, fun x => ZFSet.notMem_empty x, fun θ => ?_⟩
  have ht : ConsTyped (setTypes DemoDatatypes.none) (fun _ _ => SetModel.lam SetModel.bool fun _ =>
      SetModel.lam (SetModel.pi SetModel.bool fun _ => ∅) fun _ => ∅) θ "Stream" [] DemoDatatypes.stream := by
    intro c hc
    rcases List.mem_singleton.1 hc with rfl
    refine SetModel.lam_mem_pi fun x hx => SetModel.lam_mem_pi fun y hy => ?_
    exact absurd ((SetModel.mem_pi.1 hy).2 x hx) (ZFSet.notMem_empty _)
  refine ⟨ht, (inductiveFacts_iff (F := setTypes DemoDatatypes.none) θ (by
    intro c hc t ht p
    rcases List.mem_singleton.1 hc with rfl
    rcases List.mem_cons.1 ht with rfl | ht
    · rfl
    · rcases List.mem_singleton.1 ht with rfl
      rfl) ht hf).2 ⟨?_, ?_, ?_, ?_⟩⟩
  · intro i j c d hij hi hj
    match i, j with
    | 0, 0 => exact absurd rfl hij
    | 0, j + 1 => cases hj
    | i + 1, _ => cases hi
  · intro c hc xs ys hx
    rcases List.mem_singleton.1 hc with rfl
    exact absurd hx (hnone xs)
  · exact fun d hd => absurd hd (ZFSet.notMem_empty d)
  · exact fun P _ d hd => absurd hd (ZFSet.notMem_empty d)

/-! ### The hypotheses are met -/

section

theorem DemoDatatypes.tree_over : ∀ c ∈ tree, ∀ t ∈ c.args, TyOver ["A"] t := by
  intro c hc t ht
  simp only [tree, List.mem_cons, List.not_mem_nil, or_false] at hc
  rcases hc with rfl | rfl | rfl <;> simp only [List.mem_cons, List.not_mem_nil, or_false] at ht
  · rcases ht with rfl | rfl <;> simp [TyOver, TyOverAll]
  · rcases ht with rfl | rfl <;> simp [TyOver, TyOverAll]

theorem DemoDatatypes.tree_direct : ∀ c ∈ tree, ∀ t ∈ c.args, TyDirect "Tree" (["A"].map .arb) t := by
  intro c hc t ht
  simp only [tree, List.mem_cons, List.not_mem_nil, or_false] at hc
  rcases hc with rfl | rfl | rfl <;> simp only [List.mem_cons, List.not_mem_nil, or_false] at ht
  · rcases ht with rfl | rfl <;> simp [TyDirect]
  · rcases ht with rfl | rfl <;> simp [TyDirect, TyDirectAll]

theorem DemoDatatypes.tree_model : ∃ data C, ∃ facts, inductiveFacts "Tree" ["A"] tree = some facts ∧
    ∀ θ : String → S, (∀ p ∈ ["A"], θ p ∈ U) → ConsTyped (setTypes data) C θ "Tree" ["A"] tree ∧
      ∀ f ∈ facts, (setTypes data).Holds C θ [] f := by
  obtain ⟨data, C, _, _, _, h⟩ := C48_accepted_has_model_partial (data := DemoDatatypes.none) (C := fun _ _ => ∅)
    DemoDatatypes.none_small (lookup := fun _ => Option.none) (name := "Tree") (params := ["A"]) (cs := tree) (by decide +kernel)
    DemoDatatypes.tree_over DemoDatatypes.tree_direct (by decide)
  exact ⟨data, C, h⟩

/-- Trees over the truth values: the hypotheses of the theorem on facts are met, and both sides are true. -/
example : ∃ (data C : String → List S → S) (facts : List Value), inductiveFacts "Tree" ["A"] tree = some facts ∧ facts.length = 7 ∧
    ConsTyped (setTypes data) C (fun _ => SetModel.bool) "Tree" ["A"] tree ∧
    (∀ f ∈ facts, (setTypes data).Holds C (fun _ => SetModel.bool) [] f) ∧
    Freely (setTypes data) (data "Tree" [SetModel.bool]) (tree.map (conIn (setTypes data) C (fun _ => SetModel.bool) "Tree" ["A"])) := by
  obtain ⟨data, C, facts, hf, h⟩ := DemoDatatypes.tree_model
  obtain ⟨h1, h2⟩ := h (fun _ => SetModel.bool) fun _ _ => SetModel.U_bool
  refine ⟨data, C, facts, hf, ?_, h1, h2, ?_⟩
  · have : (inductiveFacts "Tree" ["A"] tree).map List.length = some 7 := by decide +kernel
    rw [hf] at this
    exact Option.some.inj this
  · exact (C48_inductive_facts_say_free (F := setTypes data) _ (fun c hc t ht p =>
      noVar_of_over p (DemoDatatypes.tree_over c hc t ht)) h1 hf).1 h2

/-- The generic form of the first fact of the trees: `node` and `leaf` differ. -/
example : (Value.all [.arb "A"] (.bin .equals (.const "f" [.arb "A"] (.fn [.arb "A"] .bool)) (.var 0 (.arb "A")))).genericize ["A"] =
    .all [.tvar "A"] (.bin .equals (.const "f" [.tvar "A"] (.fn [.tvar "A"] .bool)) (.var 0 (.tvar "A"))) ∧
    EachConst (fun _ ps t => FullyApplied ["A"] ps t)
      (Value.all [.arb "A"] (.bin .equals (.const "f" [.arb "A"] (.fn [.arb "A"] .bool)) (.var 0 (.arb "A")))) := by
  refine ⟨rfl, ⟨fun p hp _ => hp, fun e => by cases e⟩, trivial⟩

/-- The constant `Tree.induction` is defined. -/
example : (inductionDef (selfType "Tree" ["A"]) ["A"] tree).isSome = true := by decide +kernel

theorem DemoDatatypes.pair_over : ∀ f ∈ pair.fields, TyOver ["A"] f.2 := by
  intro f hf
  simp only [pair, List.mem_cons, List.not_mem_nil, or_false] at hf
  rcases hf with rfl | rfl <;> simp [TyOver, TyOverAll]

theorem DemoDatatypes.pair_free : ∀ f ∈ pair.fields, TyFree "Pair" f.2 := by
  intro f hf
  simp only [pair, List.mem_cons, List.not_mem_nil, or_false] at hf
  rcases hf with rfl | rfl <;> simp [TyFree, TyFreeAll]

/-- Pairs of a truth value and a predicate: the facts hold in a model, and so the objects are the tuples. -/
example : ∃ data C : String → List S → S, (∀ f ∈ pair.plainFacts ["A"], (setTypes data).Holds C (fun _ => SetModel.bool) [] f) ∧
    (pair.plainFacts ["A"]).length = 3 ∧
    Tuples (setTypes data) (data "Pair" [SetModel.bool]) [SetModel.bool, SetModel.pi SetModel.bool fun _ => SetModel.bool]
      (C "Pair.new" [SetModel.bool]) [C "Pair.first" [SetModel.bool], C "Pair.second" [SetModel.bool]] := by
  obtain ⟨data, C, _, _, _, h⟩ := C48_structure_has_model (data := DemoDatatypes.none) (C := fun _ _ => ∅)
    DemoDatatypes.none_small (s := pair) (params := ["A"]) DemoDatatypes.pair_over DemoDatatypes.pair_free (by decide)
  obtain ⟨_, _, h⟩ := h (fun _ => SetModel.bool) fun _ _ => SetModel.U_bool
  refine ⟨data, C, h, rfl, ?_⟩
  exact (C48_structure_facts_say_tuples (F := setTypes data) (s := pair) _ (fun f hf p => noVar_of_over p (DemoDatatypes.pair_over f hf))).1 h

/-- Pairs of an element and a predicate that holds of it, with the option type of a model of `Option`: all the
hypotheses of the theorems on structures with a constraint are met. -/
example : ∃ data C : String → List S → S, (∀ f ∈ pair.constrainedFacts ["A"] DemoDatatypes.holds (some ("Option", "Option.some", "Option.none")),
      (setTypes data).Holds C (fun _ => SetModel.bool) [] f) ∧
    (pair.constrainedFacts ["A"] DemoDatatypes.holds (some ("Option", "Option.some", "Option.none"))).length = 7 := by
  obtain ⟨data, C, hs, _, _, facts, hf, h⟩ := C48_accepted_has_model_partial (data := DemoDatatypes.none) (C := fun _ _ => ∅)
    DemoDatatypes.none_small (lookup := fun _ => Option.none) (name := "Option") (params := ["T"]) (cs := DemoDatatypes.option)
    (by decide +kernel) (by
      intro c hc t ht
      simp only [DemoDatatypes.option, List.mem_cons, List.not_mem_nil, or_false] at hc
      rcases hc with rfl | rfl <;> simp only [List.mem_cons, List.not_mem_nil, or_false] at ht
      subst ht; simp [TyOver]) (by
      intro c hc t ht
      simp only [DemoDatatypes.option, List.mem_cons, List.not_mem_nil, or_false] at hc
      rcases hc with rfl | rfl <;> simp only [List.mem_cons, List.not_mem_nil, or_false] at ht
      subst ht; simp [TyDirect]) (by decide)
  obtain ⟨data', C', _, _, _, h'⟩ := C48_constrained_structure_has_model (data := data) (C := C) hs (s := pair) (params := ["A"])
    DemoDatatypes.pair_over DemoDatatypes.pair_free (by decide) (c := DemoDatatypes.holds) ⟨trivial, trivial, trivial⟩
    (fun n hn => by cases hn) ⟨trivial, trivial, trivial⟩ (by decide) (by
      intro θ hθ xs hx
      match xs, hx with
      | [x, y], hx => exact (SetModel.mem_pi.1 hx.2.1).2 x hx.1) (o := "Option") (sm := "Option.some") (nn := "Option.none")
    (by decide) (by decide) (by decide) (by
      intro A hA
      obtain ⟨h1, h2⟩ := h (fun _ => A) fun _ _ => hA
      refine ⟨h1 _ (List.mem_cons_self ..), h1 _ (List.mem_cons_of_mem _ (List.mem_singleton.2 rfl)), ?_⟩
      have := (inductiveFacts_iff (F := setTypes data) (fun _ => A) (by
        intro c hc t ht p
        simp only [DemoDatatypes.option, List.mem_cons, List.not_mem_nil, or_false] at hc
        rcases hc with rfl | rfl <;> simp only [List.mem_cons, List.not_mem_nil, or_false] at ht
        subst ht; rfl) h1 hf).1 h2
      have e : (Ty.arb "T" = selfType "Option" ["T"]) = False := eq_false (by simp [selfType])
      simp only [DemoDatatypes.option, List.map_cons, List.map_nil, conIn, e] at this
      exact this)
  exact ⟨data', C', (h' (fun _ => SetModel.bool) fun _ _ => SetModel.U_bool).2.2.2, rfl⟩

end

/-! ### Variance, strict positivity, generic forms -/

/-- The variance of a type parameter computed from the types of the fields, or of the arguments of the
constructors, says exactly with which signs the parameter occurs in them. -/
theorem C48_variance_is_polarity (lookup : String → Option (List Variance)) (ts : List Ty) (p : String) :
    (paramVariance lookup ts p = .none ↔
      ¬ (∃ t ∈ ts, Occurs lookup p true t) ∧ ¬ ∃ t ∈ ts, Occurs lookup p false t) ∧
    (paramVariance lookup ts p = .positive ↔
      (∃ t ∈ ts, Occurs lookup p true t) ∧ ¬ ∃ t ∈ ts, Occurs lookup p false t) ∧
    (paramVariance lookup ts p = .negative ↔
      ¬ (∃ t ∈ ts, Occurs lookup p true t) ∧ ∃ t ∈ ts, Occurs lookup p false t) ∧
    (paramVariance lookup ts p = .both ↔
      (∃ t ∈ ts, Occurs lookup p true t) ∧ ∃ t ∈ ts, Occurs lookup p false t) := by
  have h : ∀ b, (paramVariance lookup ts p).has b ↔ ∃ t ∈ ts, Occurs lookup p b t := fun b =>
    (foldVariance_has (lookup := lookup) p b ts .none).trans (by simp [Variance.has])
  rw [← h true, ← h false]
  generalize paramVariance lookup ts p = v
  cases v <;> simp [Variance.has]

/-- In `(A -> Bool) -> Set[A]`, where `Set` is contravariant, `A` occurs with both signs. -/
example : paramVariance (fun d => if d == "Set" then some [.negative] else .none)
    [.fn [.fn [.arb "A"] .bool] (.data "Set" [.arb "A"])] "A" = .both := by decide +kernel

/-- The test for strict positivity rejects a type exactly when the declared type occurs in an argument of a
function or in the argument for a parameter of a datatype that is contravariant or invariant. -/
theorem C48_positivity_test (lookup : String → Option (List Variance)) (name : String) (as : List Ty) (t : Ty) :
    Ty.strictlyPositive lookup (.data name as) t = true ↔ ¬ Misplaced lookup name t :=
  strictlyPositive_iff as t

/-- `Set[Foo]` is rejected when the variance of `Set` is known. -/
example : Misplaced (fun d => if d == "Set" then some [.negative] else .none) "Foo" (.data "Set" [.data "Foo" []]) :=
  .param (i := 0) rfl (by simp [TyFree]) (.inl (by decide +kernel))

/-- The generic form of a value mentions no arbitrary type of the parameters, and no arbitrary type that the
value does not mention. -/
theorem C48_generic_form_is_generic (params : List String) (v : Value) (q : String)
    (h : q ∈ valueArbs (v.genericize params)) : q ∈ valueArbs v ∧ q ∉ params :=
  valueArbs_genericize params q v h

/-- The facts of a declaration are about all types in place of the parameters: they mention no arbitrary type
of the parameters. -/
theorem C48_facts_are_generic (name : String) (params : List String) (cs : List Con) (s : Struct) (c : Value)
    (opt : Option (String × String × String)) (p : String) (hp : p ∈ params) :
    (∀ fs, inductiveFacts name params cs = some fs → ∀ v ∈ fs, p ∉ valueArbs v) ∧
    (∀ v ∈ s.plainFacts params, p ∉ valueArbs v) ∧ (∀ v ∈ s.constrainedFacts params c opt, p ∉ valueArbs v) := by
  have key : ∀ v : Value, p ∉ valueArbs (v.genericize params) :=
    fun v h => (valueArbs_genericize params p v h).2 hp
  refine ⟨fun fs h v hv => ?_, fun v hv => ?_, fun v hv => ?_⟩
  · unfold inductiveFacts at h
    simp only [Option.bind_eq_bind, Option.bind_eq_some_iff] at h
    obtain ⟨_, _, _, _, _, _, h⟩ := h
    cases h
    obtain ⟨w, _, rfl⟩ := List.mem_map.1 hv
    exact key w
  · obtain ⟨w, _, rfl⟩ := List.mem_map.1 hv
    exact key w
  · obtain ⟨w, _, rfl⟩ := List.mem_map.1 hv
    exact key w

/-- The facts of `Tree[A]` are there, and `node` in them is given the type variable. -/
example : (inductiveFacts "Tree" ["A"] tree).isSome = true ∧
    Value.genericize ["A"] (.const "Tree.node" [.arb "A"] (.fn [.arb "A"] (.data "Tree" [.arb "A"]))) =
      .const "Tree.node" [.tvar "A"] (.fn [.tvar "A"] (.data "Tree" [.tvar "A"])) := ⟨rfl, rfl⟩

end Acorn
