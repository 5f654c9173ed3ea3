/-
C46: the type with which the match eliminator of a datatype is registered.
-/
import Verif.Lemmas.MatchEliminator
namespace Acorn

open Elab Spec

/-- At the type arguments of the match for which it was registered, the eliminator has the right type.
The names `T0`, `T1`, …, `R` must not be in use. -/
theorem C46_eliminator_type_at_first_use (d : String) (as : List Ty) (fields : List (List Ty)) (r : Ty)
    (hn : ∀ ts ∈ fields, NormalTys ts)
    (hf : ∀ ts ∈ fields, ∀ n ∈ tysNames ts, n ∉ eliminatorNames as.length) :
    (eliminatorType d as fields).instantiate ((eliminatorNames as.length).zip (as ++ [r])) =
      eliminatorAt d as fields r := by
  refine instantiate_eliminator d as as fields r rfl fields ?_
  refine (List.map_congr_left fun ts hts => ?_).trans (List.map_id fields)
  exact replace_backAll (fun i n a h1 h2 => lookup_names.2 i n a h1 h2) ts (hn ts hts) fun n hm =>
    lookup_zip_none (hf ts hts n hm)

/-- A list of functions. -/
example : eliminatorType "List" [.fn [.data "Nat" []] .bool]
      [[], [.fn [.data "Nat" []] .bool, .data "List" [.fn [.data "Nat" []] .bool]]] =
    .fn [.data "List" [.tvar "T0"], .tvar "R", .fn [.tvar "T0", .data "List" [.tvar "T0"]] (.tvar "R")] (.tvar "R") :=
  rfl

/-- When the match for which it was registered is at distinct type parameters, the eliminator has the right
type at all type arguments. -/
theorem C46_eliminator_type_general (d : String) (As : List String) (generic : List (List Ty)) (as bs : List Ty)
    (r : Ty) (hg : ∀ ts ∈ generic, NormalTys ts ∧ ∀ n ∈ tysNames ts, n ∈ As) (hl : As.length = as.length)
    (hnd : as.Nodup) (hp : ∀ a ∈ as, IsTypeParam a) (hb : bs.length = as.length) :
    (eliminatorType d as (generic.map (Ty.instantiateAll (As.zip as)))).instantiate
        ((eliminatorNames bs.length).zip (bs ++ [r])) =
      eliminatorAt d bs (generic.map (Ty.instantiateAll (As.zip bs))) r := by
  refine instantiate_eliminator d as bs _ r hb.symm _ ?_
  rw [List.map_map]
  refine List.map_congr_left fun ts hts => ?_
  exact replace_generalAll hnd hp hl (by rw [eliminatorParams_length, hb]) hb
    (fun i n b h1 h2 => lookup_names.2 i n b h1 h2) ts (hg ts hts).1 (hg ts hts).2

/-- A pair with a function, first used in a theorem about all types. -/
example : eliminatorType "Pair" [.arb "B", .arb "A"]
      ([[.tvar "X", .fn [.tvar "Y"] (.tvar "X")]].map (Ty.instantiateAll (["X", "Y"].zip [.arb "B", .arb "A"]))) =
    .fn [.data "Pair" [.tvar "T0", .tvar "T1"], .fn [.tvar "T0", .fn [.tvar "T1"] (.tvar "T0")] (.tvar "R")]
      (.tvar "R") := rfl

/-- Two equal type arguments are not told apart: when the first match is on a `Pair[Nat, Nat]`, the eliminator
gets a type that is wrong at `Pair[Nat, Bool]`. -/
theorem C46_disagreement_eliminator_equal_arguments :
    (eliminatorType "Pair" [.data "Nat" [], .data "Nat" []] [[.data "Nat" [], .data "Nat" []]]).instantiate
        ((eliminatorNames 2).zip [.data "Nat" [], .bool, .bool]) =
      .fn [.data "Pair" [.data "Nat" [], .bool], .fn [.data "Nat" [], .data "Nat" []] .bool] .bool ∧
    eliminatorAt "Pair" [.data "Nat" [], .bool] [[.data "Nat" [], .bool]] .bool =
      .fn [.data "Pair" [.data "Nat" [], .bool], .fn [.data "Nat" [], .bool] .bool] .bool := ⟨rfl, rfl⟩

/-- A field whose type is the same for all instances is taken for a parameter: when a datatype `Tagged[A]`
with fields `(Nat, A)` is first matched at `Tagged[Nat]`, the eliminator gets a type that is wrong at
`Tagged[Bool]`. -/
theorem C46_disagreement_eliminator_fixed_field :
    (eliminatorType "Tagged" [.data "Nat" []] [[.data "Nat" [], .data "Nat" []]]).instantiate
        ((eliminatorNames 1).zip [.bool, .bool]) =
      .fn [.data "Tagged" [.bool], .fn [.bool, .bool] .bool] .bool ∧
    eliminatorAt "Tagged" [.bool] [[.data "Nat" [], .bool]] .bool =
      .fn [.data "Tagged" [.bool], .fn [.data "Nat" [], .bool] .bool] .bool := ⟨rfl, rfl⟩

end Acorn
