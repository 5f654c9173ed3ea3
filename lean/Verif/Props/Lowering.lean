/-
C46: lowering the elaborator's types and values to kernel terms keeps their meaning.
-/
import Verif.Lemmas.Lowering
import Verif.Lemmas.LoweringTotal
import Verif.Spec.DemoLower
namespace Acorn

open Elab Spec

universe u

variable {K : KCtx} {M : Interp.{u}} (h : Lawful K M) (L : Tables)

/-! ### Types and constants -/

/-- The kernel term of a type means that type, when type parameters mean the variables they are mapped to
and datatypes mean their kernel symbols. -/
theorem C46_types_keep_meaning (tv : List (String × Nat)) (ρ β : Nat → M.D) (t : Ty) (T : Term)
    (e : lowerType L tv t = some T) : eval M ρ β T = (kernelFrame h L).ty (typeMeaning M L tv ρ) t :=
  eval_lowerType h L tv ρ t T e β

open DemoLower in
/-- A function type over a datatype and a type parameter. -/
example : lowerType DemoLower.L tv (.fn [switch, .tvar "T"] .bool) =
    some (.pi (.sym (.type 0 0)) (.pi (.fvar 0) .boolTy)) := rfl

/-- The symbol of a declared constant, applied to type arguments in the right typeclasses, is an element of
the type that the elaborator gives the constant at these arguments. -/
theorem C46_constants_have_their_types {S : Theory} {tv : List (String × Nat)} {ρ : Nat → M.D}
    (hR : Registered K L S) (hA : Agrees h L S tv ρ) (n : String) (params : List (String × Option String))
    (g : Ty) (ps : List Ty) (hn : S.const n = some (params, g)) (hp : SmallArgs S ps (params.map (·.2))) :
    M.mem (constMeaning M L n ((kernelFrame h L).tys (typeMeaning M L tv ρ) ps))
      ((kernelFrame h L).ty (typeMeaning M L tv ρ) (g.instantiate ((params.map (·.1)).zip ps))) :=
  const_mem h L hR hA hn hp

open DemoLower in
/-- The attribute of the typeclass at its instance. -/
example : (theory.const "Mon.unit" = some ([("M", some "Mon")], .tvar "M")) ∧
    SmallArgs theory [switch] [some "Mon"] ∧
    (Ty.tvar "M").instantiate ([("M", switch)]) = switch :=
  ⟨rfl, ⟨⟨[], rfl, trivial⟩, fun _ e => ⟨rfl, (Option.some.inj e).symm⟩, trivial⟩, rfl⟩

/-! ### Values -/

/-- The kernel term of a value means that value.  The stack holds a term for each variable in scope, which
means what the variable means.  Whether attributes of instances are written with their own symbols does
not matter.

Partial: values with `?`, with type applications inside, and families indexed by values are left out; a
`?` is an error in the code. -/
theorem C46_lowering_keeps_meaning_partial {S : Theory} {tv : List (String × Nat)} {ρ : Nat → M.D}
    (hR : Registered K L S) (hA : Agrees h L S tv ρ) (prefer : Bool) (fuel : Nat) (stack : List Term) (v : Value)
    (term : Term) (Γ : List Ty) (t : Ty) (β : Nat → M.D) (e : v.lower L tv prefer fuel stack = some term)
    (hv : ValueOk S Γ v t)
    (hs : (kernelFrame h L).Fits (stack.map (eval M ρ β)) ((kernelFrame h L).tys (typeMeaning M L tv ρ) Γ)) :
    eval M ρ β term =
      (kernelFrame h L).den (constMeaning M L) (typeMeaning M L tv ρ) (stack.map (eval M ρ β)) v :=
  (lower_spec h L hR hA prefer fuel).1 stack v term Γ t _ β e hv hs rfl

namespace DemoLower
open Spec.DemoLower

/-- The constructors of `Switch`. -/
abbrev off : Value := .const "Switch.off" [] switch
abbrev on : Value := .const "Switch.on" [] switch

/-- `forall(x: Switch, y: T) { match x { on { (function(b: Bool) { x = Mon.unit[Switch] or b })(false) }
off { only[T](y) implies not (x = on) } } }`: a statement with a match whose cases are not in the order of the constructors, an attribute of a typeclass
at an instance, a lambda that is a partial logical operation, and a type parameter. -/
def statement : Value :=
  .all [switch, .tvar "T"] (.match_ (.var 0 switch) [
    .mk [] on (.app (.lam [.bool] (.bin .or (.bin .equals (.var 0 switch) (.const "Mon.unit" [switch] switch)) (.var 2 .bool)))
      [.bool false]) 1 2,
    .mk [] off (.bin .implies (.app (.const "only" [.tvar "T"] (.fn [.tvar "T"] .bool)) [.var 1 (.tvar "T")])
      (.not (.bin .equals (.var 0 switch) on))) 0 2])

theorem statement_ok : ValueOk theory [] statement .bool := by
  refine ⟨rfl, trivial, by simp, "Switch", [], _, ⟨rfl, rfl⟩, ⟨rfl, rfl, rfl⟩, ?_, ?_⟩
  · intro i hi
    match i, hi with
    | 0, _ => exact ⟨_, List.mem_cons_of_mem _ List.mem_cons_self, rfl⟩
    | 1, _ => exact ⟨_, List.mem_cons_self, rfl⟩
    | n + 2, hi => simp at hi
  · have hs : SmallTy theory switch := ⟨[], rfl, trivial⟩
    refine ⟨⟨rfl, "Switch.on", [], switch, rfl, rfl⟩, ?_, ⟨rfl, "Switch.off", [], switch, rfl, rfl⟩, ?_, trivial⟩
    · refine ⟨.fn [.bool] .bool, ⟨.bool, rfl, rfl, .bool, ⟨rfl, switch, ⟨rfl, rfl⟩, ⟨rfl, _, _, rfl, ?_, rfl⟩, hs, .inl rfl⟩,
        ⟨rfl, rfl⟩, trivial, .inr (.inr rfl)⟩, .bool, [], .bool, rfl, rfl, rfl⟩
      exact ⟨hs, fun c e => ⟨rfl, (Option.some.inj e).symm⟩, trivial⟩
    · refine ⟨rfl, .bool, ⟨.fn [.tvar "T"] .bool, ⟨rfl, _, _, rfl, ⟨trivial, (fun c e => by cases e), trivial⟩, rfl⟩,
        .tvar "T", [], .bool, rfl, ⟨rfl, rfl⟩, rfl⟩, ⟨rfl, rfl, switch, ⟨rfl, rfl⟩, ⟨rfl, _, _, rfl, trivial, rfl⟩, hs, .inl rfl⟩,
        trivial, .inr (.inr rfl)⟩

/-- Its kernel term: the cases are in the order of the constructors, and the lambda is `or` with one argument. -/
def statementTerm (unit : Term) : Term :=
  .bind .all (.sym (.type 0 0)) (.bind .all (.fvar 0) (Term.apply (.sym (.global 0 2)) [.boolTy, .bvar 1,
    Term.apply (.sym .or_) [Term.apply (.sym .not_) [Term.apply (.sym (.global 0 3)) [.fvar 0, .bvar 0]],
      Term.apply (.sym .not_) [Term.apply (.sym .eq_) [.sym (.type 0 0), .bvar 1, .sym (.global 0 1)]]],
    Term.apply (.sym .or_) [Term.apply (.sym .eq_) [.sym (.type 0 0), .bvar 1, unit], .ff]]))

end DemoLower

open DemoLower Spec.DemoLower in
/-- The statement fits the theory and is lowered, with or without the symbol of the instance. -/
example : ValueOk theory [] statement .bool ∧
    statement.lower DemoLower.L tv true 12 [] = some (statementTerm (.sym (.global 0 5))) ∧
    statement.lower DemoLower.L tv false 12 [] =
      some (statementTerm (.app (.sym (.global 0 4)) (.sym (.type 0 0)))) :=
  ⟨statement_ok, rfl, rfl⟩

/-- A statement is true exactly when its kernel term is. -/
theorem C46_statements_keep_truth_partial {S : Theory} {tv : List (String × Nat)} {ρ : Nat → M.D}
    (hR : Registered K L S) (hA : Agrees h L S tv ρ) (prefer : Bool) (fuel : Nat) (v : Value) (term : Term)
    (β : Nat → M.D) (e : v.lower L tv prefer fuel [] = some term) (hv : ValueOk S [] v .bool) :
    eval M ρ β term = vtt M ↔ (kernelFrame h L).Holds (constMeaning M L) (typeMeaning M L tv ρ) [] v := by
  rw [C46_lowering_keeps_meaning_partial h L hR hA prefer fuel [] v term [] .bool β e hv trivial]
  rfl

open DemoLower Spec.DemoLower in
/-- The statement above is true in the demo model exactly when its term is. -/
example (β : Nat → Spec.DemoLower.M.D) :
    eval Spec.DemoLower.M Spec.DemoLower.ρ β (statementTerm (.sym (.global 0 5))) = vtt _ ↔
      (kernelFrame lawful DemoLower.L).Holds (constMeaning _ DemoLower.L) (typeMeaning _ DemoLower.L tv ρ) [] statement :=
  C46_statements_keep_truth_partial lawful DemoLower.L registered agrees true 12 statement _ β rfl statement_ok

/-- A polymorphic fact at given types, the head of an application in a claim: its kernel term means the
fact when its type parameters mean those types. -/
theorem C46_type_application_keeps_meaning {S : Theory} {tv : List (String × Nat)} {ρ : Nat → M.D}
    (hR : Registered K L S) (hA : Agrees h L S tv ρ) (prefer : Bool) (fuel : Nat) (stack : List Term) (f : Value)
    (ns : List String) (ts : List Ty) (term : Term) (Γ : List Ty) (t : Ty) (β : Nat → M.D)
    (hl : ns.length = ts.length) (e : (Value.tapp f ns ts).lower L tv prefer fuel stack = some term)
    (hf : ∀ n ∈ boundNames f, n ∉ ns ∧ n ∉ tysNames ts) (hv : ValueOk S Γ (f.instantiate (ns.zip ts)) t)
    (hs : (kernelFrame h L).Fits (stack.map (eval M ρ β)) ((kernelFrame h L).tys (typeMeaning M L tv ρ) Γ)) :
    eval M ρ β term = (kernelFrame h L).den (constMeaning M L) (typeMeaning M L tv ρ) (stack.map (eval M ρ β))
      (.tapp f ns ts) := by
  match fuel, e with
  | k + 1, e =>
    simp only [Value.lower] at e
    rw [C46_lowering_keeps_meaning_partial h L hR hA prefer k stack _ term Γ t β e hv hs]
    rw [den_instantiate _ _ _ f (by
      intro n hn
      rw [List.map_fst_zip (by omega), List.map_snd_zip (by omega)]
      exact hf n hn)]
    simp only [Frame.den]
    rw [meanings_zip]

open DemoLower Spec.DemoLower in
/-- A lambda over a type parameter, at the datatype. -/
example : ValueOk theory [] ((Value.lam [.tvar "A"] (.app (.const "only" [.tvar "A"] (.fn [.tvar "A"] .bool))
      [.var 0 (.tvar "A")])).instantiate (["A"].zip [switch])) (.fn [switch] .bool) ∧
    (Value.tapp (.lam [.tvar "A"] (.app (.const "only" [.tvar "A"] (.fn [.tvar "A"] .bool)) [.var 0 (.tvar "A")]))
      ["A"] [switch]).lower DemoLower.L tv true 9 [] =
    some (.bind .lam (.sym (.type 0 0)) (Term.apply (.sym (.global 0 3)) [.sym (.type 0 0), .bvar 0])) :=
  ⟨⟨.bool, rfl, .fn [switch] .bool, ⟨rfl, _, _, rfl, ⟨⟨[], rfl, trivial⟩, (fun c e => by cases e), trivial⟩, rfl⟩,
    switch, [], .bool, rfl, ⟨rfl, rfl⟩, rfl⟩, rfl⟩

/-! ### Success -/

/-- A value that fits the theory is lowered when its names are in the tables: with enough fuel there is no
error and no panic, on any stack with a term for each variable. -/
theorem C46_lowering_succeeds {S : Theory} {tv : List (String × Nat)} (prefer : Bool) (v : Value) (Γ : List Ty)
    (t : Ty) (hv : ValueOk S Γ v t) (hd : Declared L tv v) :
    ∃ N, ∀ fuel, N ≤ fuel → ∀ stack : List Term, stack.length = Γ.length →
      ∃ term, v.lower L tv prefer fuel stack = some term := lower_some prefer v Γ t hv hd

open DemoLower Spec.DemoLower in
/-- The names of the statement above are in the tables. -/
example : Declared DemoLower.L tv statement := by
  have hs : TyDeclared DemoLower.L tv switch := ⟨⟨_, rfl⟩, trivial⟩
  have hT : TyDeclared DemoLower.L tv (.tvar "T") := ⟨0, rfl⟩
  have hb : TyDeclared DemoLower.L tv .bool := trivial
  have from_ : ∀ {v : Value} {u : Ty}, v.getType = some u → TyDeclared DemoLower.L tv u →
      ∀ t, v.getType = some t → TyDeclared DemoLower.L tv t := fun e hu t e' => by
    rw [e] at e'
    exact Option.some.inj e' ▸ hu
  refine ⟨⟨hs, hT, trivial⟩, trivial, ⟨trivial, ?_, from_ rfl hb, trivial, ?_, from_ rfl hb, trivial⟩, by decide, ?_⟩
  · exact ⟨⟨⟨hb, trivial⟩, ⟨trivial, ⟨⟨_, rfl⟩, hs, trivial⟩, from_ rfl hs⟩, trivial, from_ rfl hb⟩, trivial, trivial⟩
  · exact ⟨⟨⟨⟨_, rfl⟩, hT, trivial⟩, trivial, trivial⟩, ⟨trivial, ⟨⟨_, rfl⟩, trivial⟩, from_ rfl hs⟩, from_ rfl hb⟩
  · intro d as e
    cases e
    exact ⟨⟨_, rfl⟩, trivial⟩

end Acorn
