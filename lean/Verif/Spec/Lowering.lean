/-
What it means for the elaborator's values and the kernel's terms to agree: the kernel's interpretation
seen as a frame for values, the values that fit a theory, and what is asked of the kernel's tables and
of the interpretation.
-/
import Verif.Spec.ValueTyping
import Verif.Spec.ValueNames
import Verif.Spec.Typing
import Verif.Model.Lowering
namespace Acorn
namespace Spec

open Elab

universe u

/-! ### The kernel's interpretation as a frame -/

theorem Lawful.eta {K : KCtx} {M : Interp.{u}} (h : Lawful K M) (A : M.D) (f : M.D → M.D) :
    M.bind .lam A (M.app (M.bind .lam A f)) = M.bind .lam A f :=
  h.bind_congr _ _ _ _ fun _ ha => h.beta _ _ _ ha

/-- Types and elements are those of the interpretation, a datatype means what its kernel symbol means. -/
@[reducible] def kernelFrame {K : KCtx} {M : Interp.{u}} (h : Lawful K M) (L : Tables) : Frame.{u} where
  T := M.D
  D := M.D
  mem := M.mem
  bool := vbool M
  data d ts :=
    match L.datatype d with
    | some g => ts.foldl M.app (M.sym (.type g.1 g.2))
    | none => vbool M
  fn a b := M.bind .pi a fun _ => b
  type0 := vtype0 M
  constraint c :=
    match L.typeclass c with
    | some g => M.sym (.typeclass g.1 g.2)
    | none => vbool M
  tt := vtt M
  ff := vff M
  app := M.app
  lam := M.bind .lam
  unwrap _ x := x
  undef := vtt M
  tt_ne_ff := h.tt_ne_ff
  mem_bool := h.mem_bool
  beta := h.beta
  lam_congr := h.bind_congr .lam
  mem_app _ _ _ _ hf hx := ((h.mem_pi _ _ _).1 hf).2 _ hx
  mem_lam _ _ _ hf := (h.mem_pi _ _ _).2 ⟨h.eta _ _, fun a ha => by rw [h.beta _ _ _ ha]; exact hf a ha⟩
  ext _ _ _ _ hf hg he := by
    rw [← ((h.mem_pi _ _ _).1 hf).1, ← ((h.mem_pi _ _ _).1 hg).1]
    exact h.bind_congr _ _ _ _ he

/-- A type parameter means the kernel's type variable it is mapped to, or else its ground type. -/
def typeMeaning (M : Interp.{u}) (L : Tables) (tv : List (String × Nat)) (ρ : Nat → M.D) (n : String) : M.D :=
  match tv.lookup n with
  | some i => ρ i
  | none =>
    match L.arbitrary n with
    | some g => M.sym (.type g.1 g.2)
    | none => vbool M

/-- A constant with type arguments means the application of its symbol. -/
def constMeaning (M : Interp.{u}) (L : Tables) (n : String) (ts : List M.D) : M.D :=
  match L.symbol n with
  | some s => ts.foldl M.app (M.sym s)
  | none => vtt M

/-! ### Theories -/

/-- What has been declared: the type parameters of each constant, with their typeclasses, and its generic
type; the typeclasses asked of the parameters of each datatype; which types are in which typeclasses; the
constructors of datatypes, each with its name, its type arguments and the types of its fields. -/
structure Theory where
  const : String → Option (List (String × Option String) × Ty)
  datatype : String → Option (List (Option String))
  inClass : Ty → String → Prop
  constructors : String → List Ty → List (String × List Ty × List Ty) → Prop

mutual

/-- A type of elements: made of declared datatypes, truth values, functions and type parameters. -/
def SmallTy (S : Theory) : Ty → Prop
  | .bool => True
  | .data d as => ∃ ks, S.datatype d = some ks ∧ SmallArgs S as ks
  | .fn as r => SmallTys S as ∧ SmallTy S r
  | .tvar _ => True
  | .arb _ => True
  | .type0 => False
  | .constraint _ => False

/-- Several such types. -/
def SmallTys (S : Theory) : List Ty → Prop
  | [] => True
  | t :: ts => SmallTy S t ∧ SmallTys S ts

/-- As many types as parameters, each in the typeclass asked of it. -/
def SmallArgs (S : Theory) : List Ty → List (Option String) → Prop
  | [], [] => True
  | t :: ts, k :: ks => SmallTy S t ∧ (∀ c, k = some c → S.inClass t c) ∧ SmallArgs S ts ks
  | _, _ => False

end

mutual

/-- `v` is a value of type `t` on a stack of variables of the types `Γ`, without `?` and without type
applications.  A match has a case for each constructor. -/
def ValueOk (S : Theory) (Γ : List Ty) : Value → Ty → Prop
  | .var i t', t => t' = t ∧ Γ[i]? = some t
  | .const n ps t', t => t' = t ∧ ∃ params g, S.const n = some (params, g) ∧
      SmallArgs S ps (params.map (·.2)) ∧ t = g.instantiate ((params.map (·.1)).zip ps)
  | .app f as, t => ∃ u, ValueOk S Γ f u ∧ ArgsOk S Γ as u t
  | .tapp _ _ _, _ => False
  | .lam ts b, t => ∃ r, t = Ty.functional ts r ∧ ValueOk S (Γ ++ ts) b r
  | .bin op a b, t => t = .bool ∧ ∃ u, ValueOk S Γ a u ∧ ValueOk S Γ b u ∧ SmallTy S u ∧
      (op = .equals ∨ op = .notEquals ∨ u = .bool)
  | .not a, t => t = .bool ∧ ValueOk S Γ a .bool
  | .try_ _ _, _ => False
  | .all ts b, t => t = .bool ∧ ValueOk S (Γ ++ ts) b .bool
  | .ex ts b, t => t = .bool ∧ ValueOk S (Γ ++ ts) b .bool
  | .group a, t => ValueOk S Γ a t
  | .bool _, t => t = .bool
  | .ite c a b, t => SmallTy S t ∧ ValueOk S Γ c .bool ∧ ValueOk S Γ a t ∧ ValueOk S Γ b t
  | .match_ s cs, t => SmallTy S t ∧ cs ≠ [] ∧ ∃ d as ks, ValueOk S Γ s (.data d as) ∧
      S.constructors d as ks ∧ (∀ i, i < ks.length → ∃ c ∈ cs, Value.caseIndex c = i) ∧ CasesOk S Γ cs ks t

/-- Applying a function of type `u` to these arguments, one at a time, gives type `t`. -/
def ArgsOk (S : Theory) (Γ : List Ty) : List Value → Ty → Ty → Prop
  | [], u, t => u = t
  | a :: as, u, t => ∃ p ps r, u = .fn (p :: ps) r ∧ ValueOk S Γ a p ∧
      ArgsOk S Γ as (if ps.isEmpty then r else .fn ps r) t

/-- Each case is for the constructor of its index, with new variables for the fields. -/
def CasesOk (S : Theory) (Γ : List Ty) : List Case → List (String × List Ty × List Ty) → Ty → Prop
  | [], _, _ => True
  | .mk ts p r i n :: cs, ks, t =>
      (n = ks.length ∧ ∃ k ps ct, ks[i]? = some (k, ps, ts) ∧
        p = (Value.const k ps ct).apply (varsFrom Γ.length ts)) ∧
      ValueOk S (Γ ++ ts) r t ∧ CasesOk S Γ cs ks t

end

/-- The tables and the kernel's context are those in which the theory was registered. -/
structure Registered (K : KCtx) (L : Tables) (S : Theory) : Prop where
  datatype : ∀ d ks, S.datatype d = some ks →
    ∃ g, L.datatype d = some g ∧ ks.mapM (paramKind L) = some (K.paramKinds g)
  arbitrary : ∀ n g, L.arbitrary n = some g → K.paramKinds g = []
  const : ∀ n ps g, S.const n = some (ps, g) → (ps.map (·.1)).Nodup ∧
    ∃ s T, L.symbol n = some s ∧ isKindSym s = false ∧ registeredType L ps g = some T ∧ K.symbolType s = some T
  bare : ∀ n g, S.const n = some ([], g) → L.generic n = none

/-- What is asked of the interpretation beyond its laws, when `tv` gives the type parameters in scope and
`ρ` the variables: type parameters are types, typeclasses are as declared, the symbol of an instance of a
typeclass attribute means the same as the attribute at that instance, and every element of a datatype is
made by a constructor, for which the eliminator of the datatype chooses its case. -/
structure Agrees {K : KCtx} {M : Interp.{u}} (h : Lawful K M) (L : Tables) (S : Theory)
    (tv : List (String × Nat)) (ρ : Nat → M.D) : Prop where
  params : ∀ n i, tv.lookup n = some i → M.mem (ρ i) (vtype0 M)
  apart : ∀ n ps g, S.const n = some (ps, g) → ∀ m ∈ tyNames g, m ∈ ps.map (·.1) ∨ tv.lookup m = none
  inClass : ∀ t c, S.inClass t c → ∃ g, L.typeclass c = some g ∧
    M.mem ((kernelFrame h L).ty (typeMeaning M L tv ρ) t) (M.sym (.typeclass g.1 g.2))
  alias_ : ∀ n ts s, L.instanceAlias n ts = some s →
    M.sym s = constMeaning M L n ((kernelFrame h L).tys (typeMeaning M L tv ρ) ts)
  covers : ∀ d as ks, S.constructors d as ks → ∀ x,
    M.mem x ((kernelFrame h L).ty (typeMeaning M L tv ρ) (.data d as)) →
    ∃ k ∈ ks, ∃ xs, (kernelFrame h L).Fits xs ((kernelFrame h L).tys (typeMeaning M L tv ρ) k.2.2) ∧
      (kernelFrame h L).appN (constMeaning M L k.1 ((kernelFrame h L).tys (typeMeaning M L tv ρ) k.2.1)) xs = x
  chooses : ∀ d as ks m, S.constructors d as ks → L.symbol (d ++ ".match") = some m → ∀ r fs,
    M.mem r (vtype0 M) →
    (kernelFrame h L).Fits fs (ks.map fun k =>
      (kernelFrame h L).fnN ((kernelFrame h L).tys (typeMeaning M L tv ρ) k.2.2) r) →
    ∀ (i : Nat) (k : String × List Ty × List Ty) xs, ks[i]? = some k →
    (kernelFrame h L).Fits xs ((kernelFrame h L).tys (typeMeaning M L tv ρ) k.2.2) →
    (kernelFrame h L).appN ((kernelFrame h L).appN (M.sym m) ((kernelFrame h L).tys (typeMeaning M L tv ρ) as)) (r ::
        (kernelFrame h L).appN (constMeaning M L k.1 ((kernelFrame h L).tys (typeMeaning M L tv ρ) k.2.1)) xs :: fs) =
      (kernelFrame h L).appN (fs.getD i (vtt M)) xs

/-! ### What has to be in the tables -/

mutual

/-- Every datatype in the type is in the tables, and every type parameter is in scope. -/
def TyDeclared (L : Tables) (tv : List (String × Nat)) : Ty → Prop
  | .bool => True
  | .data d as => (∃ g, L.datatype d = some g) ∧ TysDeclared L tv as
  | .fn as r => TysDeclared L tv as ∧ TyDeclared L tv r
  | .tvar n => ∃ i, tv.lookup n = some i
  | .arb n => (∃ i, tv.lookup n = some i) ∨ ∃ g, L.arbitrary n = some g
  | .type0 => True
  | .constraint c => ∃ g, L.typeclass c = some g

/-- Several types. -/
def TysDeclared (L : Tables) (tv : List (String × Nat)) : List Ty → Prop
  | [] => True
  | t :: ts => TyDeclared L tv t ∧ TysDeclared L tv ts

end

mutual

/-- Every constant of the value is in the tables, and so are its types; a match has one case for each
constructor and an eliminator. -/
def Declared (L : Tables) (tv : List (String × Nat)) : Value → Prop
  | .var _ _ => True
  | .const n ps _ => (∃ s, L.symbol n = some s) ∧ TysDeclared L tv ps
  | .app f as => Declared L tv f ∧ DeclaredAll L tv as
  | .tapp f _ _ => Declared L tv f
  | .lam ts b => TysDeclared L tv ts ∧ Declared L tv b
  | .bin _ a b => Declared L tv a ∧ Declared L tv b ∧ ∀ t, a.getType = some t → TyDeclared L tv t
  | .not a => Declared L tv a
  | .try_ a _ => Declared L tv a
  | .all ts b => TysDeclared L tv ts ∧ Declared L tv b
  | .ex ts b => TysDeclared L tv ts ∧ Declared L tv b
  | .group a => Declared L tv a
  | .bool _ => True
  | .ite c a b => Declared L tv c ∧ Declared L tv a ∧ Declared L tv b ∧
      ∀ t, a.getType = some t → TyDeclared L tv t
  | .match_ s cs => Declared L tv s ∧ DeclaredCases L tv cs ∧ (cs.map Value.caseIndex).Nodup ∧
      ∀ d as, s.getType = some (.data d as) → (∃ m, L.symbol (d ++ ".match") = some m) ∧ TysDeclared L tv as

/-- Several values. -/
def DeclaredAll (L : Tables) (tv : List (String × Nat)) : List Value → Prop
  | [] => True
  | v :: vs => Declared L tv v ∧ DeclaredAll L tv vs

/-- The cases of a match. -/
def DeclaredCases (L : Tables) (tv : List (String × Nat)) : List Case → Prop
  | [] => True
  | .mk ts _ r _ _ :: cs => TysDeclared L tv ts ∧ Declared L tv r ∧
      (∀ t, r.getType = some t → TyDeclared L tv t) ∧ DeclaredCases L tv cs

end

end Spec
end Acorn
