/-
Type computation and checking of terms.
-/
import Verif.Model.Context
namespace Acorn
namespace Term

/-- `split_pi` (/repo/src/kernel/term.rs:434-450). -/
def splitPi : Term → Option (Term × Term)
  | pi a b => some (a, b)
  | _ => none

/-- `Term::type_apply_with_arg` (term.rs:1896-1908); `none` also covers a panic of `open_bound`. -/
def typeApply (fty arg : Term) : Option Term :=
  match fty.splitPi with
  | some (_, out) => if out.hasBound then openBound out arg else some out
  | none => none

/-- `resolve_type_constraint_kind` (term.rs:97-113), restricted to the part its caller uses: the
typeclass a type variable's type resolves to.  Following variables through the context could loop in
Rust; `fuel` is the context length plus one, which suffices when variable types only mention earlier
variables. -/
def resolveConstraint (Γ : LCtx) : Nat → Term → Option Id2
  | 0, _ => none
  | fuel + 1, t =>
    match t with
    | sym (.typeclass m l) => some (m, l)
    | fvar i =>
      match Γ.get i with
      | some T => resolveConstraint Γ fuel T
      | none => none
    | _ => none

/-- `validate_typeclass_argument` (term.rs:123-214): only whether it succeeds. -/
def validTypeclassArg (K : KCtx) (Γ : LCtx) (c : Id2) (arg : Term) : Bool :=
  if arg.isType0 then false
  else if arg.asTypeclass.isSome then false
  else
    match arg with
    | bind _ _ _ => false
    | sym .bool => false
    | _ =>
      if K.isInst Γ arg c then true
      else
        match arg.atomicVariable with
        | none => false
        | some i =>
          match Γ.get i with
          | none => false
          | some T =>
            match resolveConstraint Γ (Γ.length + 1) T with
            | some a => a == c || K.tcExtends a c
            | none => false

/-- `validate_application_argument` (term.rs:216-247): only whether it succeeds. -/
def validArg (K : KCtx) (Γ : LCtx) (input argTy arg : Term) : Bool :=
  match input.asTypeclass with
  | some c => validTypeclassArg K Γ c arg
  | none =>
    if input.isType0 then argTy.isTypeParamKind
    else argTy == input

theorem size_inst_fvar (d x : Nat) (t : Term) :
    ∀ s, substBoundAt 0 (fvar x) d t = some s → s.size = t.size := by
  induction t generalizing d with
  | atom a =>
    intro s h
    cases a with
    | bvar i =>
      simp only [substBoundAt] at h
      split at h
      · simp [shift] at h; subst h; rfl
      · simp at h; subst h; rfl
    | fvar i => simp [substBoundAt] at h; subst h; rfl
    | sym i => simp [substBoundAt] at h; subst h; rfl
  | app f a ihf iha =>
    intro s h
    simp only [substBoundAt, Option.bind_eq_bind, Option.bind_eq_some_iff, Option.pure_def,
      Option.some.injEq] at h
    obtain ⟨f', hf, a', ha, rfl⟩ := h
    simp [size, ihf _ _ hf, iha _ _ ha]
  | bind b f a ihf iha =>
    intro s h
    simp only [substBoundAt, Option.bind_eq_bind, Option.bind_eq_some_iff, Option.pure_def,
      Option.some.injEq] at h
    obtain ⟨f', hf, a', ha, rfl⟩ := h
    simp [size, ihf _ _ hf, iha _ _ ha]

theorem size_shift (c : Nat) (k : Int) (t : Term) : ∀ s, shift c k t = some s → s.size = t.size := by
  induction t generalizing c with
  | atom a =>
    intro s h
    cases a with
    | bvar i =>
      simp only [shift] at h
      split at h
      · split at h
        · cases h; rfl
        · cases h
      · cases h; rfl
    | fvar i => simp [shift] at h; subst h; rfl
    | sym i => simp [shift] at h; subst h; rfl
  | app f a ihf iha =>
    intro s h
    simp only [shift, Option.bind_eq_bind, Option.bind_eq_some_iff, Option.pure_def,
      Option.some.injEq] at h
    obtain ⟨f', hf, a', ha, rfl⟩ := h
    simp [size, ihf _ _ hf, iha _ _ ha]
  | bind b f a ihf iha =>
    intro s h
    simp only [shift, Option.bind_eq_bind, Option.bind_eq_some_iff, Option.pure_def,
      Option.some.injEq] at h
    obtain ⟨f', hf, a', ha, rfl⟩ := h
    simp [size, ihf _ _ hf, iha _ _ ha]

/-- Opening with a variable keeps the size; used for termination. -/
theorem size_openBound_fvar (body : Term) (x : Nat) (t : Term)
    (h : openBound body (fvar x) = some t) : t.size = body.size := by
  simp only [openBound, substBound, shift, Option.bind_eq_bind, Option.bind_some,
    Option.bind_eq_some_iff] at h
  obtain ⟨s, h1, h2⟩ := h
  rw [size_shift _ _ _ _ h2, size_inst_fvar _ _ _ _ h1]

/-- `get_type_with_context` (term.rs:647-796): computes a type without checking arguments;
`none` is a panic. -/
def getType (K : KCtx) (Γ : LCtx) (t : Term) : Option Term :=
  match t with
  | fvar i => Γ.get i
  | bvar _ => none
  | sym s => K.symbolType s
  | app f a => do
    let fty ← getType K Γ f
    typeApply fty a
  | pi _ _ => some type0
  | lam A body =>
    match _h : openBound body (fvar Γ.length) with
    | none => none
    | some opened => do
      let bodyTy ← getType K (Γ.pushTy A) opened
      return pi A (abstractVar Γ.length 0 bodyTy)
  | all _ _ => some boolTy
  | ex _ _ => some boolTy
termination_by t.size
decreasing_by
  · simp [size]; omega
  · have := size_openBound_fvar _ _ _ _h
    simp [size]; omega

/-- `checked_type_with_context` (term.rs:798-958); `none` is `Err` (or a panic on an unknown
symbol). -/
def checkedType (K : KCtx) (Γ : LCtx) (t : Term) : Option Term :=
  match t with
  | fvar i => Γ.get i
  | bvar _ => none
  | sym s => K.symbolType s
  | app f a => do
    let fty ← checkedType K Γ f
    let aty ← checkedType K Γ a
    let (input, _) ← fty.splitPi
    if validArg K Γ input aty a then typeApply fty a else none
  | pi _ _ => some type0
  | lam A body =>
    match _h : openBound body (fvar Γ.length) with
    | none => none
    | some opened => do
      let bodyTy ← checkedType K (Γ.pushTy A) opened
      return pi A (abstractVar Γ.length 0 bodyTy)
  | all _ _ => some boolTy
  | ex _ _ => some boolTy
termination_by t.size
decreasing_by
  · simp [size]; omega
  · simp [size]; omega
  · have := size_openBound_fvar _ _ _ _h
    simp [size]; omega

end Term
end Acorn
