/-
The types of the elaborator's values: `get_type`, `is_type` and the check `validate`
(/repo/src/elaborator/acorn_value.rs).
-/
import Verif.Model.LocalSatisfy
namespace Acorn
namespace Elab

/-- `FunctionType::applied_type` for one argument (acorn_type.rs:450-465, 440-446); `none` where the
callers panic or report an error (acorn_value.rs:28-30, 80-88). -/
def Ty.applied : Ty → Option Ty
  | .fn (_ :: ts) r => some (if ts.isEmpty then r else .fn ts r)
  | _ => none

/-- `applied_type` for several arguments, one at a time. -/
def Ty.appliedN : Nat → Ty → Option Ty
  | 0, t => some t
  | n + 1, t => t.applied.bind (appliedN n)

mutual

/-- `AcornType::has_generic` (acorn_type.rs:2006-2028). -/
def Ty.hasGeneric : Ty → Bool
  | .tvar _ => true
  | .data _ ts => Ty.hasGenericAny ts
  | .fn as r => Ty.hasGenericAny as || r.hasGeneric
  | .arb _ => false
  | .bool => false
  | .type0 => false
  | .constraint _ => false

/-- Any of several types. -/
def Ty.hasGenericAny : List Ty → Bool
  | [] => false
  | t :: ts => t.hasGeneric || Ty.hasGenericAny ts

end

namespace Value

mutual

/-- `AcornValue::has_generic` (acorn_value.rs:2515-2545, 574-582).  The variables of the cases of a match
are not looked at. -/
def hasGeneric : Value → Bool
  | .var _ t => t.hasGeneric
  | .const _ ps t => Ty.hasGenericAny ps || t.hasGeneric
  | .app f as => f.hasGeneric || hasGenericAny as
  | .tapp f _ ts => f.hasGeneric || Ty.hasGenericAny ts
  | .lam ts b => Ty.hasGenericAny ts || b.hasGeneric
  | .all ts b => Ty.hasGenericAny ts || b.hasGeneric
  | .ex ts b => Ty.hasGenericAny ts || b.hasGeneric
  | .group a => a.hasGeneric
  | .bin _ a b => a.hasGeneric || b.hasGeneric
  | .ite c a b => c.hasGeneric || a.hasGeneric || b.hasGeneric
  | .not a => a.hasGeneric
  | .try_ a t => a.hasGeneric || t.hasGeneric
  | .bool _ => false
  | .match_ s cs => s.hasGeneric || hasGenericCases cs

/-- Any of the arguments. -/
def hasGenericAny : List Value → Bool
  | [] => false
  | v :: vs => v.hasGeneric || hasGenericAny vs

/-- Any of the cases. -/
def hasGenericCases : List Case → Bool
  | [] => false
  | .mk _ p r _ _ :: cs => p.hasGeneric || r.hasGeneric || hasGenericCases cs

end

mutual

/-- `AcornValue::get_type` (acorn_value.rs:943-973), with `FunctionApplication::get_type`
(acorn_value.rs:22-38) and `TypeApplication::get_type` (acorn_value.rs:200-202); `none` is a panic.  The
code goes to the innermost function of a nested application and then through all arguments, which is the
same as going through them one application at a time. -/
def getType : Value → Option Ty
  | .var _ t => some t
  | .const _ _ t => some t
  | .app f as => f.getType.bind (Ty.appliedN as.length)
  | .tapp f ns ts => f.getType.map (Ty.instantiate (ns.zip ts))
  | .lam ts b => b.getType.map (Ty.functional ts)
  | .bin _ _ _ => some .bool
  | .not _ => some .bool
  | .try_ _ t => some t
  | .all _ _ => some .bool
  | .ex _ _ => some .bool
  | .group a => a.getType
  | .bool _ => some .bool
  | .ite _ a _ => a.getType
  | .match_ _ cs => getTypeCases cs

/-- The type of the first case. -/
def getTypeCases : List Case → Option Ty
  | [] => none
  | .mk _ _ r _ _ :: _ => r.getType

end

/-- The value has a type and it is this one. -/
def typeIs (o : Option Ty) (t : Ty) : Bool :=
  match o with
  | some u => u.same t
  | none => false

mutual

/-- `AcornValue::is_type` (acorn_value.rs:1006-1036).  A panic of `get_type` is a refusal. -/
def isType : Value → Ty → Bool
  | .var _ u, t => u.same t
  | .const _ _ u, t => u.same t
  | .app f as, t => typeIs (Value.app f as).getType t
  | .tapp f ns ts, t => typeIs (Value.tapp f ns ts).getType t
  | .lam ts b, t =>
    match t with
    | .fn us r => Ty.sameAll ts us && b.isType r
    | _ => false
  | .bin _ _ _, t => t.same .bool
  | .not _, t => t.same .bool
  | .try_ _ u, t => u.same t
  | .all _ _, t => t.same .bool
  | .ex _ _, t => t.same .bool
  | .group a, t => a.isType t
  | .bool _, t => t.same .bool
  | .ite _ a _, t => a.isType t
  | .match_ _ cs, t => isTypeCases cs t

/-- The first case. -/
def isTypeCases : List Case → Ty → Bool
  | [], _ => false
  | .mk _ _ r _ _ :: _, t => r.isType t

end

/-- `FunctionApplication::typecheck` (acorn_value.rs:58-104), from the type of the function. -/
def argsOk : Ty → List Value → Bool
  | _, [] => true
  | .fn (u :: ts) r, a :: as => a.isType u && argsOk (if ts.isEmpty then r else .fn ts r) as
  | _, _ => false

mutual

/-- `AcornValue::validate_against_stack` (acorn_value.rs:2153-2250).  The check of constants
(acorn_value.rs:2219-2247) is about fields that the model leaves out. -/
def validate (Γ : List Ty) : Value → Bool
  | .var i t => typeIs Γ[i]? t
  | .const _ _ _ => true
  | .app f as =>
    (match f.getType with
      | some t => argsOk t as
      | none => false) && f.validate Γ && validateAll Γ as
  | .tapp f ns ts => ns.length == ts.length && f.validate Γ
  | .lam ts b => b.validate (Γ ++ ts)
  | .all ts b => b.validate (Γ ++ ts)
  | .ex ts b => b.validate (Γ ++ ts)
  | .group a => a.validate Γ
  | .bin _ a b => a.validate Γ && b.validate Γ
  | .ite c a b => c.validate Γ && a.validate Γ && b.validate Γ
  | .match_ s cs => s.validate Γ && validateCases Γ cs
  | .not a => a.validate Γ
  | .try_ a _ => a.validate Γ
  | .bool _ => true

/-- The arguments. -/
def validateAll (Γ : List Ty) : List Value → Bool
  | [] => true
  | v :: vs => v.validate Γ && validateAll Γ vs

/-- The cases. -/
def validateCases (Γ : List Ty) : List Case → Bool
  | [] => true
  | .mk ts p r _ _ :: cs => p.validate (Γ ++ ts) && r.validate (Γ ++ ts) && validateCases Γ cs

end

end Value
end Elab
end Acorn
