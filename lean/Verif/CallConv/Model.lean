/-!
# Calling conventions

Model of `crates/tribute-core/src/calling_convention.rs` 17-90, `crates/tribute-core/src/callable_abi.rs`
6-78, `crates/tribute-front/src/ast/calling_convention.rs` 8-46 and the part of
`crates/tribute-front/src/typeck/context.rs` (168-172, 283-291, 582-593) that fills the table of
ability requirements.

Simplifications: abilities are an arbitrary type; a hash map is a function to `Option`; of a type only
what is read here is kept (its effect row and minimum convention, if it is a function type).
-/
namespace Verif.CallConv

/-- `enum CallingConvention`, calling_convention.rs 22-31. -/
inductive Conv where
  | direct
  | evidenceDirect
  | cps
deriving DecidableEq, Repr

/-- The discriminants, calling_convention.rs 25, 27, 30 (`as u8`, `as i128`); the derived `Ord`
compares them. -/
def Conv.code : Conv → Nat
  | .direct => 0
  | .evidenceDirect => 1
  | .cps => 2

/-- `CALLING_CONVENTIONS_BY_CODE`, calling_convention.rs 33-37. -/
def byCode : List Conv := [.direct, .evidenceDirect, .cps]

/-- `join`, calling_convention.rs 41-43; `Ord::max` returns the second argument on a tie. -/
def Conv.join (a b : Conv) : Conv := if b.code < a.code then a else b

/-- `needs_evidence`, calling_convention.rs 46-48. -/
def Conv.needsEvidence (a : Conv) : Bool := Conv.code .evidenceDirect ≤ a.code

/-- `needs_done_k`, calling_convention.rs 51-53. -/
def Conv.needsDoneK (a : Conv) : Bool := a == .cps

/-- `usize::from(bool)`. -/
def ofBool (b : Bool) : Nat := if b then 1 else 0

/-- `closure_environment_index`, calling_convention.rs 56-58. -/
def Conv.closureEnvironmentIndex (a : Conv) : Nat := ofBool a.needsEvidence

/-- `TryFrom<u8>`, calling_convention.rs 61-70; `none` is `Err`. -/
def tryFrom (code : UInt8) : Option Conv := byCode[code.toNat]?

/-- An operation's attributes (names to values; only integer values are read here). -/
abbrev Attrs := String → Option Int

/-- `CALLING_CONVENTION_ATTR`, calling_convention.rs 9. -/
def convAttr : String := "tribute.calling_convention"

/-- `set_calling_convention`, calling_convention.rs 73-78. -/
def setConvention (attrs : Attrs) (c : Conv) : Attrs :=
  fun k => if k = convAttr then some (c.code : Int) else attrs k

/-- `get_u8`, crates/trunk-ir/src/types.rs 319-321, 343-355: an out-of-range value is an error, which
the only caller here turns into `None`. -/
def getU8 (attrs : Attrs) (k : String) : Option UInt8 :=
  match attrs k with
  | none => none
  | some v => if 0 ≤ v ∧ v ≤ 255 then some (UInt8.ofNat v.toNat) else none

/-- `get_calling_convention`, calling_convention.rs 81-88. -/
def getConvention (attrs : Attrs) : Option Conv :=
  match getU8 attrs convAttr with
  | none => none
  | some code => tryFrom code

/-! ## Requirements of abilities and rows -/

variable {A : Type}

/-- `OpDeclKind`: how an ability operation is declared. -/
inductive OpKind where
  /-- `fn`: resumes in tail position -/
  | fn
  /-- `op`: general control -/
  | op
deriving DecidableEq, Repr

/-- The table of requirements. -/
abbrev Table (A : Type) := A → Option Conv

/-- The table of a new environment, context.rs 168-172. -/
def Table.new [DecidableEq A] (io : A) : Table A := fun a => if a = io then some .evidenceDirect else none

/-- `register_ability`, context.rs 283-291 (the part that fills the table). -/
def Table.registerAbility [DecidableEq A] (t : Table A) (id : A) (ops : List OpKind) : Table A :=
  fun a => if a = id then
      some (if ops.any (fun k => k == .op) then .cps else .evidenceDirect)
    else t a

/-- An effect row, as far as it is read here: the abilities and whether it is open. -/
structure Row (A : Type) where
  abilities : List A
  isOpen : Bool

/-- `calling_convention_for_effect_row`, ast/calling_convention.rs 11-28. -/
def forEffectRow (t : Table A) (row : Row A) : Conv :=
  let convention := row.abilities.foldl (fun c a => c.join ((t a).getD .cps)) .direct
  if row.isOpen then convention.join .cps else convention

/-- A type, as far as it is read here. -/
inductive Ty (A : Type) where
  | func (effect : Row A) (minimum : Conv)
  | other

/-- `calling_convention_for_function_type`, ast/calling_convention.rs 31-46. -/
def forFunctionType (t : Table A) : Ty A → Option Conv
  | .func effect minimum => some (minimum.join (forEffectRow t effect))
  | .other => none

/-! ## Parameter lists -/

variable {T : Type}

/-- `struct CallableAbi`, callable_abi.rs 7-11. -/
structure Abi (T : Type) where
  convention : Conv
  sourceParams : List T
  sourceResult : T

/-- `lowered_params`, callable_abi.rs 27-41. -/
def Abi.loweredParams (abi : Abi T) (evidence carrier : T) : List T :=
  (if abi.convention.needsEvidence then [evidence] else []) ++
  (if abi.convention.needsDoneK then [carrier] else []) ++ abi.sourceParams

/-- `lowered_result`, callable_abi.rs 48-54. -/
def Abi.loweredResult (abi : Abi T) (carrier : T) : T :=
  if abi.convention.needsDoneK then carrier else abi.sourceResult

/-- `source_param_offset`, callable_abi.rs 56-58. -/
def Abi.sourceParamOffset (abi : Abi T) : Nat :=
  ofBool abi.convention.needsEvidence + ofBool abi.convention.needsDoneK

/-- `interpose_environment`, callable_abi.rs 65-77; slicing past the end panics (`none`). -/
def Abi.interposeEnvironment (abi : Abi T) (logical : List T) (env : T) : Option (List T) :=
  let i := ofBool abi.convention.needsEvidence
  if logical.length < i then none else some (logical.take i ++ [env] ++ logical.drop i)

end Verif.CallConv
