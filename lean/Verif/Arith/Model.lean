/-!
# Constant folding of integer arithmetic

Model of `crates/trunk-ir/src/dialect/arith.rs` 111-429.

Simplifications:
* an operand is either the result of an `arith.const` with an integer attribute (an `i128`, here a
  128-bit vector) or anything else (`const_int_value` returns `None`, 355-365);
* `core_int_width` (373-385) is not modelled: the width `w` of the result type is a parameter with
  `1 ≤ w ≤ 128`;
* `i128` arithmetic is 128-bit vector arithmetic (`wrapping_*`).
-/
namespace Verif.Arith

/-- The attribute type `i128`. -/
abbrev I128 := BitVec 128

/-- An operand as seen by the folds. -/
inductive Operand where
  | const (v : I128)
  | other
deriving DecidableEq, Repr

/-- `const_int_value`, arith.rs 355-365. -/
def constIntValue : Operand → Option I128
  | .const v => some v
  | .other => none

/-- `FoldResult` (canonicalize.rs 57-87) for two-operand integer operations. -/
inductive FoldResult where
  | forwardLhs
  | forwardRhs
  | arithConst (v : I128)
deriving DecidableEq, Repr

/-- `wrap_signed_to_width`, arith.rs 393-400. -/
def wrapSignedToWidth (value : I128) (width : Nat) : I128 :=
  if width = 128 then value
  else
    let shift := 128 - width
    (value <<< shift).sshiftRight shift

/-- `width_mask_u128`, arith.rs 404-411. -/
def widthMask (width : Nat) : I128 :=
  if width = 128 then BitVec.allOnes 128 else (1#128 <<< width) - 1

/-- `is_signed_overflow_at_width`, arith.rs 419-429. -/
def isSignedOverflow (a b : I128) (width : Nat) : Bool :=
  if b ≠ -1 then false
  else
    let minAtWidth := if width = 128 then BitVec.intMin 128 else -(1#128 <<< (width - 1))
    a == minAtWidth

/-- `fold_addi`, arith.rs 115-128. -/
def foldAddi (w : Nat) (lhs rhs : Operand) : Option FoldResult :=
  if constIntValue rhs = some 0 then some .forwardLhs
  else if constIntValue lhs = some 0 then some .forwardRhs
  else do
    let a ← constIntValue lhs
    let b ← constIntValue rhs
    some (.arithConst (wrapSignedToWidth (a + b) w))

/-- `fold_subi`, arith.rs 135-145. -/
def foldSubi (w : Nat) (lhs rhs : Operand) : Option FoldResult :=
  if constIntValue rhs = some 0 then some .forwardLhs
  else do
    let a ← constIntValue lhs
    let b ← constIntValue rhs
    some (.arithConst (wrapSignedToWidth (a - b) w))

/-- `fold_muli`, arith.rs 152-168. -/
def foldMuli (w : Nat) (lhs rhs : Operand) : Option FoldResult :=
  if constIntValue rhs = some 0 ∨ constIntValue lhs = some 0 then some (.arithConst 0)
  else if constIntValue rhs = some 1 then some .forwardLhs
  else if constIntValue lhs = some 1 then some .forwardRhs
  else do
    let a ← constIntValue lhs
    let b ← constIntValue rhs
    some (.arithConst (wrapSignedToWidth (a * b) w))

/-- `fold_divsi`, arith.rs 181-194. -/
def foldDivsi (w : Nat) (lhs rhs : Operand) : Option FoldResult := do
  let a ← constIntValue lhs
  let b ← constIntValue rhs
  if b = 0 then none
  else if isSignedOverflow a b w then none
  else some (.arithConst (wrapSignedToWidth (a.sdiv b) w))

/-- `fold_divui`, arith.rs 200-213. -/
def foldDivui (w : Nat) (lhs rhs : Operand) : Option FoldResult := do
  let a ← constIntValue lhs
  let b ← constIntValue rhs
  let mask := widthMask w
  let au := a &&& mask
  let bu := b &&& mask
  if bu = 0 then none
  else some (.arithConst (wrapSignedToWidth (au.udiv bu) w))

/-- `fold_remsi`, arith.rs 220-233. -/
def foldRemsi (w : Nat) (lhs rhs : Operand) : Option FoldResult := do
  let a ← constIntValue lhs
  let b ← constIntValue rhs
  if b = 0 then none
  else if isSignedOverflow a b w then none
  else some (.arithConst (wrapSignedToWidth (a.srem b) w))

/-- `fold_remui`, arith.rs 239-252. -/
def foldRemui (w : Nat) (lhs rhs : Operand) : Option FoldResult := do
  let a ← constIntValue lhs
  let b ← constIntValue rhs
  let mask := widthMask w
  let au := a &&& mask
  let bu := b &&& mask
  if bu = 0 then none
  else some (.arithConst (wrapSignedToWidth (au.umod bu) w))

/-- `fold_and`, arith.rs 262-278. -/
def foldAnd (w : Nat) (lhs rhs : Operand) : Option FoldResult :=
  if constIntValue rhs = some 0 ∨ constIntValue lhs = some 0 then some (.arithConst 0)
  else if constIntValue rhs = some (-1) then some .forwardLhs
  else if constIntValue lhs = some (-1) then some .forwardRhs
  else do
    let a ← constIntValue lhs
    let b ← constIntValue rhs
    some (.arithConst (wrapSignedToWidth (a &&& b) w))

/-- `fold_or`, arith.rs 286-302. -/
def foldOr (w : Nat) (lhs rhs : Operand) : Option FoldResult :=
  if constIntValue rhs = some 0 then some .forwardLhs
  else if constIntValue lhs = some 0 then some .forwardRhs
  else if constIntValue rhs = some (-1) ∨ constIntValue lhs = some (-1) then
    some (.arithConst (-1))
  else do
    let a ← constIntValue lhs
    let b ← constIntValue rhs
    some (.arithConst (wrapSignedToWidth (a ||| b) w))

/-- `fold_xor`, arith.rs 312-325. -/
def foldXor (w : Nat) (lhs rhs : Operand) : Option FoldResult :=
  if constIntValue rhs = some 0 then some .forwardLhs
  else if constIntValue lhs = some 0 then some .forwardRhs
  else do
    let a ← constIntValue lhs
    let b ← constIntValue rhs
    some (.arithConst (wrapSignedToWidth (a ^^^ b) w))

/-- The integer operations with a fold (attributes `canonicalize_fold(arith.…)`). -/
inductive BinOp where
  | addi | subi | muli | divsi | divui | remsi | remui | and | or | xor
deriving DecidableEq, Repr

/-- Dispatch by operation name, canonicalize.rs 139-156. -/
def fold : BinOp → Nat → Operand → Operand → Option FoldResult
  | .addi => foldAddi
  | .subi => foldSubi
  | .muli => foldMuli
  | .divsi => foldDivsi
  | .divui => foldDivui
  | .remsi => foldRemsi
  | .remui => foldRemui
  | .and => foldAnd
  | .or => foldOr
  | .xor => foldXor

end Verif.Arith
