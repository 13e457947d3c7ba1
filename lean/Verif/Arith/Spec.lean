import Verif.Arith.Model
/-!
# What the machine computes
-/
namespace Verif.Arith

/-- Executing an operation on `w`-bit values; `none` is a trap (division by zero, or signed
division overflow). -/
def exec {w : Nat} : BinOp → BitVec w → BitVec w → Option (BitVec w)
  | .addi, x, y => some (x + y)
  | .subi, x, y => some (x - y)
  | .muli, x, y => some (x * y)
  | .divsi, x, y =>
    if y = 0 then none else if x = BitVec.intMin w ∧ y = -1 then none else some (x.sdiv y)
  | .divui, x, y => if y = 0 then none else some (x.udiv y)
  | .remsi, x, y =>
    if y = 0 then none else if x = BitVec.intMin w ∧ y = -1 then none else some (x.srem y)
  | .remui, x, y => if y = 0 then none else some (x.umod y)
  | .and, x, y => some (x &&& y)
  | .or, x, y => some (x ||| y)
  | .xor, x, y => some (x ^^^ y)

/-- The machine value of a constant attribute: its low `w` bits. -/
def machine (w : Nat) (v : I128) : BitVec w := v.setWidth w

/-- `x` is a possible run-time value of the operand: any value, unless the operand is a constant. -/
def Holds {w : Nat} (o : Operand) (x : BitVec w) : Prop :=
  match o with
  | .const v => x = machine w v
  | .other => True

/-- The value that replaces the operation's result. -/
def replacement {w : Nat} (r : FoldResult) (x y : BitVec w) : BitVec w :=
  match r with
  | .forwardLhs => x
  | .forwardRhs => y
  | .arithConst v => machine w v

/-- The attribute is the sign extension of its low `w` bits (every literal the frontend emits, and
every constant the folds emit). -/
def Normal (w : Nat) (v : I128) : Prop := v = (v.setWidth w).signExtend 128

/-- Constant operands carry normal attributes. -/
def NormalOperand (w : Nat) : Operand → Prop
  | .const v => Normal w v
  | .other => True

end Verif.Arith
