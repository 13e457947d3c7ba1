import Verif.Operators.Model
/-!
# What the operators should compute, and what machine instructions compute

The first half gives Cranelift's and WebAssembly's instructions their documented meaning.  That
meaning is trusted.  The second half says what the operators of the language mean, in terms of
integers and of IEEE arithmetic, without reference to either.
-/
namespace Verif.Operators

/-! ## Machine values -/

/-- Widths of floating-point numbers. -/
inductive FW where
  | single | double
  deriving DecidableEq, Repr

/-- IEEE arithmetic, kept abstract: both targets use the same one. -/
structure Floats where
  F : FW → Type
  add : {w : FW} → F w → F w → F w
  sub : {w : FW} → F w → F w → F w
  mul : {w : FW} → F w → F w → F w
  div : {w : FW} → F w → F w → F w
  neg : {w : FW} → F w → F w
  /-- Ordered equality: false on NaN. -/
  eq : {w : FW} → F w → F w → Bool
  lt : {w : FW} → F w → F w → Bool
  le : {w : FW} → F w → F w → Bool
  promote : F .single → F .double
  demote : F .double → F .single
  /-- The nearest float to an integer. -/
  ofInt : (w : FW) → Int → F w
  /-- Rounding towards zero; `none` for NaN and the infinities. -/
  toInt : {w : FW} → F w → Option Int

/-- A machine value. -/
inductive Val (fl : Floats) where
  | int (bits : Nat) (v : BitVec bits)
  | flt (w : FW) (v : fl.F w)

/-- How an operation ends: with a value, by trapping, or not at all because the compiler refuses
the program. -/
inductive Outcome (α : Type) where
  | value (a : α)
  | trap
  | rejected
  deriving DecidableEq, Repr

/-- Continue with the value. -/
def Outcome.bind {α β : Type} : Outcome α → (α → Outcome β) → Outcome β
  | .value a, f => f a
  | .trap, _ => .trap
  | .rejected, _ => .rejected

/-- A two-operand integer instruction: both operands have the same width. -/
def intBin {fl : Floats} (f : (w : Nat) → BitVec w → BitVec w → Outcome (Val fl)) :
    List (Val fl) → Outcome (Val fl)
  | [.int w x, .int w' y] => if h : w' = w then f w x (h ▸ y) else .rejected
  | _ => .rejected

/-- A two-operand float instruction. -/
def fltBin {fl : Floats} (f : (w : FW) → fl.F w → fl.F w → Val fl) :
    List (Val fl) → Outcome (Val fl)
  | [.flt w x, .flt w' y] => if h : w' = w then .value (f w x (h ▸ y)) else .rejected
  | _ => .rejected

/-- Signed division: traps on zero, and when the quotient does not fit. -/
def divS {fl : Floats} (w : Nat) (x y : BitVec w) : Outcome (Val fl) :=
  if y.toInt = 0 then .trap
  else if x.toInt = -(2 : Int) ^ (w - 1) ∧ y.toInt = -1 then .trap
  else .value (.int w (x.sdiv y))

/-- Signed remainder: traps on zero only. -/
def remS {fl : Floats} (w : Nat) (x y : BitVec w) : Outcome (Val fl) :=
  if y.toInt = 0 then .trap else .value (.int w (x.srem y))

/-- Unsigned division. -/
def divU {fl : Floats} (w : Nat) (x y : BitVec w) : Outcome (Val fl) :=
  if y.toNat = 0 then .trap else .value (.int w (x.udiv y))

/-- Unsigned remainder. -/
def remU {fl : Floats} (w : Nat) (x y : BitVec w) : Outcome (Val fl) :=
  if y.toNat = 0 then .trap else .value (.int w (x.umod y))

/-- The two values of a comparison, at a given width. -/
def flag {fl : Floats} (w : Nat) (b : Bool) : Val fl := .int w (if b then 1 else 0)

/-- Conversion of a float to a signed integer: traps when the number does not fit. -/
def truncS {fl : Floats} (w : Nat) {fw : FW} (v : fl.F fw) : Outcome (Val fl) :=
  match fl.toInt v with
  | none => .trap
  | some z =>
    if -(2 : Int) ^ (w - 1) ≤ z ∧ z < (2 : Int) ^ (w - 1) then .value (.int w (BitVec.ofInt w z))
    else .trap

/-- Conversion of a float to an unsigned integer: traps when the number does not fit. -/
def truncU {fl : Floats} (w : Nat) {fw : FW} (v : fl.F fw) : Outcome (Val fl) :=
  match fl.toInt v with
  | none => .trap
  | some z =>
    if 0 ≤ z ∧ z < (2 : Int) ^ w then .value (.int w (BitVec.ofInt w z)) else .trap

/-! ## Cranelift -/

/-- What a condition code tests. -/
def IntCC.holds {w : Nat} : IntCC → BitVec w → BitVec w → Bool
  | .equal, x, y => x == y
  | .notEqual, x, y => !(x == y)
  | .signedLessThan, x, y => decide (x.toInt < y.toInt)
  | .signedLessThanOrEqual, x, y => decide (x.toInt ≤ y.toInt)
  | .signedGreaterThan, x, y => decide (y.toInt < x.toInt)
  | .signedGreaterThanOrEqual, x, y => decide (y.toInt ≤ x.toInt)
  | .unsignedLessThan, x, y => decide (x.toNat < y.toNat)
  | .unsignedLessThanOrEqual, x, y => decide (x.toNat ≤ y.toNat)
  | .unsignedGreaterThan, x, y => decide (y.toNat < x.toNat)
  | .unsignedGreaterThanOrEqual, x, y => decide (y.toNat ≤ x.toNat)

/-- What a float condition code tests; "not equal" includes unordered. -/
def FloatCC.holds {fl : Floats} {w : FW} : FloatCC → fl.F w → fl.F w → Bool
  | .equal, x, y => fl.eq x y
  | .notEqual, x, y => !fl.eq x y
  | .lessThan, x, y => fl.lt x y
  | .lessThanOrEqual, x, y => fl.le x y
  | .greaterThan, x, y => fl.lt y x
  | .greaterThanOrEqual, x, y => fl.le y x

/-- Executing a `clif` operation whose result has the given type.  Cranelift's verifier refuses
extensions that do not widen and reductions that do not narrow. -/
def clifExec (fl : Floats) (op : Clif) (ty : Ty) (args : List (Val fl)) : Outcome (Val fl) :=
  match op with
  | .iadd => intBin (fun w x y => .value (.int w (x + y))) args
  | .isub => intBin (fun w x y => .value (.int w (x - y))) args
  | .imul => intBin (fun w x y => .value (.int w (x * y))) args
  | .sdiv => intBin divS args
  | .udiv => intBin divU args
  | .srem => intBin remS args
  | .urem => intBin remU args
  | .band => intBin (fun w x y => .value (.int w (x &&& y))) args
  | .bor => intBin (fun w x y => .value (.int w (x ||| y))) args
  | .bxor => intBin (fun w x y => .value (.int w (x ^^^ y))) args
  | .ishl => intBin (fun w x y => .value (.int w (x <<< (y.toNat % w)))) args
  | .sshr => intBin (fun w x y => .value (.int w (x.sshiftRight (y.toNat % w)))) args
  | .ushr => intBin (fun w x y => .value (.int w (x >>> (y.toNat % w)))) args
  | .ineg =>
    match args with
    | [.int w x] => .value (.int w (-x))
    | _ => .rejected
  | .fadd => fltBin (fun w x y => .flt w (fl.add x y)) args
  | .fsub => fltBin (fun w x y => .flt w (fl.sub x y)) args
  | .fmul => fltBin (fun w x y => .flt w (fl.mul x y)) args
  | .fdiv => fltBin (fun w x y => .flt w (fl.div x y)) args
  | .fneg =>
    match args with
    | [.flt w x] => .value (.flt w (fl.neg x))
    | _ => .rejected
  | .icmp cond =>
    match parseIntCC cond with
    | none => .rejected
    | some cc => intBin (fun _ x y => .value (flag 8 (cc.holds x y))) args
  | .fcmp cond =>
    match parseFloatCC cond with
    | none => .rejected
    | some cc => fltBin (fun _ x y => flag 8 (cc.holds x y)) args
  | .ireduce =>
    match args, translateType ty with
    | [.int w x], some (.int w') => if w' < w then .value (.int w' (x.setWidth w')) else .rejected
    | _, _ => .rejected
  | .sextend =>
    match args, translateType ty with
    | [.int w x], some (.int w') => if w < w' then .value (.int w' (x.signExtend w')) else .rejected
    | _, _ => .rejected
  | .uextend =>
    match args, translateType ty with
    | [.int w x], some (.int w') => if w < w' then .value (.int w' (x.setWidth w')) else .rejected
    | _, _ => .rejected
  | .fpromote =>
    match args, translateType ty with
    | [.flt .single x], some .f64 => .value (.flt .double (fl.promote x))
    | _, _ => .rejected
  | .fdemote =>
    match args, translateType ty with
    | [.flt .double x], some .f32 => .value (.flt .single (fl.demote x))
    | _, _ => .rejected
  | .fcvtToSint =>
    match args, translateType ty with
    | [.flt _ x], some (.int w) => truncS w x
    | _, _ => .rejected
  | .fcvtToUint =>
    match args, translateType ty with
    | [.flt _ x], some (.int w) => truncU w x
    | _, _ => .rejected
  | .fcvtFromSint =>
    match args, translateType ty with
    | [.int _ x], some .f32 => .value (.flt .single (fl.ofInt .single x.toInt))
    | [.int _ x], some .f64 => .value (.flt .double (fl.ofInt .double x.toInt))
    | _, _ => .rejected
  | .fcvtFromUint =>
    match args, translateType ty with
    | [.int _ x], some .f32 => .value (.flt .single (fl.ofInt .single x.toNat))
    | [.int _ x], some .f64 => .value (.flt .double (fl.ofInt .double x.toNat))
    | _, _ => .rejected

/-! ## WebAssembly -/

/-- A two-operand instruction on integers of width `w`. -/
def wasmInt {fl : Floats} (w : Nat) (f : BitVec w → BitVec w → Outcome (Val fl)) :
    List (Val fl) → Outcome (Val fl)
  | [.int a x, .int b y] =>
    if h : a = w then if h' : b = w then f (h ▸ x) (h' ▸ y) else .rejected else .rejected
  | _ => .rejected

/-- A two-operand instruction on floats of width `w`. -/
def wasmFlt {fl : Floats} (w : FW) (f : fl.F w → fl.F w → Val fl) :
    List (Val fl) → Outcome (Val fl)
  | [.flt a x, .flt b y] =>
    if h : a = w then if h' : b = w then .value (f (h ▸ x) (h' ▸ y)) else .rejected else .rejected
  | _ => .rejected

/-- A one-operand instruction on an integer of width `w`. -/
def wasmInt1 {fl : Floats} (w : Nat) (f : BitVec w → Outcome (Val fl)) :
    List (Val fl) → Outcome (Val fl)
  | [.int a x] => if h : a = w then f (h ▸ x) else .rejected
  | _ => .rejected

/-- A one-operand instruction on a float of width `w`. -/
def wasmFlt1 {fl : Floats} (w : FW) (f : fl.F w → Outcome (Val fl)) :
    List (Val fl) → Outcome (Val fl)
  | [.flt a x] => if h : a = w then f (h ▸ x) else .rejected
  | _ => .rejected

/-- Executing a WebAssembly instruction; comparisons yield an `i32`. -/
def wasmExec (fl : Floats) (op : Wasm) (args : List (Val fl)) : Outcome (Val fl) :=
  match op with
  | .i32Const v => .value (.int 32 (BitVec.ofInt 32 v))
  | .i64Const v => .value (.int 64 (BitVec.ofInt 64 v))
  | .i32Add => wasmInt 32 (fun x y => .value (.int 32 (x + y))) args
  | .i32Sub => wasmInt 32 (fun x y => .value (.int 32 (x - y))) args
  | .i32Mul => wasmInt 32 (fun x y => .value (.int 32 (x * y))) args
  | .i32DivS => wasmInt 32 (divS 32) args
  | .i32DivU => wasmInt 32 (divU 32) args
  | .i32RemS => wasmInt 32 (remS 32) args
  | .i32RemU => wasmInt 32 (remU 32) args
  | .i64Add => wasmInt 64 (fun x y => .value (.int 64 (x + y))) args
  | .i64Sub => wasmInt 64 (fun x y => .value (.int 64 (x - y))) args
  | .i64Mul => wasmInt 64 (fun x y => .value (.int 64 (x * y))) args
  | .i64DivS => wasmInt 64 (divS 64) args
  | .i64DivU => wasmInt 64 (divU 64) args
  | .i64RemS => wasmInt 64 (remS 64) args
  | .i64RemU => wasmInt 64 (remU 64) args
  | .i32Eq => wasmInt 32 (fun x y => .value (flag 32 (x == y))) args
  | .i32Ne => wasmInt 32 (fun x y => .value (flag 32 (!(x == y)))) args
  | .i32LtS => wasmInt 32 (fun x y => .value (flag 32 (decide (x.toInt < y.toInt)))) args
  | .i32LeS => wasmInt 32 (fun x y => .value (flag 32 (decide (x.toInt ≤ y.toInt)))) args
  | .i32GtS => wasmInt 32 (fun x y => .value (flag 32 (decide (y.toInt < x.toInt)))) args
  | .i32GeS => wasmInt 32 (fun x y => .value (flag 32 (decide (y.toInt ≤ x.toInt)))) args
  | .i32LtU => wasmInt 32 (fun x y => .value (flag 32 (decide (x.toNat < y.toNat)))) args
  | .i64Eq => wasmInt 64 (fun x y => .value (flag 32 (x == y))) args
  | .i64Ne => wasmInt 64 (fun x y => .value (flag 32 (!(x == y)))) args
  | .i64LtS => wasmInt 64 (fun x y => .value (flag 32 (decide (x.toInt < y.toInt)))) args
  | .i64LeS => wasmInt 64 (fun x y => .value (flag 32 (decide (x.toInt ≤ y.toInt)))) args
  | .i64GtS => wasmInt 64 (fun x y => .value (flag 32 (decide (y.toInt < x.toInt)))) args
  | .i64GeS => wasmInt 64 (fun x y => .value (flag 32 (decide (y.toInt ≤ x.toInt)))) args
  | .i32And => wasmInt 32 (fun x y => .value (.int 32 (x &&& y))) args
  | .i32Or => wasmInt 32 (fun x y => .value (.int 32 (x ||| y))) args
  | .i32Xor => wasmInt 32 (fun x y => .value (.int 32 (x ^^^ y))) args
  | .i32Shl => wasmInt 32 (fun x y => .value (.int 32 (x <<< (y.toNat % 32)))) args
  | .i32ShrS => wasmInt 32 (fun x y => .value (.int 32 (x.sshiftRight (y.toNat % 32)))) args
  | .i32ShrU => wasmInt 32 (fun x y => .value (.int 32 (x >>> (y.toNat % 32)))) args
  | .i64And => wasmInt 64 (fun x y => .value (.int 64 (x &&& y))) args
  | .i64Or => wasmInt 64 (fun x y => .value (.int 64 (x ||| y))) args
  | .i64Xor => wasmInt 64 (fun x y => .value (.int 64 (x ^^^ y))) args
  | .i64Shl => wasmInt 64 (fun x y => .value (.int 64 (x <<< (y.toNat % 64)))) args
  | .i64ShrS => wasmInt 64 (fun x y => .value (.int 64 (x.sshiftRight (y.toNat % 64)))) args
  | .i64ShrU => wasmInt 64 (fun x y => .value (.int 64 (x >>> (y.toNat % 64)))) args
  | .f32Add => wasmFlt .single (fun x y => .flt .single (fl.add x y)) args
  | .f32Sub => wasmFlt .single (fun x y => .flt .single (fl.sub x y)) args
  | .f32Mul => wasmFlt .single (fun x y => .flt .single (fl.mul x y)) args
  | .f32Div => wasmFlt .single (fun x y => .flt .single (fl.div x y)) args
  | .f32Neg => wasmFlt1 .single (fun x => .value (.flt .single (fl.neg x))) args
  | .f64Add => wasmFlt .double (fun x y => .flt .double (fl.add x y)) args
  | .f64Sub => wasmFlt .double (fun x y => .flt .double (fl.sub x y)) args
  | .f64Mul => wasmFlt .double (fun x y => .flt .double (fl.mul x y)) args
  | .f64Div => wasmFlt .double (fun x y => .flt .double (fl.div x y)) args
  | .f64Neg => wasmFlt1 .double (fun x => .value (.flt .double (fl.neg x))) args
  | .f32Eq => wasmFlt .single (fun x y => flag 32 (fl.eq x y)) args
  | .f32Ne => wasmFlt .single (fun x y => flag 32 (!fl.eq x y)) args
  | .f32Lt => wasmFlt .single (fun x y => flag 32 (fl.lt x y)) args
  | .f32Le => wasmFlt .single (fun x y => flag 32 (fl.le x y)) args
  | .f32Gt => wasmFlt .single (fun x y => flag 32 (fl.lt y x)) args
  | .f32Ge => wasmFlt .single (fun x y => flag 32 (fl.le y x)) args
  | .f64Eq => wasmFlt .double (fun x y => flag 32 (fl.eq x y)) args
  | .f64Ne => wasmFlt .double (fun x y => flag 32 (!fl.eq x y)) args
  | .f64Lt => wasmFlt .double (fun x y => flag 32 (fl.lt x y)) args
  | .f64Le => wasmFlt .double (fun x y => flag 32 (fl.le x y)) args
  | .f64Gt => wasmFlt .double (fun x y => flag 32 (fl.lt y x)) args
  | .f64Ge => wasmFlt .double (fun x y => flag 32 (fl.le y x)) args
  | .i32WrapI64 => wasmInt1 64 (fun x => .value (.int 32 (x.setWidth 32))) args
  | .i64ExtendI32S => wasmInt1 32 (fun x => .value (.int 64 (x.signExtend 64))) args
  | .i32TruncF32S => wasmFlt1 .single (truncS 32) args
  | .i32TruncF64S => wasmFlt1 .double (truncS 32) args
  | .i64TruncF32S => wasmFlt1 .single (truncS 64) args
  | .i64TruncF64S => wasmFlt1 .double (truncS 64) args
  | .f32ConvertI32S => wasmInt1 32 (fun x => .value (.flt .single (fl.ofInt .single x.toInt))) args
  | .f64ConvertI32S => wasmInt1 32 (fun x => .value (.flt .double (fl.ofInt .double x.toInt))) args
  | .f32ConvertI64S => wasmInt1 64 (fun x => .value (.flt .single (fl.ofInt .single x.toInt))) args
  | .f64ConvertI64S => wasmInt1 64 (fun x => .value (.flt .double (fl.ofInt .double x.toInt))) args
  | .f64PromoteF32 => wasmFlt1 .single (fun x => .value (.flt .double (fl.promote x))) args
  | .f32DemoteF64 => wasmFlt1 .double (fun x => .value (.flt .single (fl.demote x))) args

/-! ## Running emitted code -/

/-- The value an operand names. -/
def Arg.get {α : Type} (x y : α) (prev : Option α) : Arg → Option α
  | .lhs => some x
  | .rhs => some y
  | .prev => prev

/-- Run emitted operations one after the other; the last one's result is the result. -/
def runCode {Op α : Type} (exec : Op → Ty → List α → Outcome α) (x y : α) :
    Option α → List (Emitted Op) → Outcome α
  | none, [] => .rejected
  | some v, [] => .value v
  | prev, e :: rest =>
    match e.args.mapM (Arg.get x y prev) with
    | none => .rejected
    | some args => (exec e.op e.ty args).bind fun v => runCode exec x y (some v) rest

/-- What native code computes for an `arith` operation whose operands have type `src` and whose
result has type `res`. -/
def runNative (fl : Floats) (op : Arith) (src res : Ty) (x y : Val fl) : Outcome (Val fl) :=
  match toClif op src res with
  | none => .rejected
  | some code => runCode (clifExec fl) x y none code

/-- What WebAssembly code computes for an `arith` operation. -/
def runWasm (fl : Floats) (op : Arith) (src res : Ty) (x y : Val fl) : Outcome (Val fl) :=
  match toWasm op src res with
  | none => .rejected
  | some code => runCode (fun o _ a => wasmExec fl o a) x y none code

/-! ## What the language promises -/

/-- The operators of the numeric types. -/
inductive Sym where
  | add | sub | mul | div | rem | eq | ne | lt | le | gt | ge
  deriving DecidableEq, Repr

/-- How an operator is written. -/
def Sym.text : Sym → String
  | .add => "+"
  | .sub => "-"
  | .mul => "*"
  | .div => "/"
  | .rem => "%"
  | .eq => "=="
  | .ne => "!="
  | .lt => "<"
  | .le => "<="
  | .gt => ">"
  | .ge => ">="

/-- Comparisons yield `Bool`, the other operators the type of their operands. -/
def Sym.isComparison : Sym → Bool
  | .add | .sub | .mul | .div | .rem => false
  | _ => true

/-- `r` is what is left of the integer `z` in 32 bits, read as a signed number. -/
def WrapsSigned (z r : Int) : Prop :=
  -(2 : Int) ^ 31 ≤ r ∧ r < (2 : Int) ^ 31 ∧ ∃ k : Int, z = r + k * 2 ^ 32

/-- `r` is what is left of the integer `z` in 32 bits, read as an unsigned number. -/
def WrapsUnsigned (z : Int) (r : Nat) : Prop :=
  r < 2 ^ 32 ∧ ∃ k : Int, z = r + k * 2 ^ 32

/-- The machine's `True` and `False`. -/
def isBool {fl : Floats} (b : Prop) (o : Outcome (Val fl)) : Prop :=
  (b → o = .value (.int 32 1#32)) ∧ (¬b → o = .value (.int 32 0#32))

/-- The outcome is the number `z`, as a 32-bit signed value. -/
def isInt {fl : Floats} (P : Int → Prop) (o : Outcome (Val fl)) : Prop :=
  ∃ r : BitVec 32, o = .value (.int 32 r) ∧ P r.toInt

/-- The outcome is the number `n`, as a 32-bit unsigned value. -/
def isNat {fl : Floats} (P : Nat → Prop) (o : Outcome (Val fl)) : Prop :=
  ∃ r : BitVec 32, o = .value (.int 32 r) ∧ P r.toNat

/-- The operators of `Int`: 32-bit wrapping arithmetic, division truncating towards zero that traps
when there is no quotient, comparisons of the numbers. -/
def IntMeaning {fl : Floats} (a b : Int) (o : Outcome (Val fl)) : Sym → Prop
  | .add => isInt (WrapsSigned (a + b)) o
  | .sub => isInt (WrapsSigned (a - b)) o
  | .mul => isInt (WrapsSigned (a * b)) o
  | .div => (b = 0 ∨ (a = -(2 : Int) ^ 31 ∧ b = -1) → o = .trap) ∧
      (¬(b = 0 ∨ (a = -(2 : Int) ^ 31 ∧ b = -1)) → isInt (· = a.tdiv b) o)
  | .rem => (b = 0 → o = .trap) ∧ (b ≠ 0 → isInt (· = a.tmod b) o)
  | .eq => isBool (a = b) o
  | .ne => isBool (a ≠ b) o
  | .lt => isBool (a < b) o
  | .le => isBool (a ≤ b) o
  | .gt => isBool (a > b) o
  | .ge => isBool (a ≥ b) o

/-- The operators of `Nat`. -/
def NatMeaning {fl : Floats} (a b : Nat) (o : Outcome (Val fl)) : Sym → Prop
  | .add => isNat (WrapsUnsigned (a + b)) o
  | .sub => isNat (WrapsUnsigned ((a : Int) - b)) o
  | .mul => isNat (WrapsUnsigned (a * b)) o
  | .div => (b = 0 → o = .trap) ∧ (b ≠ 0 → isNat (· = a / b) o)
  | .rem => (b = 0 → o = .trap) ∧ (b ≠ 0 → isNat (· = a % b) o)
  | .eq => isBool (a = b) o
  | .ne => isBool (a ≠ b) o
  | .lt => isBool (a < b) o
  | .le => isBool (a ≤ b) o
  | .gt => isBool (a > b) o
  | .ge => isBool (a ≥ b) o

/-- The operators of `Float`: IEEE double precision; there is no remainder. -/
def FloatMeaning {fl : Floats} (a b : fl.F .double) (o : Outcome (Val fl)) : Sym → Prop
  | .add => o = .value (.flt .double (fl.add a b))
  | .sub => o = .value (.flt .double (fl.sub a b))
  | .mul => o = .value (.flt .double (fl.mul a b))
  | .div => o = .value (.flt .double (fl.div a b))
  | .rem => True
  | .eq => isBool (fl.eq a b = true) o
  | .ne => isBool (fl.eq a b = false) o
  | .lt => isBool (fl.lt a b = true) o
  | .le => isBool (fl.le a b = true) o
  | .gt => isBool (fl.lt b a = true) o
  | .ge => isBool (fl.le b a = true) o

/-- The two ways an operator of the prelude is reached: a saturated call, or its own function, when
the operator is used as a value. -/
inductive Route where
  | call | value
  deriving DecidableEq, Repr

/-- The operation the compiler emits for the operator. -/
def Route.lower : Route → String → Option (Use Arith)
  | .call => lowerCall
  | .value => lowerIntrinsic

/-- What a target computes when the operator `name` is applied to `x` and `y`, values of a type the
frontend represents as `ty`; comparisons have type `core.i1`
(crates/tribute-front/src/ast_to_ir/context.rs 624-630). -/
def operator {fl : Floats} (target : Arith → Ty → Ty → Val fl → Val fl → Outcome (Val fl))
    (route : Route) (module : String) (s : Sym) (ty : Ty) (x y : Val fl) : Outcome (Val fl) :=
  match route.lower (module ++ "::" ++ s.text) with
  | none => .rejected
  | some u =>
    match u.args.mapM (Arg.get x y none) with
    | some [a, b] => target u.op ty (if s.isComparison then .i1 else ty) a b
    | _ => .rejected

/-! ## Operations that make sense on both targets -/

/-- The machine representation that both targets give to a type. -/
def rep : Ty → Option ClifTy
  | .i1 | .int | .nat | .bool | .i32 => some (.int 32)
  | .i64 => some (.int 64)
  | .f32 => some .f32
  | .f64 => some .f64
  | _ => none

/-- The value has the representation. -/
def Val.Has {fl : Floats} : Val fl → ClifTy → Prop
  | .int w _, .int w' => w = w'
  | .flt .single _, .f32 => True
  | .flt .double _, .f64 => True
  | _, _ => False

/-- Integer predicates (crates/trunk-ir/src/dialect/arith.rs 6). -/
def intPredicates : List String :=
  ["eq", "ne", "slt", "sle", "sgt", "sge", "ult", "ule", "ugt", "uge"]

/-- Float predicates (crates/trunk-ir/src/dialect/arith.rs 7). -/
def floatPredicates : List String := ["oeq", "une", "olt", "ole", "ogt", "oge"]

/-- A well-typed operation on values of the right types. -/
def Typed {fl : Floats} (op : Arith) (src res : Ty) (x y : Val fl) : Prop :=
  match op with
  | .addi | .subi | .muli | .divsi | .divui | .remsi | .remui
  | .and | .or | .xor | .shl | .shr | .shru =>
    ∃ w, rep src = some (.int w) ∧ rep res = some (.int w) ∧ x.Has (.int w) ∧ y.Has (.int w)
  | .negi => ∃ w, rep src = some (.int w) ∧ rep res = some (.int w) ∧ x.Has (.int w)
  | .addf | .subf | .mulf | .divf =>
    ∃ t, (t = .f32 ∨ t = .f64) ∧ rep src = some t ∧ rep res = some t ∧ x.Has t ∧ y.Has t
  | .negf => ∃ t, (t = .f32 ∨ t = .f64) ∧ rep src = some t ∧ rep res = some t ∧ x.Has t
  | .cmpi p => p ∈ intPredicates ∧
      ∃ w, rep src = some (.int w) ∧ rep res = some (.int 32) ∧ x.Has (.int w) ∧ y.Has (.int w)
  | .cmpf p => p ∈ floatPredicates ∧
      ∃ t, (t = .f32 ∨ t = .f64) ∧ rep src = some t ∧ rep res = some (.int 32) ∧ x.Has t ∧ y.Has t
  | .cast | .trunc | .extend | .convert =>
    ∃ t t', rep src = some t ∧ rep res = some t' ∧ x.Has t

/-- The operations whose meaning depends on a number being unsigned, which WebAssembly lowering
does not (yet) support: unsigned comparisons other than `ult` at 32 bits, and conversions from or to
`nat` and `bool`. -/
def NeedsUnsigned (op : Arith) (src res : Ty) : Prop :=
  match op with
  | .cmpi p => p = "ule" ∨ p = "ugt" ∨ p = "uge" ∨ (p = "ult" ∧ rep src = some (.int 64))
  | .extend => src = .nat ∨ src = .bool
  | .convert => src = .nat ∨ src = .bool ∨ res = .nat ∨ res = .bool
  | _ => False

end Verif.Operators
