/-!
# Numeric operators, from the prelude's names to machine code

The operators of `Int`, `Nat` and `Float` are declared in the prelude as intrinsics
(lib/std/prelude.trb 136-147, 305-330).  Calls of them become operations of the `arith` dialect
(crates/tribute-passes/src/intrinsic_to_arith.rs, and the shortcut in
crates/tribute-front/src/ast_to_ir/lower/logical.rs).  The native target lowers those to the `clif`
dialect (crates/trunk-ir-cranelift-backend/src/passes/arith_to_clif.rs), which
crates/trunk-ir-cranelift-backend/src/function.rs translates to Cranelift instructions; the
WebAssembly target lowers them to the `wasm` dialect
(crates/trunk-ir-wasm-backend/src/passes/arith_to_wasm.rs), which emit.rs writes out.

Simplifications: types are the names the passes look at (both `type_category` and `type_suffix`
read only the name of a type).  A type with any other name is `Ty.other`.  Operand lists are the
ones the operations declare, so the "missing operand" exits of the patterns are not modelled.
-/
namespace Verif.Operators

/-- The type names that the lowering passes distinguish
(arith_to_clif.rs 49-108, arith_to_wasm.rs 528-575). -/
inductive Ty where
  | i1 | i8 | i16 | i32 | i64 | int | nat | bool | f32 | f64 | nil | ptr | other
  deriving DecidableEq, Repr

/-- Operations of the `arith` dialect (crates/trunk-ir/src/dialect/arith.rs 45-92).  The predicate
of a comparison is a symbol, that is a string. -/
inductive Arith where
  | addi | subi | muli | divsi | divui | remsi | remui | negi
  | addf | subf | mulf | divf | negf
  | cmpi (predicate : String) | cmpf (predicate : String)
  | and | or | xor | shl | shr | shru
  | cast | trunc | extend | convert
  deriving DecidableEq, Repr

/-- Where an operand of an emitted operation comes from: an operand of the operation being
replaced, or the result of the operation emitted just before. -/
inductive Arg where
  | lhs | rhs | prev
  deriving DecidableEq, Repr

/-! ## From operator names to `arith` -/

/-- `ArithIntrinsicPattern::new`: the operators the pass knows
(crates/tribute-passes/src/intrinsic_to_arith.rs 72-176).  `BinaryOp(arith::addi)` and the like are
the operations themselves; `CmpI`/`CmpF` carry the predicate. -/
def intrinsicMap : String → Option Arith
  | "Int::+" => some .addi
  | "Int::-" => some .subi
  | "Int::*" => some .muli
  | "Int::/" => some .divsi
  | "Int::%" => some .remsi
  | "Int::==" => some (.cmpi "eq")
  | "Int::!=" => some (.cmpi "ne")
  | "Int::<" => some (.cmpi "slt")
  | "Int::<=" => some (.cmpi "sle")
  | "Int::>" => some (.cmpi "sgt")
  | "Int::>=" => some (.cmpi "sge")
  | "Nat::+" => some .addi
  | "Nat::-" => some .subi
  | "Nat::*" => some .muli
  | "Nat::/" => some .divui
  | "Nat::%" => some .remui
  | "Nat::==" => some (.cmpi "eq")
  | "Nat::!=" => some (.cmpi "ne")
  | "Nat::<" => some (.cmpi "ult")
  | "Nat::<=" => some (.cmpi "ule")
  | "Nat::>" => some (.cmpi "ugt")
  | "Nat::>=" => some (.cmpi "uge")
  | "Float::+" => some .addf
  | "Float::-" => some .subf
  | "Float::*" => some .mulf
  | "Float::/" => some .divf
  | "Float::==" => some (.cmpf "oeq")
  | "Float::!=" => some (.cmpf "une")
  | "Float::<" => some (.cmpf "olt")
  | "Float::<=" => some (.cmpf "ole")
  | "Float::>" => some (.cmpf "ogt")
  | "Float::>=" => some (.cmpf "oge")
  | _ => none

/-- An operation together with where its two operands come from. -/
structure Use (Op : Type) where
  op : Op
  args : List Arg
  deriving DecidableEq, Repr

/-- `ArithIntrinsicPattern::match_and_rewrite`: a call of a known operator becomes the operation, on
the call's two operands in order (intrinsic_to_arith.rs 178-214); and
`ArithIntrinsicFuncDeclPattern::match_and_rewrite`: the body given to the operator's own function,
which is what a use of the operator as a value runs, is the same operation on the function's two
parameters (intrinsic_to_arith.rs 222-309). -/
def lowerIntrinsic (name : String) : Option (Use Arith) := do
  let op ← intrinsicMap name
  pure ⟨op, [.lhs, .rhs]⟩

/-- `lower_arith_intrinsic`: the shortcut that the frontend takes for a saturated call of an
arithmetic operator (crates/tribute-front/src/ast_to_ir/lower/logical.rs 1812-1839).  `none` means
the frontend emits a call after all. -/
def lowerArithIntrinsic (name : String) : Option (Use Arith) :=
  let op : Option Arith :=
    if name = "Int::+" ∨ name = "Nat::+" then some .addi
    else if name = "Int::-" ∨ name = "Nat::-" then some .subi
    else if name = "Int::*" ∨ name = "Nat::*" then some .muli
    else if name = "Int::/" then some .divsi
    else if name = "Nat::/" then some .divui
    else if name = "Int::%" then some .remsi
    else if name = "Nat::%" then some .remui
    else if name = "Float::+" then some .addf
    else if name = "Float::-" then some .subf
    else if name = "Float::*" then some .mulf
    else if name = "Float::/" then some .divf
    else none
  op.map fun o => ⟨o, [.lhs, .rhs]⟩

/-- A saturated call of an operator: the frontend's shortcut, or else a call that the pass rewrites
(logical.rs 1706-1730). -/
def lowerCall (name : String) : Option (Use Arith) :=
  match lowerArithIntrinsic name with
  | some u => some u
  | none => lowerIntrinsic name

/-! ## Native: `arith` to `clif` -/

/-- The primitive conversions of the native type converter
(crates/tribute-passes/src/native/type_converter.rs 122-131; every other name is kept). -/
def nativeType : Ty → Ty
  | .int | .nat | .bool => .i32
  | .i1 => .i32
  | t => t

/-- `type_category` (arith_to_clif.rs 48-75); the strings become constructors. -/
inductive Category where
  | int | f32 | f64 | nil
  deriving DecidableEq, Repr

/-- `type_category` (arith_to_clif.rs 48-75). -/
def typeCategory : Ty → Category
  | .f32 => .f32
  | .f64 => .f64
  | .nil => .nil
  | _ => .int

/-- `is_unsigned_int` (arith_to_clif.rs 77-85). -/
def isUnsignedInt : Ty → Bool
  | .nat | .bool => true
  | _ => false

/-- The local `width` of `is_wider_int` (arith_to_clif.rs 88-108). -/
def intWidth : Ty → Nat
  | .i64 => 64
  | .i32 | .int | .nat => 32
  | .i16 => 16
  | .i8 | .bool | .i1 => 8
  | _ => 32

/-- `is_wider_int` (arith_to_clif.rs 87-113), for a known source type. -/
def isWiderInt (dst src : Ty) : Bool := decide (intWidth src < intWidth dst)

/-- Operations of the `clif` dialect that the pass emits. -/
inductive Clif where
  | iadd | isub | imul | sdiv | udiv | srem | urem | ineg
  | fadd | fsub | fmul | fdiv | fneg
  | icmp (cond : String) | fcmp (cond : String)
  | band | bor | bxor | ishl | sshr | ushr
  | ireduce | sextend | uextend | fpromote | fdemote
  | fcvtToSint | fcvtToUint | fcvtFromSint | fcvtFromUint
  deriving DecidableEq, Repr

/-- One emitted operation: what it does, its operands, and the type of its result. -/
structure Emitted (Op : Type) where
  op : Op
  args : List Arg
  ty : Ty
  deriving DecidableEq, Repr

/-- `ArithBinOpPattern` (arith_to_clif.rs 176-231). -/
def clifBinOp : Arith → Option Clif
  | .addi => some .iadd
  | .addf => some .fadd
  | .subi => some .isub
  | .subf => some .fsub
  | .muli => some .imul
  | .mulf => some .fmul
  | .divsi => some .sdiv
  | .divui => some .udiv
  | .divf => some .fdiv
  | .remsi => some .srem
  | .remui => some .urem
  | _ => none

/-- `finalize_cmp`: the comparison yields an `i8`, extended when the result type is another
(arith_to_clif.rs 233-254). -/
def finalizeCmp (cmp : Clif) (resTy : Ty) : List (Emitted Clif) :=
  if resTy = .i8 then [⟨cmp, [.lhs, .rhs], .i8⟩]
  else [⟨cmp, [.lhs, .rhs], .i8⟩, ⟨.uextend, [.prev], resTy⟩]

/-- The mapping of float predicates (arith_to_clif.rs 297-306). -/
def clifFloatCond : String → String
  | "oeq" => "eq"
  | "une" => "ne"
  | "olt" => "lt"
  | "ole" => "le"
  | "ogt" => "gt"
  | "oge" => "ge"
  | p => p

/-- `ArithBitwisePattern` (arith_to_clif.rs 352-407). -/
def clifBitwise : Arith → Option Clif
  | .and => some .band
  | .or => some .bor
  | .xor => some .bxor
  | .shl => some .ishl
  | .shr => some .sshr
  | .shru => some .ushr
  | _ => none

/-- `ArithConversionPattern` (arith_to_clif.rs 409-493): `src` is the type of the operand,
`rawDst` the type of the result before conversion and `dst` after it. -/
def clifConversion (op : Arith) (src rawDst dst : Ty) : Option Clif :=
  match op, typeCategory src, typeCategory dst with
  | .cast, .int, .int => if isWiderInt dst src then some .sextend else some .ireduce
  | .trunc, .f32, .int => some .fcvtToSint
  | .trunc, .f64, .int => some .fcvtToSint
  | .trunc, .int, .int => some .ireduce
  | .extend, .int, .int => if isUnsignedInt src then some .uextend else some .sextend
  | .extend, .f32, .f64 => some .fpromote
  | .convert, .int, .f32 => if isUnsignedInt src then some .fcvtFromUint else some .fcvtFromSint
  | .convert, .int, .f64 => if isUnsignedInt src then some .fcvtFromUint else some .fcvtFromSint
  | .convert, .f32, .int => if isUnsignedInt rawDst then some .fcvtToUint else some .fcvtToSint
  | .convert, .f64, .int => if isUnsignedInt rawDst then some .fcvtToUint else some .fcvtToSint
  | .convert, .f32, .f64 => some .fpromote
  | .convert, .f64, .f32 => some .fdemote
  | _, _, _ => none

/-- `arith_to_clif::lower` on one operation: the patterns in order, and the operation is illegal
afterwards if none applies (arith_to_clif.rs 25-46).  `src` is the type of its first operand,
`resTy` the type of its result. -/
def toClif (op : Arith) (src resTy : Ty) : Option (List (Emitted Clif)) :=
  let ty := nativeType resTy
  match op with
  | .cmpi p => some (finalizeCmp (.icmp p) ty)
  | .cmpf p => some (finalizeCmp (.fcmp (clifFloatCond p)) ty)
  | .negi => some [⟨.ineg, [.lhs], ty⟩]
  | .negf => some [⟨.fneg, [.lhs], ty⟩]
  | _ =>
    match clifBinOp op with
    | some c => some [⟨c, [.lhs, .rhs], ty⟩]
    | none =>
      match clifBitwise op with
      | some c => some [⟨c, [.lhs, .rhs], ty⟩]
      | none =>
        match clifConversion op src resTy ty with
        | some c => some [⟨c, [.lhs], ty⟩]
        | none => none

/-- Cranelift's integer condition codes. -/
inductive IntCC where
  | equal | notEqual
  | signedLessThan | signedLessThanOrEqual | signedGreaterThan | signedGreaterThanOrEqual
  | unsignedLessThan | unsignedLessThanOrEqual | unsignedGreaterThan | unsignedGreaterThanOrEqual
  deriving DecidableEq, Repr

/-- `parse_int_cc` (crates/trunk-ir-cranelift-backend/src/function.rs 57-75). -/
def parseIntCC : String → Option IntCC
  | "eq" => some .equal
  | "ne" => some .notEqual
  | "slt" => some .signedLessThan
  | "sle" => some .signedLessThanOrEqual
  | "sgt" => some .signedGreaterThan
  | "sge" => some .signedGreaterThanOrEqual
  | "ult" => some .unsignedLessThan
  | "ule" => some .unsignedLessThanOrEqual
  | "ugt" => some .unsignedGreaterThan
  | "uge" => some .unsignedGreaterThanOrEqual
  | _ => none

/-- Cranelift's float condition codes that the translator uses. -/
inductive FloatCC where
  | equal | notEqual | lessThan | lessThanOrEqual | greaterThan | greaterThanOrEqual
  deriving DecidableEq, Repr

/-- `parse_float_cc` (function.rs 97-112). -/
def parseFloatCC : String → Option FloatCC
  | "eq" => some .equal
  | "ne" => some .notEqual
  | "lt" => some .lessThan
  | "le" => some .lessThanOrEqual
  | "gt" => some .greaterThan
  | "ge" => some .greaterThanOrEqual
  | _ => none

/-- The Cranelift types of values. -/
inductive ClifTy where
  | int (bits : Nat)
  | f32 | f64
  deriving DecidableEq, Repr

/-- `translate_type` (function.rs 115-145) on a 64-bit machine.  Simplified: names that only exist
outside the `core` dialect are the ones rejected. -/
def translateType : Ty → Option ClifTy
  | .i1 => some (.int 8)
  | .i8 => some (.int 8)
  | .i16 => some (.int 16)
  | .i32 => some (.int 32)
  | .i64 => some (.int 64)
  | .f32 => some .f32
  | .f64 => some .f64
  | .ptr => some (.int 64)
  | _ => none

/-! ## WebAssembly: `arith` to `wasm` -/

/-- `type_suffix` (arith_to_wasm.rs 528-575): a type whose name is not known counts as `i32`. -/
inductive Suffix where
  | i32 | i64 | f32 | f64 | nil
  deriving DecidableEq, Repr

/-- `type_suffix_opt` (arith_to_wasm.rs 540-575). -/
def typeSuffix : Ty → Suffix
  | .i32 => .i32
  | .i64 => .i64
  | .f32 => .f32
  | .f64 => .f64
  | .i1 | .int | .nat | .bool => .i32
  | .nil => .nil
  | _ => .i32

/-- Operations of the `wasm` dialect that the pass emits; `emit.rs` writes each as the instruction
of the same name (SIMPLE_OPS, crates/trunk-ir-wasm-backend/src/emit.rs 84-200). -/
inductive Wasm where
  | i32Const (v : Int) | i64Const (v : Int)
  | i32Add | i32Sub | i32Mul | i32DivS | i32DivU | i32RemS | i32RemU
  | i64Add | i64Sub | i64Mul | i64DivS | i64DivU | i64RemS | i64RemU
  | i32Eq | i32Ne | i32LtS | i32LeS | i32GtS | i32GeS | i32LtU
  | i64Eq | i64Ne | i64LtS | i64LeS | i64GtS | i64GeS
  | i32And | i32Or | i32Xor | i32Shl | i32ShrS | i32ShrU
  | i64And | i64Or | i64Xor | i64Shl | i64ShrS | i64ShrU
  | f32Add | f32Sub | f32Mul | f32Div | f32Neg
  | f64Add | f64Sub | f64Mul | f64Div | f64Neg
  | f32Eq | f32Ne | f32Lt | f32Le | f32Gt | f32Ge
  | f64Eq | f64Ne | f64Lt | f64Le | f64Gt | f64Ge
  | i32WrapI64 | i64ExtendI32S
  | i32TruncF32S | i32TruncF64S | i64TruncF32S | i64TruncF64S
  | f32ConvertI32S | f64ConvertI32S | f32ConvertI64S | f64ConvertI64S
  | f64PromoteF32 | f32DemoteF64
  deriving DecidableEq, Repr

/-- `ArithBinOpPattern` (arith_to_wasm.rs 117-217): the suffix is that of the result type. -/
def wasmBinOp : Arith → Suffix → Option Wasm
  | .addi, .i32 => some .i32Add
  | .addi, .i64 => some .i64Add
  | .addf, .f32 => some .f32Add
  | .addf, .f64 => some .f64Add
  | .subi, .i32 => some .i32Sub
  | .subi, .i64 => some .i64Sub
  | .subf, .f32 => some .f32Sub
  | .subf, .f64 => some .f64Sub
  | .muli, .i32 => some .i32Mul
  | .muli, .i64 => some .i64Mul
  | .mulf, .f32 => some .f32Mul
  | .mulf, .f64 => some .f64Mul
  | .divsi, .i32 => some .i32DivS
  | .divsi, .i64 => some .i64DivS
  | .divui, .i32 => some .i32DivU
  | .divui, .i64 => some .i64DivU
  | .divf, .f32 => some .f32Div
  | .divf, .f64 => some .f64Div
  | .remsi, .i32 => some .i32RemS
  | .remsi, .i64 => some .i64RemS
  | .remui, .i32 => some .i32RemU
  | .remui, .i64 => some .i64RemU
  | _, _ => none

/-- The integer half of `ArithCmpPattern` (arith_to_wasm.rs 236-262): the suffix is that of the
left operand's type. -/
def wasmCmpi : Suffix → String → Option Wasm
  | .i32, "eq" => some .i32Eq
  | .i64, "eq" => some .i64Eq
  | .i32, "ne" => some .i32Ne
  | .i64, "ne" => some .i64Ne
  | .i32, "slt" => some .i32LtS
  | .i64, "slt" => some .i64LtS
  | .i32, "sle" => some .i32LeS
  | .i64, "sle" => some .i64LeS
  | .i32, "sgt" => some .i32GtS
  | .i64, "sgt" => some .i64GtS
  | .i32, "sge" => some .i32GeS
  | .i64, "sge" => some .i64GeS
  | .i32, "ult" => some .i32LtU
  | _, _ => none

/-- The float half of `ArithCmpPattern` (arith_to_wasm.rs 263-288). -/
def wasmCmpf : Suffix → String → Option Wasm
  | .f32, "oeq" => some .f32Eq
  | .f64, "oeq" => some .f64Eq
  | .f32, "une" => some .f32Ne
  | .f64, "une" => some .f64Ne
  | .f32, "olt" => some .f32Lt
  | .f64, "olt" => some .f64Lt
  | .f32, "ole" => some .f32Le
  | .f64, "ole" => some .f64Le
  | .f32, "ogt" => some .f32Gt
  | .f64, "ogt" => some .f64Gt
  | .f32, "oge" => some .f32Ge
  | .f64, "oge" => some .f64Ge
  | _, _ => none

/-- `ArithNegPattern` (arith_to_wasm.rs 294-351): integers are subtracted from a fresh zero. -/
def wasmNeg : Arith → Suffix → Option (List (Emitted Wasm))
  | .negf, .f32 => some [⟨.f32Neg, [.lhs], .f32⟩]
  | .negf, .f64 => some [⟨.f64Neg, [.lhs], .f64⟩]
  | .negi, .i32 => some [⟨.i32Const 0, [], .i32⟩, ⟨.i32Sub, [.prev, .lhs], .i32⟩]
  | .negi, .i64 => some [⟨.i64Const 0, [], .i64⟩, ⟨.i64Sub, [.prev, .lhs], .i64⟩]
  | _, _ => none

/-- `ArithBitwisePattern` (arith_to_wasm.rs 353-431): anything but `i64` counts as `i32`. -/
def wasmBitwise : Arith → Suffix → Option Wasm
  | .and, .i64 => some .i64And
  | .and, _ => some .i32And
  | .or, .i64 => some .i64Or
  | .or, _ => some .i32Or
  | .xor, .i64 => some .i64Xor
  | .xor, _ => some .i32Xor
  | .shl, .i64 => some .i64Shl
  | .shl, _ => some .i32Shl
  | .shr, .i64 => some .i64ShrS
  | .shr, _ => some .i32ShrS
  | .shru, .i64 => some .i64ShrU
  | .shru, _ => some .i32ShrU
  | _, _ => none

/-- `ArithConversionPattern` (arith_to_wasm.rs 433-522). -/
def wasmConversion : Arith → Suffix → Suffix → Option Wasm
  | .cast, .i64, .i32 => some .i32WrapI64
  | .cast, .i32, .i64 => some .i64ExtendI32S
  | .trunc, .f32, .i32 => some .i32TruncF32S
  | .trunc, .f64, .i32 => some .i32TruncF64S
  | .trunc, .f32, .i64 => some .i64TruncF32S
  | .trunc, .f64, .i64 => some .i64TruncF64S
  | .trunc, .i64, .i32 => some .i32WrapI64
  | .extend, .i32, .i64 => some .i64ExtendI32S
  | .extend, .f32, .f64 => some .f64PromoteF32
  | .convert, .i32, .f32 => some .f32ConvertI32S
  | .convert, .i32, .f64 => some .f64ConvertI32S
  | .convert, .i64, .f32 => some .f32ConvertI64S
  | .convert, .i64, .f64 => some .f64ConvertI64S
  | .convert, .f32, .i32 => some .i32TruncF32S
  | .convert, .f64, .i32 => some .i32TruncF64S
  | .convert, .f32, .i64 => some .i64TruncF32S
  | .convert, .f64, .i64 => some .i64TruncF64S
  | .convert, .f32, .f64 => some .f64PromoteF32
  | .convert, .f64, .f32 => some .f32DemoteF64
  | _, _, _ => none

/-- `arith_to_wasm::lower` on one operation (arith_to_wasm.rs 24-37).  An operation that no pattern
rewrites stays in the `arith` dialect, and `validate_wasm_ir` then refuses the module
(crates/trunk-ir-wasm-backend/src/validation.rs 36-80). -/
def toWasm (op : Arith) (src resTy : Ty) : Option (List (Emitted Wasm)) :=
  match op with
  | .cmpi p => (wasmCmpi (typeSuffix src) p).map fun w => [⟨w, [.lhs, .rhs], resTy⟩]
  | .cmpf p => (wasmCmpf (typeSuffix src) p).map fun w => [⟨w, [.lhs, .rhs], resTy⟩]
  | .negi => wasmNeg .negi (typeSuffix resTy)
  | .negf => wasmNeg .negf (typeSuffix resTy)
  | _ =>
    match wasmBinOp op (typeSuffix resTy) with
    | some w => some [⟨w, [.lhs, .rhs], resTy⟩]
    | none =>
      match wasmBitwise op (typeSuffix resTy) with
      | some w => some [⟨w, [.lhs, .rhs], resTy⟩]
      | none =>
        match wasmConversion op (typeSuffix src) (typeSuffix resTy) with
        | some w => some [⟨w, [.lhs], resTy⟩]
        | none => none

end Verif.Operators
