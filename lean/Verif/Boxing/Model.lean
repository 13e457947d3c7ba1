/-!
# Boxing of primitive values

Where a value of a known type meets a position of unknown type (a type variable, the value carried by a
continuation, …) the front end puts a cast.  This file models what the compiler makes of such a cast: the
two places where casts are resolved, the boxing operations that come out of the first, and their code on
the native target and on WebAssembly, with the machine instructions they are made of.

Simplifications: only casts between a primitive type and the type of references are followed, and the
type of a value is one of the list below (no structures, functions, arrays or evidence).  Reference
counting of boxes is the subject of other areas.
-/
namespace Verif.Boxing

/-! ## Types and casts -/

/-- The types of the intermediate language that take part.  `tribute_rt.int`, `nat`, `bool`, `float`,
`anyref` (crates/tribute-ir/src/dialect/tribute_rt.rs); `core.i1`, `i32`, `i64`, `f64`, `ptr`, `nil`; and
`wasm.anyref`. -/
inductive Ty | int | nat | bool | float | anyref | i1 | i32 | i64 | f64 | ptr | nil | wasmAny
  deriving DecidableEq, Repr

/-- The primitive types of the language. -/
inductive Prim | int | nat | rune | bool | float | nil
  deriving DecidableEq, Repr

/-- `IrLoweringCtx::convert_type` (crates/tribute-front/src/ast_to_ir/context.rs 624-631), primitive
types. -/
def Prim.ty : Prim → Ty
  | .int | .nat | .rune => .i32
  | .float => .f64
  | .bool => .i1
  | .nil => .nil

/-- The boxing operations of the intermediate language (crates/tribute-ir/src/dialect/tribute_rt.rs). -/
inductive RtOp | boxInt | boxNat | boxBool | boxFloat | unboxInt | unboxNat | unboxBool | unboxFloat
  deriving DecidableEq, Repr

/-- The conversions of `generic_type_converter` (crates/tribute-passes/src/type_converter.rs 62-96). -/
def genericConvert : Ty → Option Ty
  | .int | .nat | .bool => some .i32
  | .float => some .f64
  | _ => none

/-- The materialiser of `generic_type_converter` (crates/tribute-passes/src/type_converter.rs 99-213):
`some []` is "no operation", `none` is "cannot". -/
def genericMaterialize (src dst : Ty) : Option (List RtOp) :=
  if src = dst then some []
  else if (src = .int ∨ src = .nat ∨ src = .bool) ∧ dst = .i32 then some []
  else if src = .float ∧ dst = .f64 then some []
  else if dst = .anyref ∧ (src = .int ∨ src = .nat ∨ src = .i32) then some [.boxInt]
  else if dst = .anyref ∧ (src = .bool ∨ src = .i1) then some [.boxBool]
  else if dst = .anyref ∧ (src = .float ∨ src = .f64) then some [.boxFloat]
  else if src = .anyref ∧ (dst = .int ∨ dst = .i32) then some [.unboxInt]
  else if src = .anyref ∧ dst = .nat then some [.unboxNat]
  else if src = .anyref ∧ (dst = .bool ∨ dst = .i1) then some [.unboxBool]
  else if src = .anyref ∧ (dst = .float ∨ dst = .f64) then some [.unboxFloat]
  else none

/-- `CastResolver::try_resolve_cast` (crates/trunk-ir/src/conversion/resolve_unrealized_casts.rs
115-190): the target type is converted first, a cast that has become trivial vanishes, otherwise the
materialiser is asked. -/
def resolveCast {α : Type} (convert : Ty → Option Ty) (materialize : Ty → Ty → Option (List α))
    (src dst : Ty) : Option (List α) :=
  let dst' := (convert dst).getD dst
  if src = dst' then some [] else materialize src dst'

/-! ## The native target -/

/-- A value in a register. -/
inductive Val
  | w32 (b : BitVec 32)
  | w64 (b : BitVec 64)
  | f64 (b : BitVec 64)
  deriving DecidableEq, Repr

/-- The width a `clif.load` is made with. -/
inductive Width | i32 | i64 | f64
  deriving DecidableEq, Repr

/-- A register: 0 is the operand of the cast, every instruction with a result takes the next number. -/
abbrev Reg := Nat

/-- The instructions boxing is made of (`clif.iconst` at 32 bits and at pointer size, the call of
`__tribute_alloc`, `clif.store`, `clif.iadd`, `clif.load`). -/
inductive Clif
  | iconst32 (n : Nat)
  | iconst64 (n : Nat)
  | alloc (size : Reg)
  | store (value ptr : Reg) (off : Nat)
  | iadd (a b : Reg)
  | load (w : Width) (ptr : Reg) (off : Nat)
  deriving DecidableEq, Repr

/-- `HEADER_SIZE` (crates/tribute-rc/src/lib.rs 56). -/
def headerSize : Nat := 8
/-- `REFCOUNT_OFFSET` (crates/tribute-rc/src/lib.rs 43). -/
def refcountOffset : Nat := 0
/-- `RTTI_IDX_OFFSET` (crates/tribute-rc/src/lib.rs 46). -/
def rttiOffset : Nat := 4

/-- `RTTI_BOOL` … `RTTI_FLOAT` (crates/tribute-passes/src/native/rtti.rs 78-81). -/
def rttiBool : Nat := 1
@[inherit_doc rttiBool] def rttiNat : Nat := 2
@[inherit_doc rttiBool] def rttiInt : Nat := 3
@[inherit_doc rttiBool] def rttiFloat : Nat := 4

/-- `box_value` (crates/tribute-passes/src/native/tribute_rt_to_clif.rs 39-105) and `box_primitive`
(crates/tribute-passes/src/native/type_converter.rs 294-372, where the type index is 0). -/
def boxValue (payload rtti : Nat) : List Clif :=
  [ .iconst64 (payload + headerSize),  -- 1
    .alloc 1,                          -- 2: the raw pointer
    .iconst32 1,                       -- 3
    .store 3 2 refcountOffset,
    .iconst32 rtti,                    -- 4
    .store 4 2 rttiOffset,
    .iconst64 headerSize,              -- 5
    .iadd 2 5,                         -- 6: the payload pointer
    .store 0 6 0,
    .iconst64 0,                       -- 7
    .iadd 6 7 ]                        -- 8

/-- The patterns of `tribute_rt_to_clif::lower` (crates/tribute-passes/src/native/tribute_rt_to_clif.rs
183-450), for operands that are references. -/
def nativeRt : RtOp → List Clif
  | .boxInt => boxValue 4 rttiInt
  | .boxNat => boxValue 4 rttiNat
  | .boxBool => boxValue 4 rttiBool
  | .boxFloat => boxValue 8 rttiFloat
  | .unboxInt => [.load .i32 0 0]
  | .unboxNat => [.load .i32 0 0]
  | .unboxBool => [.load .i32 0 0]
  | .unboxFloat => [.load .f64 0 0]

/-- The conversions of `native_type_converter` (crates/tribute-passes/src/native/type_converter.rs
121-160). -/
def nativeConvert : Ty → Option Ty
  | .int | .nat | .bool | .i1 => some .i32
  | .float => some .f64
  | _ => none

/-- Its materialiser (crates/tribute-passes/src/native/type_converter.rs 164-283). -/
def nativeMaterialize (src dst : Ty) : Option (List Clif) :=
  if src = dst then some []
  else if (src = .int ∨ src = .nat ∨ src = .bool ∨ src = .i1) ∧ dst = .i32 then some []
  else if src = .float ∧ dst = .f64 then some []
  else if src = .anyref ∧ dst = .ptr then some []
  else if src = .ptr ∧ dst = .anyref then some []
  else if (dst = .ptr ∨ dst = .anyref) ∧ src = .i32 then some (boxValue 4 0)
  else if (dst = .ptr ∨ dst = .anyref) ∧ src = .i64 then some (boxValue 8 0)
  else if (dst = .ptr ∨ dst = .anyref) ∧ src = .f64 then some (boxValue 8 0)
  else if (dst = .ptr ∨ dst = .anyref) ∧ src = .nil then some [.iconst64 0]
  else if (src = .ptr ∨ src = .anyref) ∧ (dst = .i32 ∨ dst = .int) then some [.load .i32 0 0]
  else if (src = .ptr ∨ src = .anyref) ∧ dst = .i64 then some [.load .i64 0 0]
  else if (src = .ptr ∨ src = .anyref) ∧ dst = .f64 then some [.load .f64 0 0]
  else if (src = .ptr ∨ src = .anyref) ∧ dst = .nil then some []
  else none

/-- Memory: the bytes that are allocated. -/
abbrev Mem := Nat → Option (BitVec 8)

/-- Where the allocator puts a block of a given size in a given memory, and what is in it. -/
abbrev Alloc := Mem → Nat → Nat × (Nat → BitVec 8)

/-- Write bytes; writing outside allocated memory is an error. -/
def write (m : Mem) (a : Nat) : List (BitVec 8) → Option Mem
  | [] => some m
  | b :: bs =>
    match m a with
    | none => none
    | some _ => write (fun x => if x = a then some b else m x) (a + 1) bs

/-- Read bytes; reading outside allocated memory is an error. -/
def read (m : Mem) (a : Nat) : Nat → Option (List (BitVec 8))
  | 0 => some []
  | n + 1 =>
    match m a with
    | none => none
    | some b => (read m (a + 1) n).map (b :: ·)

/-- The `k` low bytes of a number, lowest first (both native targets are little endian). -/
def bytesOf (n : Nat) : Nat → List (BitVec 8)
  | 0 => []
  | k + 1 => BitVec.ofNat 8 n :: bytesOf (n / 256) k

/-- The number with these bytes. -/
def numOf : List (BitVec 8) → Nat
  | [] => 0
  | b :: bs => b.toNat + 256 * numOf bs

/-- The bytes `clif.store` writes for a value. -/
def Val.bytes : Val → List (BitVec 8)
  | .w32 b => bytesOf b.toNat 4
  | .w64 b => bytesOf b.toNat 8
  | .f64 b => bytesOf b.toNat 8

/-- `clif.load` at a width. -/
def loadAt (m : Mem) (a : Nat) : Width → Option Val
  | .i32 => (read m a 4).map fun bs => .w32 (BitVec.ofNat 32 (numOf bs))
  | .i64 => (read m a 8).map fun bs => .w64 (BitVec.ofNat 64 (numOf bs))
  | .f64 => (read m a 8).map fun bs => .f64 (BitVec.ofNat 64 (numOf bs))

/-- The number in a 64 bit register. -/
def word (rs : List Val) (r : Reg) : Option Nat :=
  match rs[r]? with
  | some (.w64 b) => some b.toNat
  | _ => none

/-- One instruction. -/
def step (al : Alloc) (m : Mem) (rs : List Val) : Clif → Option (Mem × List Val)
  | .iconst32 n => some (m, rs ++ [.w32 (BitVec.ofNat 32 n)])
  | .iconst64 n => some (m, rs ++ [.w64 (BitVec.ofNat 64 n)])
  | .alloc s =>
    match word rs s with
    | none => none
    | some n =>
      let a := (al m n).1
      some (fun x => if a ≤ x ∧ x < a + n then some ((al m n).2 x) else m x,
        rs ++ [.w64 (BitVec.ofNat 64 a)])
  | .store v p off =>
    match rs[v]?, word rs p with
    | some v, some a => (write m (a + off) v.bytes).map fun m' => (m', rs)
    | _, _ => none
  | .iadd a b =>
    match word rs a, word rs b with
    | some x, some y => some (m, rs ++ [.w64 (BitVec.ofNat 64 (x + y))])
    | _, _ => none
  | .load w p off =>
    match word rs p with
    | none => none
    | some a => (loadAt m (a + off) w).map fun v => (m, rs ++ [v])

/-- Instructions in sequence. -/
def steps (al : Alloc) : List Clif → Mem → List Val → Option (Mem × List Val)
  | [], m, rs => some (m, rs)
  | i :: is, m, rs =>
    match step al m rs i with
    | none => none
    | some (m', rs') => steps al is m' rs'

/-- The code of a cast, on a value: its result is the last register written, the operand if there is
none. -/
def runNative (al : Alloc) (c : List Clif) (m : Mem) (v : Val) : Option (Mem × Val) :=
  match steps al c m [v] with
  | none => none
  | some (m', rs) => rs.getLast?.map fun v' => (m', v')

/-! ## WebAssembly -/

/-- A value on WebAssembly: numbers, and references. -/
inductive WVal
  | i32 (b : BitVec 32)
  | i64 (b : BitVec 64)
  | f64 (b : BitVec 64)
  | null
  | i31 (b : BitVec 31)
  | boxedF64 (b : BitVec 64)
  deriving DecidableEq, Repr

/-- The instructions boxing is made of; every one takes the result of the one before. -/
inductive WInstr
  | wrapI64 | refI31 | castAny | castI31 | castBoxedF64 | i31GetS | i31GetU | newBoxedF64 | getF64 | refNull
  deriving DecidableEq, Repr

/-- The patterns of `tribute_rt_to_wasm::lower`
(crates/tribute-passes/src/wasm/tribute_rt_to_wasm.rs 56-352). -/
def wasmRt : RtOp → List WInstr
  | .boxInt => [.refI31]
  | .boxNat => [.refI31]
  | .boxBool => [.refI31]
  | .boxFloat => [.newBoxedF64]
  | .unboxInt => [.castI31, .i31GetS]
  | .unboxNat => [.castI31, .i31GetU]
  | .unboxBool => [.castI31, .i31GetU]
  | .unboxFloat => [.castBoxedF64, .getF64]

/-- The conversions of `wasm_type_converter` (crates/tribute-passes/src/wasm/type_converter.rs
341-411). -/
def wasmConvert : Ty → Option Ty
  | .int | .nat | .bool | .i1 => some .i32
  | .float => some .f64
  | .anyref => some .wasmAny
  | _ => none

/-- Its materialiser (crates/tribute-passes/src/wasm/type_converter.rs 502-861), with `box_via_i31` and
`unbox_via_i31` (259-325). -/
def wasmMaterialize (src dst : Ty) : Option (List WInstr) :=
  if src = dst then some []
  else if (src = .int ∨ src = .nat ∨ src = .bool ∨ src = .i1) ∧ dst = .i32 then some []
  else if src = .float ∧ dst = .f64 then some []
  else if src = .anyref ∧ dst = .wasmAny then some []
  else if src = .i32 ∧ dst = .wasmAny then some [.refI31, .castAny]
  else if src = .i64 ∧ dst = .wasmAny then some [.wrapI64, .refI31, .castAny]
  else if src = .nil ∧ dst = .wasmAny then some [.refNull]
  else if (src = .wasmAny ∨ src = .anyref) ∧ (dst = .i32 ∨ dst = .int) then some [.castI31, .i31GetS]
  else if (src = .wasmAny ∨ src = .anyref) ∧ (dst = .ptr ∨ dst = .nil) then some []
  else none

/-- One instruction (the WebAssembly specification): `ref.i31` keeps the low 31 bits, `i31.get_s` and
`i31.get_u` extend them with the sign or with zero, a cast that does not apply traps. -/
def wstep : WInstr → WVal → Option WVal
  | .wrapI64, .i64 b => some (.i32 (b.setWidth 32))
  | .refI31, .i32 b => some (.i31 (b.setWidth 31))
  | .castAny, .i31 b => some (.i31 b)
  | .castAny, .boxedF64 b => some (.boxedF64 b)
  | .castI31, .i31 b => some (.i31 b)
  | .castBoxedF64, .boxedF64 b => some (.boxedF64 b)
  | .i31GetS, .i31 b => some (.i32 (b.signExtend 32))
  | .i31GetU, .i31 b => some (.i32 (b.setWidth 32))
  | .newBoxedF64, .f64 b => some (.boxedF64 b)
  | .getF64, .boxedF64 b => some (.f64 b)
  | .refNull, _ => some .null
  | _, _ => none

/-- The code of a cast, on a value. -/
def runWasm : List WInstr → WVal → Option WVal
  | [], v => some v
  | i :: is, v =>
    match wstep i v with
    | none => none
    | some v' => runWasm is v'

/-! ## Where casts are resolved -/

/-- The code a cast gets: from `run_cleanup_passes` (src/pipeline.rs 865-866), through the lowering of
the boxing operations; or, where that leaves the cast alone, from the target's own converter
(src/pipeline.rs 563-565, 1191-1193), by which time the operand has its own type or that type converted. -/
inductive Emits {α : Type} (lower : RtOp → List α) (convert : Ty → Option Ty)
    (materialize : Ty → Ty → Option (List α)) (src dst : Ty) : List α → Prop
  | early {ops} : resolveCast genericConvert genericMaterialize src dst = some ops →
      Emits lower convert materialize src dst (ops.flatMap lower)
  | late {c} : resolveCast convert materialize src dst = some c →
      Emits lower convert materialize src dst c
  | lateConverted {c} : resolveCast convert materialize ((convert src).getD src) dst = some c →
      Emits lower convert materialize src dst c

/-- The code of a cast on the native target. -/
abbrev EmitsNative := Emits nativeRt nativeConvert nativeMaterialize

/-- The code of a cast on WebAssembly. -/
abbrev EmitsWasm := Emits wasmRt wasmConvert wasmMaterialize

/-- What the pipeline does with a cast: the early resolution, and the target's on what that leaves
(src/pipeline.rs 865-866, then 563-565 or 1191-1193).  `none` is the error "unresolved cast". -/
def pipeline {α : Type} (lower : RtOp → List α) (convert : Ty → Option Ty)
    (materialize : Ty → Ty → Option (List α)) (src dst : Ty) : Option (List α) :=
  match resolveCast genericConvert genericMaterialize src dst with
  | some ops => some (ops.flatMap lower)
  | none => resolveCast convert materialize ((convert src).getD src) dst

end Verif.Boxing
