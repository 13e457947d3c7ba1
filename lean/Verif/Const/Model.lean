import Verif.Rtti.Model

/-!
# String and byte-string literals on both targets

Model of `crates/tribute-passes/src/wasm/const_to_wasm.rs`, the part of `wasm/lower.rs` that writes
the data segments, `handle_bytes_from_data` of the WebAssembly emitter, of
`crates/tribute-passes/src/native/const_to_native.rs` and of what the Cranelift backend does with
`symbol_addr`, `call` and read-only data.

Simplifications: the blocks of the regions of an operation are one list; the pattern driver is one
walk (the patterns leave no literal behind that they could match again); the construction of the
value `String::Leaf` from its bytes is one instruction (C89 and C91 are about it); result types are
left out.
-/
namespace Verif.Const
open Verif.Rtti (Mem storeN loadN addr)

/-- The bytes of a text (`as_bytes`). -/
def utf8 (s : String) : List UInt8 := s.toUTF8.toList

/-- Operations of a module: `adt.string_const`, `adt.bytes_const`, and any other operation with what
is nested in it. -/
inductive Op where
  | string (text : String)
  | bytes (content : List UInt8)
  | other (id : Nat) (body : List Op)

mutual
/-- One operation in `walk_ops_in_region`, const_to_wasm.rs 112-124 and const_to_native.rs 107-119:
the callback, then what is nested. -/
def walkOp {σ : Type} (f : σ → Op → σ) (s : σ) : Op → σ
  | .string t => f s (.string t)
  | .bytes b => f s (.bytes b)
  | .other id body => walk f (f s (.other id body)) body

/-- `walk_ops_in_region`. -/
def walk {σ : Type} (f : σ → Op → σ) (s : σ) : List Op → σ
  | [] => s
  | op :: ops => walk f (walkOp f s op) ops
end

/-- Why a module is not compiled. -/
inductive Err where
  | noStringType
  | tooLong
  | leftOver
  | noSymbol
deriving DecidableEq, Repr

/-! ## WebAssembly -/

/-- An element of `allocations`, const_to_wasm.rs 48-50. -/
structure Alloc where
  content : List UInt8
  dataIdx : UInt32
  len : UInt32
deriving DecidableEq, Repr

/-- `ConstCollector`, const_to_wasm.rs 69-84. -/
structure WCol where
  allocations : List Alloc
  seen : List UInt8 → Option Nat
  hasString : Bool

def WCol.new : WCol := ⟨[], fun _ => none, false⟩

/-- `collect_content`, const_to_wasm.rs 86-94. -/
def WCol.collect (c : WCol) (bytes : List UInt8) : WCol :=
  match c.seen bytes with
  | some _ => c
  | none =>
    { c with
      seen := fun b => if b = bytes then some c.allocations.length else c.seen b
      allocations := c.allocations ++
        [⟨bytes, UInt32.ofNat c.allocations.length, UInt32.ofNat bytes.length⟩] }

/-- `visit_op`, const_to_wasm.rs 96-110. -/
def WCol.visit (c : WCol) : Op → WCol
  | .string t => { c with hasString := true }.collect (utf8 t)
  | .bytes b => c.collect b
  | .other _ _ => c

/-- `analyze_consts`, const_to_wasm.rs 127-146; the flag says whether the type of `String` is known
and needed. -/
def analyzeWasm (stringTy : Bool) (ops : List Op) : List Alloc × Bool :=
  let c := walk WCol.visit WCol.new ops
  (c.allocations, c.hasString && stringTy)

/-- `validate_for_wasm`, const_to_wasm.rs 152-186, without the types: an error at the first string
literal when the type of `String` is not known. -/
def checkString (known ok : Bool) : Op → Bool
  | .string _ => ok && known
  | _ => ok

def validateWasm (known : Bool) (ops : List Op) : Bool := walk (checkString known) true ops

/-- `lookup_offset` and `lookup_bytes_info`, const_to_wasm.rs 205-211 and 277-283. -/
def lookup (as : List Alloc) (content : List UInt8) : Option (UInt32 × UInt32) :=
  (as.find? fun a => a.content == content).map fun a => (a.dataIdx, a.len)

/-- Operations after the lowering: `wasm.bytes_from_data`, the leaf made of it, a literal that was not
lowered, anything else. -/
inductive WOp where
  | bytesFromData (dataIdx offset len : UInt32)
  | leafFromData (dataIdx offset len : UInt32)
  | kept
  | other (id : Nat) (body : List WOp)

mutual
/-- `StringConstPattern` and `BytesConstPattern`, const_to_wasm.rs 229-324. -/
def lowerWOp (as : List Alloc) (known : Bool) : Op → WOp
  | .string t =>
    match lookup as (utf8 t) with
    | none => .kept
    | some (i, l) => if known then .leafFromData i 0 l else .kept
  | .bytes b =>
    match lookup as b with
    | none => .kept
    | some (i, l) => .bytesFromData i 0 l
  | .other id body => .other id (lowerW as known body)

def lowerW (as : List Alloc) (known : Bool) : List Op → List WOp
  | [] => []
  | op :: ops => lowerWOp as known op :: lowerW as known ops
end

/-- WebAssembly instructions. -/
inductive Instr where
  | i32Const (v : UInt32)
  | arrayNewData (dataIdx : UInt32)
  | structNewBytes
  | leaf
deriving DecidableEq, Repr

/-- Emitted code: the instructions of a literal, or anything else. -/
inductive WCode where
  | instrs (is : List Instr)
  | other (id : Nat) (body : List WCode)

/-- `handle_bytes_from_data`, misc_handlers.rs 25-57. -/
def emitData (dataIdx offset len : UInt32) : Except Err (List Instr) :=
  if offset.toNat < 2 ^ 31 then
    if len.toNat < 2 ^ 31 then
      .ok [.i32Const offset, .i32Const len, .arrayNewData dataIdx, .i32Const 0, .i32Const len,
        .structNewBytes]
    else .error .tooLong
  else .error .tooLong

mutual
/-- The emission of one operation, emit.rs 1047-1048; an `adt` operation that is still there is
refused. -/
def emitWOp : WOp → Except Err WCode
  | .bytesFromData i o l => (emitData i o l).map .instrs
  | .leafFromData i o l => (emitData i o l).map fun is => .instrs (is ++ [.leaf])
  | .kept => .error .leftOver
  | .other id body => (emitW body).map (.other id)

def emitW : List WOp → Except Err (List WCode)
  | [] => .ok []
  | op :: ops =>
    match emitWOp op with
    | .error e => .error e
    | .ok c => (emitW ops).map (c :: ·)
end

/-- `lower_to_wasm` (lower.rs 93-94, 149-154), `append_data_ops` (lower.rs 562-575: one passive segment
per allocation, in order) and the data section (emit.rs 490-497). -/
def compileWasm (stringTy : Bool) (ops : List Op) : Except Err (List (List UInt8) × List WCode) :=
  let (as, known) := analyzeWasm stringTy ops
  if validateWasm known ops then
    (emitW (lowerW as known ops)).map fun code => (as.map (·.content), code)
  else .error .noStringType

/-- Values on the stack of the WebAssembly machine. -/
inductive WVal where
  | i32 (v : UInt32)
  | array (elems : List UInt8)
  | bytes (elems : List UInt8) (offset len : UInt32)
  | leaf (elems : List UInt8) (offset len : UInt32)
deriving DecidableEq, Repr

/-- One instruction on a stack (top first), with the data segments of the module. `array.new_data`
traps when the range leaves the segment. `none` is a trap or a type error. -/
def wstep (segs : List (List UInt8)) : Instr → List WVal → Option (List WVal)
  | .i32Const v, st => some (.i32 v :: st)
  | .arrayNewData i, .i32 n :: .i32 o :: st =>
    match segs[i.toNat]? with
    | none => none
    | some seg =>
      if o.toNat + n.toNat ≤ seg.length then
        some (.array ((seg.drop o.toNat).take n.toNat) :: st)
      else none
  | .structNewBytes, .i32 n :: .i32 o :: .array e :: st => some (.bytes e o n :: st)
  | .leaf, .bytes e o n :: st => some (.leaf e o n :: st)
  | _, _ => none

def wrun (segs : List (List UInt8)) : List Instr → List WVal → Option (List WVal)
  | [], st => some st
  | i :: is, st => (wstep segs i st).bind (wrun segs is)

/-! ## Native -/

/-- The names given to data, const_to_native.rs 80. -/
def rodataName (i : Nat) : String := "__tribute_rodata_" ++ toString i

/-- `ConstCollector`, const_to_native.rs 58-74. -/
structure NCol where
  rodata : List (String × List UInt8)
  seen : List UInt8 → Option String
  nextIdx : UInt32
  hasString : Bool

def NCol.new : NCol := ⟨[], fun _ => none, 0, false⟩

/-- `intern`, const_to_native.rs 76-85. -/
def NCol.intern (c : NCol) (content : List UInt8) : NCol :=
  match c.seen content with
  | some _ => c
  | none =>
    let sym := rodataName c.nextIdx.toNat
    { c with
      nextIdx := c.nextIdx + 1
      seen := fun b => if b = content then some sym else c.seen b
      rodata := c.rodata ++ [(sym, content)] }

/-- `visit_op`, const_to_native.rs 87-104. -/
def NCol.visit (c : NCol) : Op → NCol
  | .string t => { c.intern (utf8 t) with hasString := true }
  | .bytes b => c.intern b
  | .other _ _ => c

/-- The name of the allocation function, const_to_native.rs 36. -/
def allocFn : String := "__tribute_alloc"

/-- `clif` operations used for a literal; registers are numbered, widths are in bytes. `leaf` builds
`String::Leaf`. -/
inductive Clif where
  | symbolAddr (dst : Nat) (sym : String)
  | iconst (dst : Nat) (v : Nat) (width : Nat)
  | call (dst : Nat) (callee : String) (arg : Nat)
  | store (v base width : Nat) (off : Int)
  | iadd (dst a b : Nat)
  | leaf (dst payload : Nat)
deriving DecidableEq, Repr

/-- `RC_HEADER_SIZE`, `REFCOUNT_OFFSET` and `RTTI_IDX_OFFSET`, tribute_rt.rs. -/
def headerSize : Nat := 8
def refcountOffset : Int := 0
def rttiOffset : Int := 4

/-- `emit_bytes_alloc`, const_to_native.rs 220-298. The result is in register 9. -/
def emitBytesAlloc (sym : String) (len : Nat) : List Clif :=
  [ .symbolAddr 0 sym, .iconst 1 len 8, .iconst 2 (headerSize + 16) 8, .call 3 allocFn 2,
    .iconst 4 1 4, .store 4 3 4 refcountOffset, .iconst 5 0 4, .store 5 3 4 rttiOffset,
    .iconst 6 headerSize 8, .iadd 7 3 6, .store 0 7 8 0, .store 1 7 8 8,
    .iconst 8 0 8, .iadd 9 7 8 ]

/-- Code after the lowering. -/
inductive NCode where
  | instrs (is : List Clif)
  | kept
  | other (id : Nat) (body : List NCode)

mutual
/-- `BytesConstNativePattern` and `StringConstNativePattern`, const_to_native.rs 308-421. The result of
a string literal is in register 10. -/
def lowerNOp (seen : List UInt8 → Option String) (known : Bool) : Op → NCode
  | .bytes b =>
    match seen b with
    | none => .kept
    | some sym => .instrs (emitBytesAlloc sym b.length)
  | .string t =>
    match seen (utf8 t) with
    | none => .kept
    | some sym =>
      if known then .instrs (emitBytesAlloc sym (utf8 t).length ++ [.leaf 10 9]) else .kept
  | .other id body => .other id (lowerN seen known body)

def lowerN (seen : List UInt8 → Option String) (known : Bool) : List Op → List NCode
  | [] => []
  | op :: ops => lowerNOp seen known op :: lowerN seen known ops
end

mutual
def NCode.anyKept : NCode → Bool
  | .instrs _ => false
  | .kept => true
  | .other _ body => anyKeptL body

def anyKeptL : List NCode → Bool
  | [] => false
  | c :: cs => c.anyKept || anyKeptL cs
end

/-- `analyze_consts` and `lower`, const_to_native.rs 122-145 and 169-212: a literal that is left over
is a conversion error. -/
def compileNative (stringTy : Bool) (ops : List Op) :
    Except Err (List (String × List UInt8) × List NCode) :=
  let c := walk NCol.visit NCol.new ops
  let code := lowerN c.seen (c.hasString && stringTy) ops
  if anyKeptL code then .error .leftOver else .ok (c.rodata, code)

/-- A linked program: the functions it defines itself, where code and data were put, what the
allocator of the runtime answers and what the functions of the program do when called with one
number. -/
structure Image where
  funcs : List String
  codeAt : String → Nat
  dataAt : String → Nat
  allocate : Nat → Mem → Nat
  runFunc : String → Nat → Mem → Nat × Mem

/-- The functions a name can mean: those of the program, and the allocator of the runtime when the
program does not define that name (`declare_runtime_functions`, translate.rs 664-683); what
`symbol_addr` looks at first, function.rs 510-526. -/
def symbolAddr (img : Image) (rodata : List (String × List UInt8)) (sym : String) : Option Nat :=
  if img.funcs.contains sym || sym == allocFn then some (img.codeAt sym)
  else if (rodata.map (·.1)).contains sym then some (img.dataAt sym)
  else none

/-- A call by name, function.rs 367-385 and translate.rs 677-683. -/
def callFn (img : Image) (callee : String) (arg : Nat) (m : Mem) : Option (Nat × Mem) :=
  if img.funcs.contains callee then some (img.runFunc callee arg m)
  else if callee == allocFn then some (img.allocate arg m, m)
  else none

/-- Values in registers. -/
inductive NVal where
  | word (v : Nat)
  | leaf (payload : Nat)
deriving DecidableEq, Repr

structure NState where
  regs : Nat → Option NVal
  mem : Mem

def NState.word (s : NState) (r : Nat) : Option Nat :=
  match s.regs r with
  | some (.word v) => some v
  | _ => none

def NState.set (s : NState) (d : Nat) (v : NVal) : NState :=
  { s with regs := fun x => if x = d then some v else s.regs x }

/-- One operation; `none` is the use of something undefined. -/
def nstep (img : Image) (rodata : List (String × List UInt8)) (s : NState) : Clif → Option NState
  | .symbolAddr d sym => (symbolAddr img rodata sym).map fun a => s.set d (.word a)
  | .iconst d v w => some (s.set d (.word (v % 2 ^ (8 * w))))
  | .call d f a => (s.word a).bind fun x =>
      (callFn img f x s.mem).map fun r => { s with mem := r.2 }.set d (.word r.1)
  | .store v b w off => (s.word v).bind fun x => (s.word b).map fun base =>
      { s with mem := storeN s.mem (addr base off) x w }
  | .iadd d a b => (s.word a).bind fun x => (s.word b).map fun y => s.set d (.word (addr x y))
  | .leaf d p => (s.word p).map fun x => s.set d (.leaf x)

def nsteps (img : Image) (rodata : List (String × List UInt8)) (s : NState) :
    List Clif → Option NState
  | [] => some s
  | c :: cs => (nstep img rodata s c).bind fun s' => nsteps img rodata s' cs

/-- Run the code of a literal and take its result. -/
def nrun (img : Image) (rodata : List (String × List UInt8)) (m : Mem) (cs : List Clif) (res : Nat) :
    Option (NVal × Mem) :=
  (nsteps img rodata ⟨fun _ => none, m⟩ cs).bind fun s => (s.regs res).map fun v => (v, s.mem)

end Verif.Const
