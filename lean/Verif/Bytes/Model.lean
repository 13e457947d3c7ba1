import Verif.Util
/-!
# Byte sequences of the native runtime

Model of `crates/tribute-runtime/src/lib.rs` 219-243 and 460-715, of the native lowering of byte
access (`crates/tribute-passes/src/native/intrinsic_to_native.rs` 69-140 with
`crates/trunk-ir-cranelift-backend/src/passes/arith_to_clif.rs` 463-469), and of the `Bytes`
module of `lib/std/prelude.trb` 548-604.

Simplifications:
* memory is a list of allocations, each a list of cells that may be uninitialised (`none`); a
  pointer is null or (allocation, offset); reading outside an allocation or reading an
  uninitialised cell is the fault `ub`;
* allocation fails only when the size exceeds `isize::MAX - 7` (`Layout::from_size_align`); an
  operating-system out-of-memory abort may happen at any allocation and is not modelled;
* reference counts and deallocation are not modelled (the data buffers of `Bytes` values are never
  freed by these functions).
-/
namespace Verif.Bytes

abbrev Byte := UInt8
abbrev Cell := Option Byte

/-- A raw pointer: null, or an allocation and an offset. -/
abbrev Ptr := Option (Nat × Nat)

/-- `TributeBytes`, lib.rs 224-228. -/
structure TBytes where
  ptr : Ptr
  len : Nat
deriving DecidableEq, Repr

/-- Ways a runtime call can fail to return. `badHandle` stands for a use of a value that does not
exist, which no program can do. -/
inductive Fault where
  | abort
  | ub
  | badHandle
deriving DecidableEq, Repr

/-- Memory and the `Bytes` values created so far. -/
structure St where
  mem : List (List Cell)
  objs : List TBytes
deriving DecidableEq, Repr

/-- Read `n` bytes through a pointer (`from_raw_parts`, the source side of `copy_nonoverlapping`,
`memcmp`). -/
def readCells (mem : List (List Cell)) (p : Ptr) (n : Nat) : Except Fault (List Byte) :=
  match p with
  | none => if n = 0 then .ok [] else .error .ub
  | some (b, o) =>
    match mem[b]? with
    | none => .error .ub
    | some buf =>
      if o + n ≤ buf.length then
        match ((buf.drop o).take n).mapM id with
        | some bytes => .ok bytes
        | none => .error .ub
      else .error .ub

/-- Write bytes into an allocation at an offset (`copy_nonoverlapping`, target side). -/
def writeCells (buf : List Cell) (off : Nat) (data : List Byte) : Except Fault (List Cell) :=
  if off + data.length ≤ buf.length then
    .ok (buf.take off ++ data.map some ++ buf.drop (off + data.length))
  else .error .ub

/-- Largest size for which `Layout::from_size_align(size, 8)` succeeds: `isize::MAX - 7`. -/
def maxAlloc : Nat := 2 ^ 63 - 8

/-- `__tribute_alloc` for a non-zero size, lib.rs 693-712. -/
def alloc (size : Nat) : Except Fault (List Cell) :=
  if size > maxAlloc then .error .abort else .ok (List.replicate size none)

/-- Add a value and return its handle. -/
def St.push (st : St) (o : TBytes) : St := { st with objs := st.objs ++ [o] }

/-- A byte-string literal: `emit_bytes_alloc` in `native/const_to_native.rs` 213-290: the pointer
addresses the read-only data symbol, the length is the literal's. -/
def literal (st : St) (bytes : List Byte) : Except Fault St :=
  .ok { mem := st.mem ++ [bytes.map some], objs := st.objs ++ [⟨some (st.mem.length, 0), bytes.length⟩] }

/-- `allocate_bytes`, lib.rs 460-478 (the bytes of a line read from standard input). -/
def allocateBytes (st : St) (bytes : List Byte) : Except Fault St :=
  if bytes.isEmpty then .ok (st.push ⟨none, 0⟩)
  else do
    let buf ← alloc bytes.length
    let buf ← writeCells buf 0 bytes
    .ok { mem := st.mem ++ [buf], objs := st.objs ++ [⟨some (st.mem.length, 0), bytes.length⟩] }

/-- The guarded copy of one operand into the fresh buffer, lib.rs 577-581 and 582-590. -/
def copyInto (mem : List (List Cell)) (buf : List Cell) (off : Nat) (x : TBytes) :
    Except Fault (List Cell) :=
  if x.len > 0 ∧ x.ptr ≠ none then do
    let src ← readCells mem x.ptr x.len
    writeCells buf off src
  else .ok buf

/-- `__tribute_bytes_concat`, lib.rs 564-606. -/
def concat (st : St) (a b : TBytes) : Except Fault St :=
  if a.len + b.len ≥ 2 ^ 64 then .error .abort
  else
    let total := a.len + b.len
    if total > 0 then do
      let buf ← alloc total
      let buf ← copyInto st.mem buf 0 a
      let buf ← copyInto st.mem buf a.len b
      .ok { mem := st.mem ++ [buf], objs := st.objs ++ [⟨some (st.mem.length, 0), total⟩] }
    else .ok (st.push ⟨none, total⟩)

/-- `__tribute_bytes_slice_or_panic`, lib.rs 625-662. -/
def sliceOrPanic (st : St) (x : TBytes) (start stop : UInt32) : Except Fault St :=
  let s := start.toNat
  let e := stop.toNat
  if s > e ∨ e > x.len then .error .abort
  else
    let newLen := e - s
    let newPtr : Ptr := if newLen > 0 then x.ptr.map (fun p => (p.1, p.2 + s)) else none
    .ok (st.push ⟨newPtr, newLen⟩)

/-- `__tribute_bytes_len`, lib.rs 505-508: `u64 as u32`. -/
def bytesLen (x : TBytes) : UInt32 := UInt32.ofNat x.len

/-- `__tribute_bytes_range_equal`, lib.rs 521-550.  The `u64` additions cannot overflow because
the operands come from `u32`. -/
def rangeEqual (mem : List (List Cell)) (l : TBytes) (ls : UInt32) (r : TBytes) (rs : UInt32)
    (len : UInt32) : Except Fault UInt32 :=
  let leftEnd := ls.toNat + len.toNat
  let rightEnd := rs.toNat + len.toNat
  if leftEnd > l.len ∨ rightEnd > r.len then .ok 0
  else if len = 0 then .ok 1
  else do
    let x ← readCells mem (l.ptr.map (fun p => (p.1, p.2 + ls.toNat))) len.toNat
    let y ← readCells mem (r.ptr.map (fun p => (p.1, p.2 + rs.toNat))) len.toNat
    .ok (if x = y then 1 else 0)

/-- One call of the byte primitives; operands are handles of earlier results. -/
inductive Op where
  | literal (bytes : List Byte)
  | lineRead (bytes : List Byte)
  | concat (a b : Nat)
  | slice (x : Nat) (start stop : UInt32)
deriving DecidableEq, Repr

/-- Execute one call. -/
def step (st : St) : Op → Except Fault St
  | .literal bs => literal st bs
  | .lineRead bs => allocateBytes st bs
  | .concat a b =>
    match st.objs[a]?, st.objs[b]? with
    | some x, some y => concat st x y
    | _, _ => .error .badHandle
  | .slice x s e =>
    match st.objs[x]? with
    | some x => sliceOrPanic st x s e
    | none => .error .badHandle

/-- Execute a history of calls from the empty state. -/
def run : List Op → Except Fault St
  | ops => ops.foldlM step ⟨[], []⟩

/-! ## Byte access -/

/-- Sign extension of a 32-bit value to the 64-bit pointer width, as an integer. -/
def sext32 (i : UInt32) : Int := if i.toNat < 2 ^ 31 then i.toNat else (i.toNat : Int) - 2 ^ 32

/-- Sign extension of a byte to 32 bits. -/
def sext8 (b : Byte) : UInt32 :=
  if b.toNat < 128 then UInt32.ofNat b.toNat else UInt32.ofNat (2 ^ 32 - 256 + b.toNat)

/-- `__bytes_get_or_panic` on the native target: intrinsic_to_native.rs 84-140 loads the data
pointer, adds the extended index, loads one byte, and extends it; there is no bounds check.
`arith.extend` from `core.i32` and `core.i8` becomes `clif.sextend` (arith_to_clif.rs 463-469,
because `is_unsigned_int` (76-84) knows only `nat` and `bool`). -/
def getOrPanic (mem : List (List Cell)) (x : TBytes) (index : UInt32) : Except Fault UInt32 :=
  match x.ptr with
  | none => .error .ub
  | some (b, o) =>
    let off : Int := o + sext32 index
    if off < 0 then .error .ub
    else do
      match ← readCells mem (some (b, off.toNat)) 1 with
      | [byte] => .ok (sext8 byte)
      | _ => .error .ub

/-- `Bytes::get`, prelude.trb 582-587 (`Nat` comparison is unsigned, intrinsic_to_arith.rs 143). -/
def get (mem : List (List Cell)) (x : TBytes) (index : UInt32) : Except Fault (Option UInt32) :=
  if index < bytesLen x then (getOrPanic mem x index).map some else .ok none

/-- `Bytes::slice`, prelude.trb 591-604. -/
def slice (st : St) (x : TBytes) (start stop : UInt32) : Except Fault St :=
  let len := bytesLen x
  let s := if start > len then len else start
  let e := if stop < s then s else if stop > len then len else stop
  sliceOrPanic st x s e

/-- `__bytes_get_or_panic` on the WebAssembly target, `wasm/intrinsic_to_wasm.rs` 160-230:
`array.get_u` of the backing array at `offset + index` (32-bit wrapping); it traps outside the
backing array only. -/
def wasmGetOrPanic (data : List Byte) (offset index : UInt32) : Except Fault UInt32 :=
  match data[(offset + index).toNat]? with
  | some b => .ok (UInt32.ofNat b.toNat)
  | none => .error .abort

end Verif.Bytes
