import Verif.Layout.Model
/-!
# Type indices, construction and destruction of heap objects (native target)

Model of `crates/tribute-passes/src/native/rtti.rs` 73-650 (indices, generated destructors),
`crates/tribute-passes/src/native/adt_rc_header.rs` 94-320 (construction),
`crates/trunk-ir-cranelift-backend/src/translate.rs` 83-330 (table of destructors and
`__tribute_deep_release`), `crates/tribute-passes/src/native/type_converter.rs` 117-160 and
430-464 (which types become pointers) and `__tribute_dealloc`
(`crates/tribute-runtime/src/lib.rs` 718-732).

Simplifications:
* generated code runs on a small machine: byte memory, 64-bit addresses, values named by numbers. Values
  created by the generator are numbered within their block, as no block uses another block's values
  except the payload pointer (0) and the loaded tag (1);
* block references are fresh in the code; here they are labels saying what the block is for;
* what releasing a field does to memory is an arbitrary function, a parameter of the machine;
* locations, and values' types beyond their width, are left out.
-/
namespace Verif.Rtti
open Verif.Layout

/-! ## Indices -/

/-- `RTTI_USER_START`, rtti.rs 73. -/
def rttiUserStart : UInt32 := 32

/-- `struct RttiMap`, rtti.rs 90-94. -/
structure RttiMap (T : Type) where
  typeToIdx : T → Option UInt32
  nextIdx : UInt32

/-- `RttiMap::new`, rtti.rs 97-102. -/
def RttiMap.new {T : Type} : RttiMap T := ⟨fun _ => none, rttiUserStart⟩

/-- `get_or_insert`, rtti.rs 104-112 (`+= 1` wraps in a release build). -/
def RttiMap.getOrInsert {T : Type} [DecidableEq T] (m : RttiMap T) (ty : T) : RttiMap T × UInt32 :=
  match m.typeToIdx ty with
  | some idx => (m, idx)
  | none =>
    (⟨fun t => if t = ty then some m.nextIdx else m.typeToIdx t, m.nextIdx + 1⟩, m.nextIdx)

/-- `get`, rtti.rs 114-116. -/
def RttiMap.get {T : Type} (m : RttiMap T) (ty : T) : Option UInt32 := m.typeToIdx ty

/-- `collect_types`, rtti.rs 163-191: the types of the constructions met in the walk, in order. -/
def collectTypes {T : Type} [DecidableEq T] (constructed : List T) : RttiMap T :=
  constructed.foldl (fun m t => (m.getOrInsert t).1) .new

/-! ## The machine -/

/-- Byte memory. -/
abbrev Mem := Nat → UInt8

/-- Store the low `n` bytes of `v` at `a`, least significant first. -/
def storeN (m : Mem) (a v n : Nat) : Mem :=
  fun x => if a ≤ x ∧ x < a + n then UInt8.ofNat (v / 256 ^ (x - a)) else m x

/-- Load `n` bytes from `a`, least significant first. -/
def loadN (m : Mem) (a : Nat) : Nat → Nat
  | 0 => 0
  | n + 1 => (m a).toNat + 256 * loadN m (a + 1) n

/-- 64-bit address arithmetic. -/
def addr (base : Nat) (off : Int) : Nat := (((base : Int) + off) % 2 ^ 64).toNat

/-- What the outside world sees. -/
inductive Event where
  | alloc (size : Nat)
  | release (p size : Nat)
  | dealloc (p size : Nat)
deriving DecidableEq, Repr

/-- Instructions (`clif` operations, `tribute_rt.release` and the two runtime calls). Widths are in
bytes. -/
inductive Op where
  | iconst (dst : Nat) (v : Int) (width : Nat)
  | load (dst base width : Nat) (off : Int)
  | store (v base width : Nat) (off : Int)
  | iadd (dst a b : Nat)
  | isub (dst a b : Nat)
  | icmpEq (dst a b : Nat)
  | release (v size : Nat)
  | callAlloc (dst size : Nat)
  | callDealloc (p size : Nat)
deriving DecidableEq, Repr

/-- Block names; `i` is the variant (for a struct, 0), `j` the pointer field. -/
inductive Label where
  | entry
  | dealloc
  | check (i j : Nat)
  | release (i j : Nat)
  | tag (i : Nat)
deriving DecidableEq, Repr

inductive Term where
  | jump (l : Label)
  | brif (c : Nat) (t e : Label)
  | ret
deriving DecidableEq, Repr

structure Block where
  ops : List Op
  term : Term
deriving DecidableEq, Repr

/-- What the machine does not determine: the address the allocator returns, and the effect of
releasing a pointer. -/
structure World where
  allocated : Nat
  released : Nat → Mem → Mem

structure State where
  env : Nat → Option Nat
  mem : Mem
  events : List Event

def State.set (s : State) (d v : Nat) : State := { s with env := fun x => if x = d then some v else s.env x }

/-- One instruction; `none` is the use of an undefined value. -/
def step (w : World) (s : State) : Op → Option State
  | .iconst d v width => some (s.set d (v % 2 ^ (8 * width)).toNat)
  | .load d b width off => (s.env b).bind fun base => some (s.set d (loadN s.mem (addr base off) width))
  | .store v b width off => (s.env v).bind fun x => (s.env b).bind fun base =>
      some { s with mem := storeN s.mem (addr base off) x width }
  | .iadd d a b => (s.env a).bind fun x => (s.env b).bind fun y => some (s.set d (addr x y))
  | .isub d a b => (s.env a).bind fun x => (s.env b).bind fun y => some (s.set d (addr x (-(y : Int))))
  | .icmpEq d a b => (s.env a).bind fun x => (s.env b).bind fun y =>
      some (s.set d (if x = y then 1 else 0))
  | .release v size => (s.env v).bind fun p =>
      some { s with mem := w.released p s.mem, events := s.events ++ [.release p size] }
  | .callAlloc d size => (s.env size).bind fun n =>
      some (State.set { s with events := s.events ++ [.alloc n] } d w.allocated)
  | .callDealloc p size => (s.env p).bind fun x => (s.env size).bind fun n =>
      some { s with events := s.events ++ [.dealloc x n] }

def steps (w : World) (s : State) : List Op → Option State
  | [] => some s
  | op :: ops => (step w s op).bind fun s' => steps w s' ops

/-- A function body: blocks with their names, entry first. -/
abbrev Code := List (Label × Block)

/-- Run from a block for at most `fuel` blocks; `none` if it does not return within them, or goes
wrong. -/
def run (w : World) (code : Code) : Nat → Label → State → Option State
  | 0, _, _ => none
  | fuel + 1, l, s => (code.lookup l).bind fun b => (steps w s b.ops).bind fun s' =>
    match b.term with
    | .ret => some s'
    | .jump l' => run w code fuel l' s'
    | .brif c t e => (s'.env c).bind fun v => run w code fuel (if v = 0 then e else t) s'

/-! ## Types -/

/-- `native_type_converter`, type_converter.rs 117-160, 430-464. A type is its dialect and name here;
the `adt` types that occur as field types are structs, enums, variant instances and type references,
all of which become pointers. The evidence type (an array) is covered by `core.array`. -/
def nativeConv (t : Ty) : Ty :=
  if t = ⟨"tribute_rt", "int"⟩ ∨ t = ⟨"tribute_rt", "nat"⟩ ∨ t = ⟨"tribute_rt", "bool"⟩ then ⟨"core", "i32"⟩
  else if t = ⟨"core", "i1"⟩ then ⟨"core", "i32"⟩
  else if t = ⟨"tribute_rt", "float"⟩ then ⟨"core", "f64"⟩
  else if t = ⟨"tribute_rt", "intref"⟩ then ⟨"core", "ptr"⟩
  else if t = ⟨"core", "bytes"⟩ then ⟨"core", "ptr"⟩
  else if t.dialect = "adt" then ⟨"core", "ptr"⟩
  else if t = ⟨"closure", "closure"⟩ then ⟨"core", "ptr"⟩
  else if t = ⟨"core", "func"⟩ then ⟨"core", "ptr"⟩
  else if t = ⟨"core", "array"⟩ then ⟨"core", "ptr"⟩
  else t

/-- `native_data.dialect == "core" && native_data.name == "ptr"`, rtti.rs 233-240 and 456-463. -/
def isPtr (conv : Ty → Ty) (t : Ty) : Bool := (conv t).dialect == "core" && (conv t).name == "ptr"

/-- `offset as i32` (a `u32`). -/
def asI32 (o : UInt32) : Int := if o.toNat < 2 ^ 31 then o.toNat else (o.toNat : Int) - 2 ^ 32

/-- Width of a field's value: that of its converted type (the IR is well typed). -/
def width (conv : Ty → Ty) (t : Ty) : Nat := (typeSizeAlign (conv t)).1.toNat

/-! ## Construction -/

/-- Steps 1-5 of both constructions, adt_rc_header.rs 125-167 and 246-288: allocate, store the count
and the type index, compute the payload address. `k` is the first free value number: `k+1` is the raw
pointer, `k+5` the payload pointer. -/
def header (totalSize rttiIdx : UInt32) (k : Nat) : List Op :=
  [ .iconst k (totalSize.toNat + 8) 8,
    .callAlloc (k + 1) k,
    .iconst (k + 2) 1 4,
    .store (k + 2) (k + 1) 4 0,
    .iconst (k + 3) rttiIdx.toNat 4,
    .store (k + 3) (k + 1) 4 4,
    .iconst (k + 4) 8 8,
    .iadd (k + 5) (k + 1) (k + 4) ]

/-- The stores of the fields, adt_rc_header.rs 177-181 and 306-310: operand `i` (value number `i`) at
`offset i` from the payload. -/
def fieldStores (conv : Ty → Ty) (payload : Nat) : Nat → List (Ty × Int) → List Op
  | _, [] => []
  | i, (t, off) :: rest => .store i payload (width conv t) off :: fieldStores conv payload (i + 1) rest

/-- `StructNewPattern`, adt_rc_header.rs 102-199. Operand `i` is value number `i`; the result is the
last value. A type without index, or a wrong operand count, panics: `none`. -/
def structNew (conv : Ty → Ty) (idx : Option UInt32) (fields : List (String × Ty)) (operands : Nat) :
    Option (List Op) :=
  let layout := computeStructLayout conv fields
  let k := operands
  match idx with
  | none => none
  | some rttiIdx =>
    if operands = layout.fieldOffsets.length then
      some (header layout.totalSize rttiIdx k ++
        fieldStores conv (k + 5) 0 ((fields.map (·.2)).zip (layout.fieldOffsets.map asI32)) ++
        [.iconst (k + 6) 0 8, .iadd (k + 7) (k + 5) (k + 6)])
    else none

/-- `VariantNewPattern`, adt_rc_header.rs 222-327. An unknown variant panics: `none`. -/
def variantNew (conv : Ty → Ty) (idx : Option UInt32) (variants : List (String × List Ty))
    (tag : String) (tys : List Ty) (operands : Nat) : Option (List Op) :=
  let layout := computeEnumLayout conv variants
  let k := operands
  match findVariantLayout layout tag, idx with
  | some v, some rttiIdx =>
    if operands = v.fieldOffsets.length then
      some (header layout.totalSize rttiIdx k ++
        [.iconst (k + 8) v.tagValue.toNat 4, .store (k + 8) (k + 5) 4 0] ++
        fieldStores conv (k + 5) 0
          (tys.zip (v.fieldOffsets.map fun o => asI32 (layout.fieldsOffset + o))) ++
        [.iconst (k + 6) 0 8, .iadd (k + 7) (k + 5) (k + 6)])
    else none
  | _, _ => none

/-! ## Destructors -/

/-- `gen_dealloc_and_return`, rtti.rs 371-404, and the same code at 485-509. -/
def deallocBlock (totalSize : UInt32) : Block :=
  ⟨[.iconst 2 8 8, .isub 3 0 2, .iconst 4 (totalSize.toNat + 8) 8, .callDealloc 3 4], .ret⟩

/-- The check block for a pointer field, rtti.rs 315-336 and 545-566. -/
def checkBlock (off : Int) (next rel : Label) : Block :=
  ⟨[.load 2 0 8 off, .iconst 3 0 8, .icmpEq 4 2 3], .brif 4 next rel⟩

/-- The release block for a pointer field, rtti.rs 301-313 and 531-543. -/
def releaseBlock (off : Int) (next : Label) : Block :=
  ⟨[.load 2 0 8 off, .release 2 0], .jump next⟩

/-- The loop building check and release blocks for variant `i`, rtti.rs 297-342 and 525-571. The code
goes through the offsets backwards, threading the next block; here the blocks of the offsets from
number `j` on are built, with the name of the first. -/
def chain (i : Nat) : Nat → List Int → Label × Code
  | _, [] => (.dealloc, [])
  | j, off :: offs =>
    let next := chain i (j + 1) offs
    (.check i j, (.check i j, checkBlock off next.1 (.release i j)) ::
      (.release i j, releaseBlock off next.1) :: next.2)

/-- `ptr_field_offsets`, rtti.rs 222-243. -/
def structPtrOffsets (conv : Ty → Ty) (fields : List (String × Ty)) : List Int :=
  (fields.zip ((computeStructLayout conv fields).fieldOffsets.map asI32)).filterMap fun f =>
    if f.1.1 = "func_ptr" then none else if isPtr conv f.1.2 then some f.2 else none

/-- `generate_release_function_for_struct`, rtti.rs 194-368. -/
def structDestructor (conv : Ty → Ty) (fields : List (String × Ty)) : Code :=
  let layout := computeStructLayout conv fields
  match structPtrOffsets conv fields with
  | [] => [(.entry, deallocBlock layout.totalSize)]
  | off :: offs =>
    let next := chain 0 1 offs
    (.entry, checkBlock off next.1 (.release 0 0)) :: (.release 0 0, releaseBlock off next.1) ::
      next.2 ++ [(.dealloc, deallocBlock layout.totalSize)]

/-- `ptr_field_offsets` of a variant, rtti.rs 446-467. -/
def variantPtrOffsets (conv : Ty → Ty) (fieldsOffset : UInt32) (tys : List Ty) (v : VariantLayout) :
    List Int :=
  (tys.zip (v.fieldOffsets.map fun o => asI32 (fieldsOffset + o))).filterMap fun f =>
    if isPtr conv f.1 then some f.2 else none

/-- `variants_with_ptrs`, rtti.rs 442-475. -/
def variantsWithPtrs (conv : Ty → Ty) (variants : List (String × List Ty)) :
    List (UInt32 × List Int) :=
  let layout := computeEnumLayout conv variants
  (variants.zip layout.variantLayouts).filterMap fun v =>
    let offs := variantPtrOffsets conv layout.fieldsOffset v.1.2 v.2
    if offs.isEmpty then none else some (v.2.tagValue, offs)

/-- The test whether the tag is that of variant `i`, rtti.rs 588-612 and 617-635. -/
def tagTest (tagValue : UInt32) : List Op := [.iconst 2 tagValue.toNat 4, .icmpEq 3 1 2]

/-- The blocks that test the tag, rtti.rs 582-616 (built backwards in the code), from variant `i` on. -/
def tagChain : Nat → List (UInt32 × List Int) → Label × Code
  | _, [] => (.dealloc, [])
  | i, (tagValue, offs) :: rest =>
    let next := tagChain (i + 1) rest
    (.tag i, (.tag i, ⟨tagTest tagValue, .brif 3 (chain i 0 offs).1 next.1⟩) :: next.2)

/-- The release chains of all variants, rtti.rs 519-575. -/
def chains : Nat → List (UInt32 × List Int) → Code
  | _, [] => []
  | i, (_, offs) :: rest => (chain i 0 offs).2 ++ chains (i + 1) rest

/-- `generate_release_function_for_enum`, rtti.rs 408-660. -/
def enumDestructor (conv : Ty → Ty) (variants : List (String × List Ty)) : Code :=
  let layout := computeEnumLayout conv variants
  match variantsWithPtrs conv variants with
  | [] => [(.entry, ⟨[], .jump .dealloc⟩), (.dealloc, deallocBlock layout.totalSize)]
  | (tagValue, offs) :: rest =>
    let next := tagChain 1 rest
    (.entry, ⟨.load 1 0 4 0 :: tagTest tagValue, .brif 3 (chain 0 0 offs).1 next.1⟩) ::
      next.2 ++ (chain 0 0 offs).2 ++ chains 1 rest ++ [(.dealloc, deallocBlock layout.totalSize)]

/-! ## The table and the dispatch function -/

/-- A type with a destructor. -/
inductive Decl where
  | struct (name : String) (fields : List (String × Ty))
  | enum (name : String) (variants : List (String × List Ty))
deriving DecidableEq, Repr

/-- The destructor of a type, rtti.rs 145-151. -/
def Decl.destructor (conv : Ty → Ty) : Decl → Code
  | .struct _ fields => structDestructor conv fields
  | .enum _ variants => enumDestructor conv variants

/-- `RELEASE_FN_PREFIX`, rtti.rs 83, translate.rs 80. -/
def releaseFnPrefix : String := "__tribute_release_"

/-- Decimal digits, most significant first (`format!("{}", n)` for an unsigned integer). -/
def digits (n : Nat) : List Char :=
  if h : n < 10 then [Char.ofNat (48 + n)] else digits (n / 10) ++ [Char.ofNat (48 + n % 10)]
termination_by n
decreasing_by omega

/-- The name of a destructor, rtti.rs 217 and 428. -/
def destructorName (idx : UInt32) : List Char := releaseFnPrefix.toList ++ digits idx.toNat

/-- Phase 2 of `generate_rtti`, rtti.rs 131-156: the functions added to the module. `entries` lists the
map in iteration order. -/
def generateDestructors (conv : Ty → Ty) (entries : List (Decl × UInt32)) : List (List Char × Code) :=
  (entries.mergeSort fun a b => decide (a.2 ≤ b.2)).map fun e =>
    (destructorName e.2, e.1.destructor conv)

/-- A digit of `str::parse`. -/
def digitVal (c : Char) : Option Nat :=
  if 48 ≤ c.toNat ∧ c.toNat ≤ 57 then some (c.toNat - 48) else none

/-- The digits of `str::parse::<u32>`; too large is an error. -/
def parseDigits : Nat → List Char → Option Nat
  | acc, [] => some acc
  | acc, c :: cs => (digitVal c).bind fun d =>
    if acc * 10 + d < 2 ^ 32 then parseDigits (acc * 10 + d) cs else none

/-- `str::parse::<u32>`: an optional `+`, then at least one digit. -/
def parseU32 (s : List Char) : Option Nat :=
  match s with
  | [] => none
  | '+' :: [] => none
  | '+' :: cs => parseDigits 0 cs
  | cs => parseDigits 0 cs

/-- The index of a release function, if the name is that of one, translate.rs 99-103. -/
def releaseIndex (name : List Char) : Option Nat :=
  if releaseFnPrefix.toList.isPrefixOf name then parseU32 (name.drop releaseFnPrefix.length) else none

/-- The release functions found among all functions, translate.rs 94-105. -/
def releaseFunctions {F : Type} (funcs : List (List Char × F)) : List (Nat × F) :=
  funcs.filterMap fun f => (releaseIndex f.1).map fun i => (i, f.2)

/-- `__tribute_rtti_table`, translate.rs 152-171: `max + 1` entries, null where there is no function;
later definitions override earlier ones. -/
def rttiTable {F : Type} (fns : List (Nat × F)) : List (Option F) :=
  let size := fns.foldl (fun n f => max n f.1) 0 + 1
  fns.foldl (fun t f => t.set f.1 (some f.2)) (List.replicate size none)

/-- What `__tribute_deep_release` does next. -/
inductive Dispatch (F : Type) where
  | free (p size : Nat)
  | call (f : F) (payload : Nat)
deriving DecidableEq, Repr

/-- `__tribute_deep_release`, translate.rs 226-330. An index beyond the table reads outside of it:
`none`. -/
def deepRelease {F : Type} (fns : List (Nat × F)) (m : Mem) (payload size : Nat) :
    Option (Dispatch F) :=
  let raw := addr payload (-8)
  if fns.isEmpty then some (.free raw size)
  else
    match (rttiTable fns)[loadN m (addr raw 4) 4]? with
    | none => none
    | some none => some (.free raw size)
    | some (some f) => some (.call f payload)

/-- `__tribute_dealloc`, tribute-runtime lib.rs 718-732: the block given back to the allocator, if
any. -/
def runtimeDealloc (p size : Nat) : Option (Nat × Nat) := if p = 0 ∨ size = 0 then none else some (p, size)

end Verif.Rtti
