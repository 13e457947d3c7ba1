import Verif.WasmIo.Model
import Verif.Io.Spec
/-! Specification for C88: what a program asks to print, what the host has taken, and when there is
enough memory. Nothing here refers to the instructions of the function. -/
namespace Verif.WasmIo

/-- A `Bytes` value: a part of an array that a 32-bit index reaches. -/
structure ValidBytes (data : List Byte) (off len : Nat) : Prop where
  inside : off + len ≤ data.length
  size : data.length < 2 ^ 32

/-- What the program asks to print: the bytes, and a newline for `print_line`. -/
def wanted (data : List Byte) (off len newline : Nat) : List Byte :=
  (data.drop off).take len ++ if newline = 1 then [10] else []

/-- What the host took in one call. -/
def Call.accepted (c : Call) : List Byte :=
  match c.result with
  | .wrote k => c.offered.take k
  | .errno _ => []

/-- What the host took, in order. -/
def accepted (cs : List Call) : List Byte := cs.flatMap Call.accepted

/-- The error number of an interrupted call. -/
def interrupted : Fin 76 := 26

/-- A result after which writing goes on: an interruption, or at least one byte taken. -/
def Call.progress (c : Call) : Prop :=
  c.result = .errno interrupted ∨ ∃ k, c.result = .wrote k ∧ 0 < k

/-- There is room for `total` bytes after `scratch`, in the memory as it is or may become. -/
def Fits (w : World) (scratch total : Nat) : Prop :=
  scratch + total < 2 ^ 32 ∧ scratch + total ≤ max w.pages (min w.limit 65536) * 65536

/-- The call ended in a way the program sees: it returned, it trapped, or it waits for the host. -/
inductive End where
  | returned | trapped | waiting
deriving DecidableEq

/-- A call of the helper ends so, with this memory and host. -/
def EndsIn (base : Nat) (data : List Byte) (off len newline : Nat) (w : World) (e : End) (w' : World) :
    Prop :=
  ∃ n l, callHelper n (layout base) data off len newline w =
    some (match e with
      | .returned => .ret ⟨l, w'⟩
      | .trapped => .trap ⟨l, w'⟩
      | .waiting => .waiting ⟨l, w'⟩)

/-! ## The native runtime -/

/-- The same answer of the operating system on a native target. Error numbers differ; only the one of an
interruption matters. -/
def toNative : HostRes → Io.WriteRes
  | .wrote k => .ok k
  | .errno e => .err (if e = interrupted then Io.EINTR else 1000 + e.val)

/-- The same call on a native target. -/
def Call.native (c : Call) : Io.Call := ⟨c.offered, toNative c.result⟩

/-- The host never claims to have taken more than it was offered. -/
def Call.lawful (c : Call) : Prop := ∀ k, c.result = .wrote k → k ≤ c.offered.length

end Verif.WasmIo
