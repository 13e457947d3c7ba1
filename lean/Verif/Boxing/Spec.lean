import Verif.Boxing.Model

/-!
# What boxing should do, said without the compiler

A primitive value is a number, a character, a truth value, a float or nil.  Either target keeps it in a
machine value; boxing turns that into a reference, unboxing turns the reference into a machine value
again, and it should be one for the same primitive value.
-/
namespace Verif.Boxing

/-- The primitive values of the language. -/
inductive Datum
  | int (z : Int)
  | nat (n : Nat)
  | rune (c : Char)
  | bool (b : Bool)
  | float (bits : BitVec 64)
  | nil
  deriving DecidableEq

/-- Its type. -/
def Datum.prim : Datum → Prim
  | .int _ => .int
  | .nat _ => .nat
  | .rune _ => .rune
  | .bool _ => .bool
  | .float _ => .float
  | .nil => .nil

/-- The 32 bits that stand for a primitive value: two's complement for integers, binary for naturals and
characters, 0 and 1 for truth values. -/
def Datum.Bits32 : Datum → BitVec 32 → Prop
  | .int z, b => b.toInt = z
  | .nat n, b => b.toNat = n
  | .rune c, b => b.toNat = c.toNat
  | .bool t, b => b = if t then 1 else 0
  | _, _ => False

/-- A native machine value stands for a primitive value. Nil is never looked at. -/
def OnNative (d : Datum) (v : Val) : Prop :=
  match d, v with
  | .nil, _ => True
  | .float x, .f64 b => b = x
  | d, .w32 b => d.Bits32 b
  | _, _ => False

/-- The same on WebAssembly. -/
def OnWasm (d : Datum) (v : WVal) : Prop :=
  match d, v with
  | .nil, _ => True
  | .float x, .f64 b => b = x
  | d, .i32 b => d.Bits32 b
  | _, _ => False

/-- The allocator answers a request for `n` bytes in memory `m` with a block that is not in use and lies
in the address space. -/
def Fresh (al : Alloc) (m : Mem) (n : Nat) : Prop :=
  (al m n).1 + n ≤ 2 ^ 64 ∧ ∀ x, (al m n).1 ≤ x → x < (al m n).1 + n → m x = none

/-- Everything in memory is as it was. -/
def Untouched (m m' : Mem) : Prop := ∀ x b, m x = some b → m' x = some b

/-- The bytes that are in `m1` but were not in `m` are still there in `m2`.  (Anything may have happened
to the others.) -/
def NewKept (m m1 m2 : Mem) : Prop := ∀ x b, m x = none → m1 x = some b → m2 x = some b

/-- Small enough for the references WebAssembly has for small numbers: 31 bits with the sign.  (The
largest naturals have the bits of small negative integers.) -/
def Small : Datum → Prop
  | .int z => -2 ^ 30 ≤ z ∧ z < 2 ^ 30
  | .nat n => n < 2 ^ 30 ∨ 3 * 2 ^ 30 ≤ n
  | _ => True

end Verif.Boxing
