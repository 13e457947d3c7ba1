import Verif.Rope.Model
/-!
# Decimal text of integers

Model of `Int::parse` and `Int::to_string`, `lib/std/prelude.trb` 135-302.

`Int` values are 32-bit two's complement (`core.i32`): here an integer between -2^31 and 2^31-1, and
`wrap` is applied after every addition, subtraction and multiplication.  `Nat` values are `UInt32`.
-/
namespace Verif.IntText

open Verif.Bytes (Byte Fault sext32 sext8)
open Verif.Rope (Str bytesLen)

/-- 32-bit two's complement wrap-around of `arith.addi`, `subi`, `muli` on `core.i32`. -/
def wrap (x : Int) : Int := Int.bmod x (2 ^ 32)

/-- The two code generators. -/
inductive Target where
  | native
  | wasm
deriving DecidableEq, Repr

/-- `Bytes::get_or_panic` on a byte list.  Native (intrinsic_to_native.rs 84-140): sign-extended
index, sign-extended byte, no bounds check (a read outside is `ub`).  WebAssembly
(intrinsic_to_wasm.rs 160-230): unsigned byte; a read outside the value is also `ub` here. -/
def byteAt (t : Target) (bytes : List Byte) (index : UInt32) : Except Fault UInt32 :=
  match t with
  | .native =>
    if sext32 index < 0 then .error .ub
    else match bytes[(sext32 index).toNat]? with
      | some b => .ok (sext8 b)
      | none => .error .ub
  | .wasm =>
    match bytes[index.toNat]? with
    | some b => .ok (UInt32.ofNat b.toNat)
    | none => .error .ub

/-- `Int::decimal_digit_or_invalid`, prelude.trb 154-168. -/
def digitOrInvalid (byte : UInt32) : Int :=
  match byte.toNat with
  | 48 => 0
  | 49 => 1
  | 50 => 2
  | 51 => 3
  | 52 => 4
  | 53 => 5
  | 54 => 6
  | 55 => 7
  | 56 => 8
  | 57 => 9
  | _ => -1

/-- `Int::decimal_step_overflows`, prelude.trb 170-187. -/
def stepOverflows (value digit : Int) (negative : Bool) : Bool :=
  match negative with
  | true =>
    if value < -214748364 then true
    else if value = -214748364 then decide (digit > 8) else false
  | false =>
    if value > 214748364 then true
    else if value = 214748364 then decide (digit > 7) else false

/-- `Result(Int, Int::ParseError)`, prelude.trb 57-60 and 137-140. -/
inductive ParseResult where
  | ok (value : Int)
  | invalidSyntax
  | outOfRange
deriving DecidableEq, Repr

theorem index_decreases {a i : UInt32} (h : ¬ i = a) : (a - (i + 1)).toNat < (a - i).toNat := by
  have h1 := UInt32.toNat_lt a
  have h2 := UInt32.toNat_lt i
  have hne : i.toNat ≠ a.toNat := fun e => h (UInt32.toNat_inj.mp e)
  simp only [UInt32.toNat_sub, UInt32.toNat_add, UInt32.reduceToNat]
  omega

/-- `Int::parse_digits`, prelude.trb 189-222. -/
def parseDigits (t : Target) (bytes : List Byte) (index : UInt32) (value : Int)
    (negative overflowed : Bool) : Except Fault ParseResult :=
  if index = bytesLen bytes then
    if overflowed then .ok .outOfRange else .ok (.ok value)
  else
    match byteAt t bytes index with
    | .error e => .error e
    | .ok byte =>
      let digit := digitOrInvalid byte
      if digit < 0 then .ok .invalidSyntax
      else if overflowed then parseDigits t bytes (index + 1) value negative true
      else if stepOverflows value digit negative then
        parseDigits t bytes (index + 1) value negative true
      else
        let next := if negative then wrap (wrap (value * 10) - digit)
          else wrap (wrap (value * 10) + digit)
        parseDigits t bytes (index + 1) next negative false
termination_by (bytesLen bytes - index).toNat
decreasing_by all_goals exact index_decreases (by assumption)

/-- `Int::parse_after_sign`, prelude.trb 224-229. -/
def parseAfterSign (t : Target) (bytes : List Byte) (index : UInt32) (negative : Bool) :
    Except Fault ParseResult :=
  if index = bytesLen bytes then .ok .invalidSyntax
  else parseDigits t bytes index 0 negative false

/-- `Int::parse` after flattening, prelude.trb 233-242. -/
def parseBytes (t : Target) (bytes : List Byte) : Except Fault ParseResult :=
  if bytesLen bytes = 0 then .ok .invalidSyntax
  else match byteAt t bytes 0 with
    | .error e => .error e
    | .ok b =>
      match b.toNat with
      | 43 => parseAfterSign t bytes 1 false
      | 45 => parseAfterSign t bytes 1 true
      | _ => parseDigits t bytes 0 0 false false

/-- `Int::parse`, prelude.trb 232-242. -/
def parse (t : Target) (input : Str) : Except Fault ParseResult :=
  match input.toBytes with
  | .error e => .error e
  | .ok bytes => parseBytes t bytes

/-- `Int::positive_digit_string`, prelude.trb 244-257. -/
def positiveDigit (digit : Int) : Str :=
  .leaf (if digit = 0 then [48] else if digit = 1 then [49] else if digit = 2 then [50]
    else if digit = 3 then [51] else if digit = 4 then [52] else if digit = 5 then [53]
    else if digit = 6 then [54] else if digit = 7 then [55] else if digit = 8 then [56] else [57])

/-- `Int::negative_digit_string`, prelude.trb 259-272. -/
def negativeDigit (digit : Int) : Str :=
  .leaf (if digit = 0 then [48] else if digit = -1 then [49] else if digit = -2 then [50]
    else if digit = -3 then [51] else if digit = -4 then [52] else if digit = -5 then [53]
    else if digit = -6 then [54] else if digit = -7 then [55] else if digit = -8 then [56]
    else [57])

theorem tdiv_ten_lt {v : Int} (h : ¬ Int.tdiv v 10 = 0) : (Int.tdiv v 10).natAbs < v.natAbs := by
  rw [Int.natAbs_tdiv]
  have : v.natAbs ≠ 0 := by
    intro e
    apply h
    have : v = 0 := by omega
    subst this; rfl
  exact Nat.div_lt_self (by omega) (by decide)

/-- `Int::format_positive`, prelude.trb 274-281.  `/` and `%` truncate towards zero
(`arith.divsi`, `arith.remsi`); dividing by ten cannot overflow. -/
def formatPositive (value : Int) : Str :=
  let quotient := Int.tdiv value 10
  let digit := positiveDigit (Int.tmod value 10)
  if quotient = 0 then digit else (formatPositive quotient).concat digit
termination_by value.natAbs
decreasing_by exact tdiv_ten_lt (by assumption)

/-- `Int::format_negative`, prelude.trb 283-290. -/
def formatNegative (value : Int) : Str :=
  let quotient := Int.tdiv value 10
  let digit := negativeDigit (Int.tmod value 10)
  if quotient = 0 then digit else (formatNegative quotient).concat digit
termination_by value.natAbs
decreasing_by exact tdiv_ten_lt (by assumption)

/-- `Int::to_string`, prelude.trb 293-301. -/
def toStr (value : Int) : Str :=
  if value = 0 then .leaf [48]
  else if value < 0 then (Str.leaf [45]).concat (formatNegative value)
  else formatPositive value

end Verif.IntText
