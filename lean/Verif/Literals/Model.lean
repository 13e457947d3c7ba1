/-!
# Literals in expressions and patterns

Model of `crates/tribute-front/src/astgen/expressions.rs` 798-1107 and
`crates/tribute-front/src/astgen/patterns.rs` 326-452 (literal parsing helpers), and of
`crates/tribute-front/src/ast_to_ir/lower/mod.rs` 342-390 (range checks).

Simplifications:
* the text of a literal is a list of characters. The code slices by bytes; prefixes, quotes and hashes
  are one byte each, so slices are taken here by characters. A text whose last character is longer than
  a byte, for which the code's slices differ, is not a literal;
* `none` is a rejected number, or, for strings, a panic.
-/
namespace Verif.Literals

/-! ## The standard library -/

/-- `char::to_digit(radix)`. -/
def toDigit (radix : Nat) (c : Char) : Option Nat :=
  let d :=
    if 48 ≤ c.toNat ∧ c.toNat ≤ 57 then some (c.toNat - 48)
    else if 97 ≤ c.toNat ∧ c.toNat ≤ 122 then some (c.toNat - 87)
    else if 65 ≤ c.toNat ∧ c.toNat ≤ 90 then some (c.toNat - 55)
    else none
  d.bind fun d => if d < radix then some d else none

/-- The loop of `from_str_radix`: checked multiplication and addition below `bound`. -/
def digitLoop (radix bound : Nat) : List Char → Nat → Option Nat
  | [], acc => some acc
  | c :: r, acc => (toDigit radix c).bind fun d =>
      if acc * radix + d < bound then digitLoop radix bound r (acc * radix + d) else none

/-- `from_str_radix` of an unsigned type with values below `bound`: a leading `+` is allowed, an empty
text or a lone sign is not. -/
def fromStrRadix (radix bound : Nat) (s : List Char) : Option Nat :=
  match s with
  | [] => none
  | c :: r =>
    if r = [] ∧ (c = '+' ∨ c = '-') then none
    else if c = '+' then digitLoop radix bound r 0
    else digitLoop radix bound (c :: r) 0

/-- `char::from_u32`. -/
def charFromU32 (n : Nat) : Option Char := if n.isValidChar then some (Char.ofNat n) else none

/-- `char::is_whitespace`. -/
def isWhitespace (c : Char) : Bool :=
  (9 ≤ c.toNat && c.toNat ≤ 13) || c.toNat == 32 || c.toNat == 0x85 || c.toNat == 0xA0 || c.toNat == 0x1680 ||
  (0x2000 ≤ c.toNat && c.toNat ≤ 0x200A) || c.toNat == 0x2028 || c.toNat == 0x2029 || c.toNat == 0x202F ||
  c.toNat == 0x205F || c.toNat == 0x3000

/-- `str::trim`. -/
def trim (s : List Char) : List Char :=
  ((s.dropWhile isWhitespace).reverse.dropWhile isWhitespace).reverse

/-- `replace('_', "")`. -/
def noUnderscores (s : List Char) : List Char := s.filter (· != '_')

/-- `as_bytes`. -/
def utf8 (s : List Char) : List UInt8 := s.flatMap String.utf8EncodeChar

/-- `String::from_utf8`. -/
def fromUtf8 (bs : List UInt8) : Option (List Char) := (ByteArray.mk bs.toArray).utf8Decode?.map Array.toList

/-! ## Numbers -/

/-- `parse_nat_literal`, expressions.rs 798-808 and patterns.rs 326-336. -/
def parseNat (text : List Char) : Option Nat :=
  if "0b".toList.isPrefixOf text ∨ "0B".toList.isPrefixOf text then
    fromStrRadix 2 (2 ^ 64) (noUnderscores (text.drop 2))
  else if "0o".toList.isPrefixOf text ∨ "0O".toList.isPrefixOf text then
    fromStrRadix 8 (2 ^ 64) (noUnderscores (text.drop 2))
  else if "0x".toList.isPrefixOf text ∨ "0X".toList.isPrefixOf text then
    fromStrRadix 16 (2 ^ 64) (noUnderscores (text.drop 2))
  else fromStrRadix 10 (2 ^ 64) (noUnderscores text)

/-- Whether there is a `-`, and the text after the sign, expressions.rs 816-822 and patterns.rs 344-350. -/
def splitSign (text : List Char) : Bool × List Char :=
  match text with
  | [] => (false, [])
  | c :: r => if c = '+' then (false, r) else if c = '-' then (true, r) else (false, c :: r)

/-- `parse_int_literal` of expressions, expressions.rs 810-842. -/
def exprInt (text : List Char) : Option Int :=
  let t := trim text
  if t = [] then none
  else (parseNat (splitSign t).2).bind fun v =>
    if (splitSign t).1 then
      if v > 2 ^ 63 then none
      else if v = 2 ^ 63 then some (-2 ^ 63)
      else some (-(v : Int))
    else if v < 2 ^ 63 then some (v : Int) else none

/-- `parse_int_literal` of patterns, patterns.rs 338-371. -/
def patInt (text : List Char) : Option Int :=
  let t := trim text
  if t = [] then none
  else (parseNat (splitSign t).2).bind fun v =>
    if (splitSign t).1 then
      if v ≤ 2 ^ 63 - 1 then some (-(v : Int))
      else if v = 2 ^ 63 - 1 + 1 then some (-2 ^ 63)
      else none
    else if v < 2 ^ 63 then some (v : Int) else none

/-- `validate_nat_i31`, lower/mod.rs 345-365: `none` is a diagnostic. -/
def validateNat (n : Nat) : Option Int := if n > 2 ^ 30 - 1 then none else some (n : Int)

/-- `validate_int_i31`, lower/mod.rs 370-390. -/
def validateInt (n : Int) : Option Int := if ¬ (-2 ^ 30 ≤ n ∧ n ≤ 2 ^ 30 - 1) then none else some n

/-! ## Texts -/

/-- A byte as a character of a hexadecimal number. -/
def byteChar (b : UInt8) : Char := Char.ofNat b.toNat

/-- `process_escape_sequences`, expressions.rs 1001-1075. Runs without backslashes are copied here one
byte at a time; `fuel` bounds the number of rounds. -/
def escapesLoop : Nat → List UInt8 → List UInt8
  | 0, _ => []
  | _, [] => []
  | fuel + 1, b :: r =>
    if b ≠ 92 then b :: escapesLoop fuel r
    else
      match r with
      | [] => [92]
      | e :: r1 =>
        if e = 110 then 10 :: escapesLoop fuel r1
        else if e = 114 then 13 :: escapesLoop fuel r1
        else if e = 116 then 9 :: escapesLoop fuel r1
        else if e = 48 then 0 :: escapesLoop fuel r1
        else if e = 92 then 92 :: escapesLoop fuel r1
        else if e = 34 then 34 :: escapesLoop fuel r1
        else if e = 120 then
          match r1 with
          | h1 :: h2 :: r2 =>
            UInt8.ofNat ((fromStrRadix 16 (2 ^ 8) [byteChar h1, byteChar h2]).getD 0) :: escapesLoop fuel r2
          | _ => 92 :: escapesLoop fuel (e :: r1)
        else if e = 117 then
          match r1 with
          | h1 :: h2 :: h3 :: h4 :: r2 =>
            match (fromStrRadix 16 (2 ^ 32) [byteChar h1, byteChar h2, byteChar h3, byteChar h4]).bind charFromU32 with
            | some c => String.utf8EncodeChar c ++ escapesLoop fuel r2
            | none => escapesLoop fuel r2
          | _ => 92 :: escapesLoop fuel (e :: r1)
        else 92 :: escapesLoop fuel (e :: r1)

/-- `process_escape_sequences`, as a whole. -/
def processEscapes (bs : List UInt8) : List UInt8 := escapesLoop bs.length bs

/-- The length of the prefix of a string literal and whether it is raw, expressions.rs 850-858. -/
def stringPrefix (text : List Char) : Nat × Bool :=
  if "rs".toList.isPrefixOf text ∨ "sr".toList.isPrefixOf text then (2, true)
  else if text.head? = some 'r' then (1, true)
  else if text.head? = some 's' then (1, false)
  else (0, false)

/-- `text.get(i..j)` or the empty text. -/
def slice (text : List Char) (i j : Nat) : List Char := (text.take j).drop i

/-- The content of a raw literal with `hashes > 0`, expressions.rs 872-902 and 946-978. -/
def hashedContent (text : List Char) (quoteStart hashes : Nat) : List Char :=
  if text[quoteStart]? ≠ some '"' then []
  else
    let stop := text.length - (1 + hashes)
    if stop ≤ quoteStart + 1 then []
    else if text.drop stop ≠ '"' :: List.replicate hashes '#' then []
    else slice text (quoteStart + 1) stop

/-- `parse_string_literal` of expressions, expressions.rs 844-923; the `expect` can panic. -/
def exprString (literal : List Char) : Option (List Char) :=
  let text := trim literal
  let p := stringPrefix text
  let hashes := if p.2 then ((text.drop p.1).takeWhile (· == '#')).length else 0
  if hashes > 0 then some (hashedContent text (p.1 + hashes) hashes)
  else if p.2 then
    if text[p.1]? ≠ some '"' then some [] else some (slice text (p.1 + 1) (text.length - 1))
  else if text[p.1]? = some '"' then
    fromUtf8 (processEscapes (utf8 (slice text (p.1 + 1) (text.length - 1))))
  else some text

/-- `parse_bytes_literal`, expressions.rs 925-991. -/
def exprBytes (literal : List Char) : List UInt8 :=
  let text := trim literal
  if "rb".toList.isPrefixOf text ∨ "br".toList.isPrefixOf text then
    let hashes := ((text.drop 2).takeWhile (· == '#')).length
    if hashes > 0 then utf8 (hashedContent text (2 + hashes) hashes)
    else utf8 (slice text 3 (text.length - 1))
  else if text.head? = some 'b' then
    let hashes := ((text.drop 1).takeWhile (· == '#')).length
    if hashes > 0 then utf8 (hashedContent text (1 + hashes) hashes)
    else processEscapes (utf8 (slice text 2 (text.length - 1)))
  else utf8 text

/-- `unescape_string` of patterns, patterns.rs 374-423. `fuel` bounds the number of characters. -/
def unescape : Nat → List Char → List Char
  | 0, _ => []
  | _, [] => []
  | fuel + 1, c :: r =>
    if c ≠ '\\' then c :: unescape fuel r
    else
      match r with
      | [] => []
      | e :: r1 =>
        if e = 'n' then '\n' :: unescape fuel r1
        else if e = 'r' then '\r' :: unescape fuel r1
        else if e = 't' then '\t' :: unescape fuel r1
        else if e = '\\' then '\\' :: unescape fuel r1
        else if e = '"' then '"' :: unescape fuel r1
        else if e = '0' then Char.ofNat 0 :: unescape fuel r1
        else if e = 'x' then
          match fromStrRadix 16 (2 ^ 8) (r1.take 2) with
          | some n => Char.ofNat n :: unescape fuel (r1.drop 2)
          | none => unescape fuel (r1.drop 2)
        else if e = 'u' then
          if r1.head? = some '{' then
            let hex := (r1.drop 1).takeWhile (· != '}')
            match (fromStrRadix 16 (2 ^ 32) hex).bind charFromU32 with
            | some ch => ch :: unescape fuel ((r1.drop 1).drop (hex.length + 1))
            | none => unescape fuel ((r1.drop 1).drop (hex.length + 1))
          else
            match (fromStrRadix 16 (2 ^ 32) (r1.take 4)).bind charFromU32 with
            | some ch => ch :: unescape fuel (r1.drop 4)
            | none => unescape fuel (r1.drop 4)
        else e :: unescape fuel r1

/-- `parse_string_literal` of patterns, patterns.rs 425-452. -/
def patString (literal : List Char) : List Char :=
  let text := trim literal
  if "r\"".toList.isPrefixOf text ∨ "r#".toList.isPrefixOf text then
    if "r#".toList.isPrefixOf text then
      let hashes := ((text.drop 1).takeWhile (· == '#')).length
      let start := 2 + hashes
      let stop := text.length - hashes - 1
      if start < stop then slice text start stop else []
    else slice text 2 (text.length - 1)
  else
    let content :=
      if text.head? = some '"' ∧ text.getLast? = some '"' ∧ text.length ≥ 2 then slice text 1 (text.length - 1)
      else text
    unescape content.length content

/-- `parse_rune_literal`, expressions.rs 1079-1107. -/
def exprRune (text : List Char) : Option Char :=
  match text with
  | '?' :: '\\' :: e :: r =>
    if e = 'n' then some '\n'
    else if e = 'r' then some '\r'
    else if e = 't' then some '\t'
    else if e = '\\' then some '\\'
    else if e = '0' then some (Char.ofNat 0)
    else if e = 'x' then (fromStrRadix 16 (2 ^ 32) r).bind charFromU32
    else if e = 'u' then (fromStrRadix 16 (2 ^ 32) r).bind charFromU32
    else none
  | ['?', '\\'] => none
  | '?' :: c :: _ => some c
  | _ => none

end Verif.Literals
