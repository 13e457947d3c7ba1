/-!
# The textual IR: attributes and types

Model of `crates/trunk-ir/src/printer.rs` 97-173 and 405-461 (`write_type`, `write_attribute` and what
they call), `crates/trunk-ir/src/parser/raw.rs` 95-442 (the parser combinators) and
`crates/trunk-ir/src/parser/builder.rs` 62-127 (`build_type`, `build_attribute`).

Simplifications:
* text is a list of characters;
* a `winnow` parser is a function from the input to a result and the remaining input, or `none`
  (all errors raised by these parsers are backtracking errors; `alt`, `opt` and `separated` continue
  from the input they started at);
* interned types, symbols and paths are trees and texts; the raw trees made by the parser and the types
  of the context share one type, whose `aref` constructor only the parser makes;
* an attribute map is the list of its entries in iteration order (collecting the entries of a map gives
  the same map);
* `f64`'s `Display` and `FromStr` are parameters.
-/
namespace Verif.IrText

mutual
/-- `enum Attribute`, types.rs 36-53, and `enum RawAttribute`, raw.rs 81-92. -/
inductive Attr where
  | unit
  | bool (b : Bool)
  | int (v : Int)
  | float (bits : UInt64)
  | string (s : List Char)
  | bytes (bs : List UInt8)
  | symbol (s : List Char)
  | type (t : Ty)
  | list (l : List Attr)
  | location (path : List Char) (start stop : Nat)
/-- `struct TypeData`, types.rs 450-460, and `enum RawType`, raw.rs 68-78. -/
inductive Ty where
  | mk (dialect name : List Char) (params : List Ty) (attrs : List (List Char × Attr))
  | aref (name : List Char)
end

/-! ## Printing -/

/-- `char::is_ascii_alphanumeric(c) || c == '_'`. -/
def isWordChar (c : Char) : Bool := c.isAlphanum || c == '_'

/-- `char::is_ascii_alphabetic(c) || c == '_'`. -/
def isWordStart (c : Char) : Bool := c.isAlpha || c == '_'

/-- `char::is_control`: general category Cc. -/
def isControl (c : Char) : Bool := c.toNat < 32 || (127 ≤ c.toNat && c.toNat < 160)

/-- A lower-case hexadecimal digit. -/
def hexDigit (n : Nat) : Char := if n < 10 then Char.ofNat (48 + n) else Char.ofNat (87 + n)

/-- `format!("\\x{:02x}", n)` for `n < 256`. -/
def hexEscape (n : Nat) : List Char := ['\\', 'x', hexDigit (n / 16), hexDigit (n % 16)]

/-- One byte of `write_escaped_bytes`, printer.rs 407-416. -/
def escapeByte (b : UInt8) : List Char :=
  if b = 92 then ['\\', '\\']
  else if b = 34 then ['\\', '"']
  else if b = 10 then ['\\', 'n']
  else if b = 9 then ['\\', 't']
  else if b = 13 then ['\\', 'r']
  else if b = 0 then ['\\', '0']
  else if 0x20 ≤ b ∧ b ≤ 0x7e then [Char.ofNat b.toNat]
  else hexEscape b.toNat

/-- `write_escaped_bytes`, printer.rs 405-419. -/
def escapeBytes (bs : List UInt8) : List Char := bs.flatMap escapeByte

/-- One character of `write_escaped_string`, printer.rs 423-432. -/
def escapeChar (c : Char) : List Char :=
  if c = '\\' then ['\\', '\\']
  else if c = '"' then ['\\', '"']
  else if c = '\n' then ['\\', 'n']
  else if c = '\t' then ['\\', 't']
  else if c = '\r' then ['\\', 'r']
  else if c = Char.ofNat 0 then ['\\', '0']
  else if isControl c then hexEscape c.toNat
  else [c]

/-- `write_escaped_string`, printer.rs 421-435. -/
def escapeString (s : List Char) : List Char := s.flatMap escapeChar

/-- `'"'`, the escaped text, `'"'`. -/
def quoted (s : List Char) : List Char := '"' :: escapeString s ++ ['"']

/-- A name, quoted if necessary, printer.rs 438-446 and 451-459. -/
def printName (s : List Char) : List Char :=
  if s.isEmpty || !s.all isWordChar then quoted s else s

/-- `write_type_alias_name`, printer.rs 438-448. -/
def printAlias (s : List Char) : List Char := '!' :: printName s

/-- `write_symbol`, printer.rs 450-461. -/
def printSymbol (s : List Char) : List Char := '@' :: printName s

/-- Decimal digits, most significant first (`Display` of an unsigned integer). -/
def digits (n : Nat) : List Char :=
  if h : n < 10 then [Char.ofNat (48 + n)] else digits (n / 10) ++ [Char.ofNat (48 + n % 10)]
termination_by n
decreasing_by omega

/-- `Display` of an `i128`. -/
def printInt (v : Int) : List Char := if v < 0 then '-' :: digits v.natAbs else digits v.natAbs

/-- `f64`'s `Display` and `FromStr`, on bit patterns. -/
structure F64 where
  display : UInt64 → List Char
  parse : List Char → Option UInt64

/-- `f64::is_finite`: the exponent is not all ones. -/
def isFinite (bits : UInt64) : Bool := (bits >>> 52) &&& 0x7ff != 0x7ff

/-- The float case of `write_attribute`, printer.rs 134-142. -/
def printFloat (f : F64) (bits : UInt64) : List Char :=
  let s := f.display bits
  if isFinite bits ∧ '.' ∉ s ∧ 'e' ∉ s ∧ 'E' ∉ s then s ++ ['.', '0'] else s

/-- Items with `", "` between them. -/
def commaSep : List (List Char) → List Char
  | [] => []
  | [x] => x
  | x :: y :: l => x ++ ", ".toList ++ commaSep (y :: l)

mutual
/-- `PrintState::write_type`, printer.rs 97-126; `al` is `type_alias_names`. -/
def printTy (f : F64) (al : Ty → Option (List Char)) (t : Ty) : List Char :=
  match al t with
  | some name => printAlias name
  | none =>
    match t with
    | .aref name => printAlias name
    | .mk dialect name params attrs =>
      dialect ++ '.' :: name ++
      (if params.isEmpty then (if attrs.isEmpty then [] else "()".toList)
        else '(' :: commaSep (printTys f al params) ++ [')']) ++
      (if attrs.isEmpty then [] else " {".toList ++ commaSep (printEntries f al attrs) ++ ['}'])
/-- The parameters of a type. -/
def printTys (f : F64) (al : Ty → Option (List Char)) : List Ty → List (List Char)
  | [] => []
  | t :: ts => printTy f al t :: printTys f al ts
/-- `PrintState::write_attribute`, printer.rs 128-172. -/
def printAttr (f : F64) (al : Ty → Option (List Char)) : Attr → List Char
  | .unit => "unit".toList
  | .bool b => if b then "true".toList else "false".toList
  | .int v => printInt v
  | .float bits => printFloat f bits
  | .string s => quoted s
  | .bytes bs => 'b' :: '"' :: escapeBytes bs ++ ['"']
  | .symbol s => printSymbol s
  | .type t => printTy f al t
  | .list l => '[' :: commaSep (printAttrs f al l) ++ [']']
  | .location path start stop =>
    "loc(".toList ++ quoted path ++ ' ' :: digits start ++ ':' :: digits stop ++ [')']
/-- The items of a list. -/
def printAttrs (f : F64) (al : Ty → Option (List Char)) : List Attr → List (List Char)
  | [] => []
  | a :: l => printAttr f al a :: printAttrs f al l
/-- The entries of an attribute map, printer.rs 117-123. -/
def printEntries (f : F64) (al : Ty → Option (List Char)) : List (List Char × Attr) → List (List Char)
  | [] => []
  | (k, a) :: l => (k ++ " = ".toList ++ printAttr f al a) :: printEntries f al l
end

/-! ## Parsing -/

/-- A parser. -/
abbrev Parser (α : Type) := List Char → Option (α × List Char)

/-- `alt`. -/
def alt {α : Type} (p q : Parser α) : Parser α := fun s => (p s).orElse fun _ => q s

/-- A literal character. -/
def chr (c : Char) : Parser Unit
  | [] => none
  | x :: r => if x = c then some ((), r) else none

/-- A literal text. -/
def lit (t : List Char) : Parser Unit := fun s => if t.isPrefixOf s then some ((), s.drop t.length) else none

/-- `any`. -/
def any : Parser Char
  | [] => none
  | x :: r => some (x, r)

/-- `char::is_ascii_whitespace`. -/
def isSpace (c : Char) : Bool := c == ' ' || c == '\t' || c == '\n' || c.toNat == 12 || c == '\r'

/-- `ws`, raw.rs 100-104. -/
def ws (s : List Char) : List Char := s.dropWhile isSpace

/-- `take_while(1.., f)`. -/
def takeWhile1 (f : Char → Bool) : Parser (List Char) := fun s =>
  if (s.takeWhile f).isEmpty then none else some (s.takeWhile f, s.dropWhile f)

/-- `ident`, raw.rs 107-114. -/
def ident : Parser (List Char)
  | [] => none
  | c :: r => if isWordStart c then some (c :: r.takeWhile isWordChar, r.dropWhile isWordChar) else none

/-- `qualified_name`, raw.rs 149-153. -/
def qualifiedName : Parser (List Char × List Char) := fun s =>
  (ident s).bind fun d => (chr '.' d.2).bind fun x => (ident x.2).bind fun n => some ((d.1, n.1), n.2)

/-- `char::to_digit(16)`. -/
def hexVal (c : Char) : Option Nat :=
  if 48 ≤ c.toNat ∧ c.toNat ≤ 57 then some (c.toNat - 48)
  else if 97 ≤ c.toNat ∧ c.toNat ≤ 102 then some (c.toNat - 87)
  else if 65 ≤ c.toNat ∧ c.toNat ≤ 70 then some (c.toNat - 55)
  else none

/-- `u8::from_str_radix(_, 16)` of a two-character text: a leading `+` is accepted. -/
def hexByte (h1 h2 : Char) : Option UInt8 :=
  if h1 = '+' then (hexVal h2).map UInt8.ofNat
  else (hexVal h1).bind fun a => (hexVal h2).map fun b => UInt8.ofNat (a * 16 + b)

/-- The loop of `string_lit`, raw.rs 203-240, after the opening quote. -/
def stringBody : List Char → Option (List Char × List Char)
  | [] => none
  | '"' :: r => some ([], r)
  | '\\' :: 'x' :: h1 :: h2 :: r => (stringBody r).map fun x =>
      (match hexByte h1 h2 with
        | some b => Char.ofNat b.toNat :: x.1
        | none => '\\' :: 'x' :: h1 :: h2 :: x.1, x.2)
  | '\\' :: 'x' :: _ => none
  | '\\' :: c :: r => (stringBody r).map fun x =>
      (if c = '"' then '"' :: x.1
        else if c = '\\' then '\\' :: x.1
        else if c = 'n' then '\n' :: x.1
        else if c = 't' then '\t' :: x.1
        else if c = 'r' then '\r' :: x.1
        else if c = '0' then Char.ofNat 0 :: x.1
        else '\\' :: c :: x.1, x.2)
  | ['\\'] => none
  | c :: r => (stringBody r).map fun x => (c :: x.1, x.2)

/-- `string_lit`, raw.rs 200-241. -/
def stringLit : Parser (List Char) := fun s => (chr '"' s).bind fun x => stringBody x.2

/-- A name after `@`, raw.rs 127-136. -/
def symbolRef : Parser (List Char) := fun s => (chr '@' s).bind fun x =>
  if x.2.head? = some '"' then stringLit x.2 else takeWhile1 isWordChar x.2

/-- `type_alias_name`, raw.rs 252-258. -/
def aliasName : Parser (List Char) := fun s =>
  if s.head? = some '"' then stringLit s else ident s

/-- The value of decimal digits. -/
def decimal (s : List Char) : Nat := s.foldl (fun n c => n * 10 + (c.toNat - 48)) 0

/-- `integer_lit`, raw.rs 156-175. -/
def integerLit : Parser Int := fun s =>
  let neg := s.head? = some '-'
  (takeWhile1 Char.isDigit (if neg then s.drop 1 else s)).bind fun x =>
    if decimal x.1 < 2 ^ 128 then
      if neg then
        (if decimal x.1 > 2 ^ 127 then none else some (-(decimal x.1 : Int), x.2))
      else (if decimal x.1 < 2 ^ 127 then some ((decimal x.1 : Int), x.2) else none)
    else none

/-- The optional exponent of `float_with_dot`, raw.rs 187-191: its text and the rest. -/
def exponent (s : List Char) : List Char × List Char :=
  match s with
  | [] => ([], [])
  | e :: r =>
    if e = 'e' ∨ e = 'E' then
      match r with
      | [] => ([], s)
      | c :: r' =>
        let sign : List Char := if c = '+' ∨ c = '-' then [c] else []
        let body := if c = '+' ∨ c = '-' then r' else r
        match takeWhile1 Char.isDigit body with
        | some d => (e :: sign ++ d.1, d.2)
        | none => ([], s)
    else ([], s)

/-- `float_with_dot`, raw.rs 180-197. -/
def floatLit (f : F64) : Parser UInt64 := fun s =>
  let sign : List Char := if s.head? = some '-' then ['-'] else []
  (takeWhile1 Char.isDigit (s.drop sign.length)).bind fun a =>
    (chr '.' a.2).bind fun x => (takeWhile1 Char.isDigit x.2).bind fun b =>
      (f.parse (sign ++ a.1 ++ '.' :: b.1 ++ (exponent b.2).1)).map fun v => (v, (exponent b.2).2)

/-- `ascii::dec_uint::<usize>`: no leading zeros; too large is an error. -/
def decUint : Parser Nat := fun s =>
  match s with
  | '0' :: r => some (0, r)
  | s => (takeWhile1 Char.isDigit s).bind fun x => if decimal x.1 < 2 ^ 64 then some (decimal x.1, x.2) else none

/-- `raw_location_attr`, raw.rs 338-351. -/
def locationLit : Parser Attr := fun s =>
  (lit "loc".toList s).bind fun a => (chr '(' (ws a.2)).bind fun b =>
    (stringLit (ws b.2)).bind fun path => (decUint (ws path.2)).bind fun start =>
      (chr ':' start.2).bind fun c => (decUint c.2).bind fun stop => (chr ')' (ws stop.2)).bind fun d =>
        some (.location path.1 start.1 stop.1, d.2)

/-- `byte_escape`, raw.rs 389-401, after the backslash. -/
def byteEscape : Parser UInt8
  | [] => none
  | c :: r =>
    if c = '"' then some (34, r)
    else if c = '\\' then some (92, r)
    else if c = 'n' then some (10, r)
    else if c = 't' then some (9, r)
    else if c = 'r' then some (13, r)
    else if c = '0' then some (0, r)
    else if c = 'x' then
      match r with
      | h1 :: h2 :: r' => (hexByte h1 h2).map fun b => (b, r')
      | _ => none
    else none

/-- `bytes_content`, raw.rs 364-386: escapes and runs of other characters, as long as there are any. The
runs are taken here one character at a time. -/
def bytesContent : Nat → List Char → List UInt8 × List Char
  | 0, s => ([], s)
  | _, [] => ([], [])
  | n + 1, c :: r =>
    if c = '\\' then
      match byteEscape r with
      | some x => (x.1 :: (bytesContent n x.2).1, (bytesContent n x.2).2)
      | none => ([], c :: r)
    else if c = '"' then ([], c :: r)
    else (String.utf8EncodeChar c ++ (bytesContent n r).1, (bytesContent n r).2)

/-- `raw_bytes_string_lit`, raw.rs 358-362. -/
def bytesLit : Parser (List UInt8) := fun s =>
  (chr 'b' s).bind fun a => (chr '"' a.2).bind fun b =>
    let x := bytesContent b.2.length b.2
    (chr '"' x.2).bind fun c => some (x.1, c.2)

/-- The repetition of `separated`: a comma and an item, as long as both are there. Every round eats a
comma, so that the length of the input bounds their number. -/
def sepLoop {α : Type} (p : Parser α) : Nat → List Char → List α × List Char
  | 0, s => ([], s)
  | _, [] => ([], [])
  | n + 1, c :: r =>
    if c = ',' then
      match p r with
      | some x => (x.1 :: (sepLoop p n x.2).1, (sepLoop p n x.2).2)
      | none => ([], c :: r)
    else ([], c :: r)

/-- `separated(0.., p, ',')`. -/
def sepBy0 {α : Type} (p : Parser α) (s : List Char) : List α × List Char :=
  match p s with
  | none => ([], s)
  | some x => (x.1 :: (sepLoop p x.2.length x.2).1, (sepLoop p x.2.length x.2).2)

/-- `(ws, p, ws)`. -/
def spaced {α : Type} (p : Parser α) : Parser α := fun s => (p (ws s)).map fun x => (x.1, ws x.2)

/-- `delimited((open, ws), separated(0.., p, ','), (ws, close))`. -/
def enclosed {α : Type} (o c : Char) (p : Parser α) : Parser (List α) := fun s =>
  (chr o s).bind fun a =>
    let x := sepBy0 p (ws a.2)
    (chr c (ws x.2)).bind fun b => some (x.1, b.2)

/-- `split('.')`. -/
def splitDots : List Char → List (List Char)
  | [] => [[]]
  | c :: r => if c = '.' then [] :: splitDots r else
    match splitDots r with
    | [] => [[c]]
    | w :: ws => (c :: w) :: ws

/-- One segment of an attribute key. -/
def isSegment : List Char → Bool
  | [] => false
  | c :: r => isWordStart c && r.all isWordChar

/-- `attribute_key`, raw.rs 422-442. -/
def attrKey : Parser (List Char) := fun s =>
  (takeWhile1 (fun c => isWordChar c || c == '.') s).bind fun x =>
    if (splitDots x.1).all isSegment then some x else none

/-- An entry of an attribute dictionary, raw.rs 409-411. -/
def entry {α : Type} (value : Parser α) : Parser (List Char × α) := fun s =>
  (attrKey (ws s)).bind fun k => (chr '=' (ws k.2)).bind fun e =>
    (value (ws e.2)).bind fun v => some ((k.1, v.1), ws v.2)

/-- `raw_type`, raw.rs 267-302, given the parsers for nested types and attributes. -/
def typeWith (ty : Parser Ty) (attr : Parser Attr) : Parser Ty := fun s =>
  if s.head? = some '!' then (aliasName (s.drop 1)).map fun x => (.aref x.1, x.2)
  else (qualifiedName s).bind fun q =>
    match enclosed '(' ')' (spaced ty) q.2 with
    | none => some (.mk q.1.1 q.1.2 [] [], q.2)
    | some params =>
      match enclosed '{' '}' (entry attr) (ws params.2) with
      | none => some (.mk q.1.1 q.1.2 params.1 [], params.2)
      | some attrs => some (.mk q.1.1 q.1.2 params.1 attrs.1, attrs.2)

/-- The result of a parser under a constructor. -/
def mapP {α β : Type} (g : α → β) (p : Parser α) : Parser β := fun s => (p s).map fun x => (g x.1, x.2)

/-- `raw_attr_value`, raw.rs 305-335, given the parsers for nested types and attributes. -/
def attrWith (f : F64) (ty : Parser Ty) (attr : Parser Attr) : Parser Attr :=
  alt (mapP (fun _ => .bool true) (lit "true".toList)) <|
  alt (mapP (fun _ => .bool false) (lit "false".toList)) <|
  alt (mapP (fun _ => .unit) (lit "unit".toList)) <|
  alt locationLit <|
  alt (mapP .bytes bytesLit) <|
  alt (mapP .string stringLit) <|
  alt (mapP .symbol symbolRef) <|
  alt (mapP .list (enclosed '[' ']' (spaced attr))) <|
  alt (mapP .float (floatLit f)) <|
  alt (mapP .int integerLit) <|
  mapP .type ty

mutual
/-- `raw_type` with nesting bounded by `n`. -/
def typeN (f : F64) : Nat → Parser Ty
  | 0 => fun _ => none
  | n + 1 => typeWith (typeN f n) (attrN f n)
/-- `raw_attr_value` with nesting bounded by `n`. -/
def attrN (f : F64) : Nat → Parser Attr
  | 0 => fun _ => none
  | n + 1 => attrWith f (typeN f n) (attrN f n)
end

/-- `raw_type`: nested types and attributes start further on in the input, except that an attribute may
be a type starting at the same place, so the nesting is at most twice the input's length. -/
def parseTy (f : F64) : Parser Ty := fun s => typeN f (2 * s.length + 2) s

/-- `raw_attr_value`. -/
def parseAttr (f : F64) : Parser Attr := fun s => attrN f (2 * s.length + 2) s

/-! ## Building -/

mutual
/-- `build_type`, builder.rs 62-100; `env` is `type_alias_map`. An unknown alias is an error. -/
def buildTy (env : List Char → Option Ty) : Ty → Option Ty
  | .aref name => env name
  | .mk d n params attrs => (buildTys env params).bind fun ps =>
      (buildEntries env attrs).map fun as => .mk d n ps as
def buildTys (env : List Char → Option Ty) : List Ty → Option (List Ty)
  | [] => some []
  | t :: ts => (buildTy env t).bind fun x => (buildTys env ts).map fun xs => x :: xs
/-- `build_attribute`, builder.rs 102-127. -/
def buildAttr (env : List Char → Option Ty) : Attr → Option Attr
  | .type t => (buildTy env t).map .type
  | .list l => (buildAttrs env l).map .list
  | a => some a
def buildAttrs (env : List Char → Option Ty) : List Attr → Option (List Attr)
  | [] => some []
  | a :: l => (buildAttr env a).bind fun x => (buildAttrs env l).map fun xs => x :: xs
def buildEntries (env : List Char → Option Ty) :
    List (List Char × Attr) → Option (List (List Char × Attr))
  | [] => some []
  | (k, a) :: l => (buildAttr env a).bind fun x => (buildEntries env l).map fun xs => (k, x) :: xs
end

end Verif.IrText
