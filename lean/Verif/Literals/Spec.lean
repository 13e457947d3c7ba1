import Verif.Literals.Model
/-!
# What literals mean
-/
namespace Verif.Literals

/-! ## Numbers -/

/-- The value of a digit. -/
def digitVal (c : Char) : Nat :=
  if c.isDigit then c.toNat - '0'.toNat
  else if c.isLower then c.toNat - 'a'.toNat + 10
  else c.toNat - 'A'.toNat + 10

/-- A digit of a number in the given base: a decimal digit or a letter, with a value below the base. -/
def IsDigit (base : Nat) (c : Char) : Prop := c.isAlphanum = true ∧ digitVal c < base

/-- The number written with these digits, most significant first. -/
def number (base : Nat) (ds : List Char) : Nat := ds.foldl (fun n c => n * base + digitVal c) 0

/-- A literal for the natural number `v`: a base prefix, then digits, with underscores anywhere. -/
inductive NatLit : List Char → Nat → Prop
  | mk {pre body : List Char} {base : Nat} :
      (pre, base) ∈ [("".toList, 10), ("0b".toList, 2), ("0B".toList, 2), ("0o".toList, 8), ("0O".toList, 8),
        ("0x".toList, 16), ("0X".toList, 16)] →
      (∀ c ∈ body, c = '_' ∨ IsDigit base c) → (∃ c ∈ body, c ≠ '_') →
      NatLit (pre ++ body) (number base (body.filter (· ≠ '_')))

/-- A literal for the integer `v`: an optional sign and a natural number. -/
inductive IntLit : List Char → Int → Prop
  | plain {t : List Char} {v : Nat} : NatLit t v → IntLit t v
  | plus {t : List Char} {v : Nat} : NatLit t v → IntLit ('+' :: t) v
  | minus {t : List Char} {v : Nat} : NatLit t v → IntLit ('-' :: t) (-v)

/-! ## Texts -/

/-- The pieces a quoted text is made of. -/
inductive Piece where
  | char (c : Char)
  | escape (c : Char)
  | hex (h1 h2 : Char)
  | unicode (h1 h2 h3 h4 : Char)

/-- A hexadecimal digit. -/
def HexDigit (c : Char) : Prop := IsDigit 16 c

/-- How a piece is written: a character other than the quote and the backslash, one of six escapes, `\x`
and two hexadecimal digits, or `\u` and four. -/
def Piece.Ok : Piece → Prop
  | .char c => c ≠ '"' ∧ c ≠ '\\'
  | .escape c => c ∈ ['n', 'r', 't', '0', '\\', '"']
  | .hex h1 h2 => HexDigit h1 ∧ HexDigit h2
  | .unicode h1 h2 h3 h4 => HexDigit h1 ∧ HexDigit h2 ∧ HexDigit h3 ∧ HexDigit h4

def Piece.text : Piece → List Char
  | .char c => [c]
  | .escape c => ['\\', c]
  | .hex h1 h2 => ['\\', 'x', h1, h2]
  | .unicode h1 h2 h3 h4 => ['\\', 'u', h1, h2, h3, h4]

/-- The character an escape stands for. -/
def escaped (c : Char) : Char :=
  if c = 'n' then '\n' else if c = 'r' then '\r' else if c = 't' then '\t' else if c = '0' then Char.ofNat 0 else c

/-- The characters a piece stands for. A surrogate stands for nothing. -/
def Piece.chars : Piece → List Char
  | .char c => [c]
  | .escape c => [escaped c]
  | .hex h1 h2 => [Char.ofNat (number 16 [h1, h2])]
  | .unicode h1 h2 h3 h4 =>
    if 0xD800 ≤ number 16 [h1, h2, h3, h4] ∧ number 16 [h1, h2, h3, h4] ≤ 0xDFFF then []
    else [Char.ofNat (number 16 [h1, h2, h3, h4])]

/-- The bytes a piece stands for in a byte string: `\x` is one byte, everything else is encoded. -/
def Piece.bytes : Piece → List UInt8
  | .hex h1 h2 => [UInt8.ofNat (number 16 [h1, h2])]
  | p => p.chars.flatMap String.utf8EncodeChar

/-- The pieces of a quoted text, written out. -/
def written (ps : List Piece) : List Char := ps.flatMap Piece.text

/-- No `\x` above 7f. -/
def Piece.Ascii : Piece → Prop
  | .hex h1 h2 => number 16 [h1, h2] < 128
  | _ => True

/-- A raw text between `n` hashes: it does not itself contain a quote followed by `n` hashes. (Only that
it is delimited matters here, so this is not required.) -/
def rawText (pre : List Char) (n : Nat) (content : List Char) : List Char :=
  pre ++ List.replicate n '#' ++ '"' :: content ++ '"' :: List.replicate n '#'

end Verif.Literals
