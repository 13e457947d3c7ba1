import Verif.Literals.Quote
/-!
# Properties of literals

Claims C37 (strings), C38 (numbers) and C48 (byte strings and runes).
-/
namespace Verif.Literals

/-! ## C38: numbers -/

/-- **C38.** A natural number literal in any base, with underscores anywhere, denotes its value if that is
below 2^64 and is rejected otherwise. -/
theorem C38_nat {text : List Char} {v : Nat} (h : NatLit text v) :
    parseNat text = if v < 2 ^ 64 then some v else none := parseNat_of h

/-- **C38.** Nothing else is accepted: a text with a value is a literal for that value, unless it has a
`+` somewhere. -/
theorem C38_nat_only {text : List Char} {v : Nat} (h : parseNat text = some v) (hp : '+' ∉ text) :
    NatLit text v ∧ v < 2 ^ 64 := parseNat_lit h hp

/-- **C38.** An integer literal denotes its value if that is in the signed 64-bit range and is rejected
otherwise. -/
theorem C38_int {text : List Char} {v : Int} (h : IntLit text v) :
    exprInt text = if -2 ^ 63 ≤ v ∧ v < 2 ^ 63 then some v else none := exprInt_of h

/-- **C38.** Expressions and patterns give every text the same integer. -/
theorem C38_agree (text : List Char) : patInt text = exprInt text := patInt_eq text

/-- **C38.** When a literal is compiled, it is the written number if that fits 31 bits and is diagnosed
otherwise. -/
theorem C38_compiled_nat {text : List Char} {v : Nat} (h : NatLit text v) :
    (parseNat text).bind validateNat = if v < 2 ^ 30 then some (v : Int) else none := by
  rw [parseNat_of h]
  by_cases h1 : v < 2 ^ 30
  · rw [if_pos (by omega), if_pos h1, Option.bind_some, validateNat, if_neg (by omega)]
  · rw [if_neg h1]
    by_cases h2 : v < 2 ^ 64
    · rw [if_pos h2, Option.bind_some, validateNat, if_pos (by omega)]
    · rw [if_neg h2]; rfl

/-- **C38.** The same of integers. -/
theorem C38_compiled_int {text : List Char} {v : Int} (h : IntLit text v) :
    (exprInt text).bind validateInt = if -2 ^ 30 ≤ v ∧ v < 2 ^ 30 then some v else none := by
  rw [exprInt_of h]
  by_cases h1 : -2 ^ 30 ≤ v ∧ v < 2 ^ 30
  · rw [if_pos (by omega), if_pos h1, Option.bind_some, validateInt, if_neg (by omega)]
  · rw [if_neg h1]
    by_cases h2 : -2 ^ 63 ≤ v ∧ v < 2 ^ 63
    · rw [if_pos h2, Option.bind_some, validateInt, if_pos (by omega)]
    · rw [if_neg h2]; rfl

theorem lit_dead_beef : NatLit "0xDEAD_beef".toList 0xdeadbeef :=
  .mk (pre := "0x".toList) (body := "DEAD_beef".toList) (base := 16) (by simp)
    (by simp only [IsDigit]; decide) ⟨'D', by decide, by decide⟩

example : parseNat "0xDEAD_beef".toList = some 3735928559 := C38_nat lit_dead_beef
example : parseNat "18446744073709551615".toList = some (2 ^ 64 - 1) ∧ parseNat "18446744073709551616".toList = none := by
  decide +kernel
example : exprInt "-0xDEAD_beef".toList = some (-3735928559) := C38_int (.minus lit_dead_beef)
example : exprInt "-9223372036854775808".toList = some (-2 ^ 63) ∧ patInt "-9223372036854775809".toList = none := by
  decide +kernel
example : (exprInt "-0xDEAD_beef".toList).bind validateInt = none := C38_compiled_int (.minus lit_dead_beef)
example : (parseNat "0b1_0".toList).bind validateNat = some 2 := by decide +kernel

/-! ## C37: strings -/

/-- **C37.** A quoted text made of characters, the six escapes, `\x` up to `7f` and `\u` with four digits
denotes the text it is written for, as an expression, also with the prefix `s`, and as a pattern.

Partial: `\x80` and above, braces after `\u` and the prefix `s` in patterns are not covered; see the three
theorems below. -/
theorem C37_strings_partial (ps : List Piece) (hok : ∀ p ∈ ps, p.Ok) (hascii : ∀ p ∈ ps, p.Ascii) :
    exprString ('"' :: written ps ++ ['"']) = some (ps.flatMap Piece.chars) ∧
    exprString ('s' :: '"' :: written ps ++ ['"']) = some (ps.flatMap Piece.chars) ∧
    patString ('"' :: written ps ++ ['"']) = ps.flatMap Piece.chars := by
  rw [exprString_quoted, exprString_s_quoted, patString_quoted, processEscapes_written ps hok, bytes_chars ps hascii,
    fromUtf8_utf8, unescape_written ps hok]
  exact ⟨rfl, rfl, rfl⟩

/-- **C37.** A raw text between any number of hashes denotes what is between the quotes, in expressions
with any of the raw prefixes and in patterns. -/
theorem C37_raw (pre : List Char) (hpre : pre ∈ ["r".toList, "rs".toList, "sr".toList]) (n : Nat) (content : List Char) :
    exprString (rawText pre n content) = some content ∧ patString (rawText ['r'] n content) = content :=
  ⟨exprString_raw hpre n content, patString_raw n content⟩

/-- **C37.** In a pattern every quoted text denotes its characters, also those above `\x7f`. -/
theorem C37_pattern (ps : List Piece) (hok : ∀ p ∈ ps, p.Ok) :
    patString ('"' :: written ps ++ ['"']) = ps.flatMap Piece.chars := by
  rw [patString_quoted, unescape_written ps hok]

/-- **C37 is false of the code.** The expression `"\xff"` crashes the compiler; the same text as a pattern
is the character U+00FF. -/
theorem C37_crash_violated : exprString ['"', '\\', 'x', 'f', 'f', '"'] = none ∧
    patString ['"', '\\', 'x', 'f', 'f', '"'] = [Char.ofNat 255] := by
  refine ⟨?_, by decide +kernel⟩
  rw [show ['"', '\\', 'x', 'f', 'f', '"'] = '"' :: ['\\', 'x', 'f', 'f'] ++ ['"'] from rfl, exprString_quoted]
  decide +kernel

/-- **C37 is false of the code.** `"\xc3\xa9"` is one character in an expression and two in a pattern. -/
theorem C37_hex_violated : exprString ("\"\\xc3\\xa9\"".toList) = some ['é'] ∧
    patString ("\"\\xc3\\xa9\"".toList) = ['Ã', '©'] := by decide +kernel

/-- **C37 is false of the code.** `"\u{1F600}"` is one character in a pattern and three others in an
expression. -/
theorem C37_braces_violated : exprString ("\"\\u{1F600}\"".toList) = some ['0', '0', '}'] ∧
    patString ("\"\\u{1F600}\"".toList) = [Char.ofNat 0x1F600] := by decide +kernel

/-- **C37 is false of the code.** The prefix `s` is dropped in expressions and part of the text in
patterns. -/
theorem C37_prefix_violated : exprString ("s\"a\"".toList) = some ['a'] ∧ patString ("s\"a\"".toList) = "s\"a\"".toList := by
  decide +kernel

/-- Pieces for `hé\n\u00e9\x41\"`. -/
def samplePieces : List Piece :=
  [.char 'h', .char 'é', .escape 'n', .unicode '0' '0' 'e' '9', .hex '4' '1', .escape '"']

theorem sample_ok : (∀ p ∈ samplePieces, p.Ok) ∧ ∀ p ∈ samplePieces, p.Ascii := by
  constructor <;> intro p hp <;> simp only [samplePieces, List.mem_cons, List.not_mem_nil, or_false] at hp <;>
    rcases hp with rfl | rfl | rfl | rfl | rfl | rfl <;> simp only [Piece.Ok, Piece.Ascii, HexDigit, IsDigit] <;> decide

example : exprString ("\"hé\\n\\u00e9\\x41\\\"\"".toList) = some ['h', 'é', '\n', 'é', 'A', '"'] :=
  (C37_strings_partial samplePieces sample_ok.1 sample_ok.2).1
example : patString ("\"hé\\n\\u00e9\\x41\\\"\"".toList) = ['h', 'é', '\n', 'é', 'A', '"'] :=
  C37_pattern samplePieces sample_ok.1
example : exprString "rs##\"a\\n\"##".toList = some "a\\n".toList := (C37_raw "rs".toList (by simp) 2 "a\\n".toList).1
example : patString "r##\"a\\n\"##".toList = "a\\n".toList := (C37_raw "r".toList (by simp) 2 "a\\n".toList).2

/-! ## C48: byte strings and runes -/

/-- **C48.** A byte-string literal denotes the bytes written: `\x` followed by two digits is that byte,
whatever its value, and characters and the other escapes are encoded in UTF-8. -/
theorem C48_bytes (ps : List Piece) (hok : ∀ p ∈ ps, p.Ok) :
    exprBytes ('b' :: '"' :: written ps ++ ['"']) = ps.flatMap Piece.bytes := by
  rw [exprBytes_quoted, processEscapes_written ps hok]

/-- **C48.** Every sequence of bytes can be written. -/
theorem C48_all_bytes (bs : List UInt8) : ∃ ps : List Piece, (∀ p ∈ ps, p.Ok) ∧
    exprBytes ('b' :: '"' :: written ps ++ ['"']) = bs := by
  have hd : ∀ n, n < 256 → ∃ h1 h2, HexDigit h1 ∧ HexDigit h2 ∧ number 16 [h1, h2] = n := by
    have hx : ∀ n, n < 16 → HexDigit (Nat.digitChar n) ∧ digitVal (Nat.digitChar n) = n := by
      simp only [HexDigit, IsDigit]; decide
    intro n hn
    refine ⟨Nat.digitChar (n / 16), Nat.digitChar (n % 16), (hx _ (by omega)).1, (hx _ (by omega)).1, ?_⟩
    simp only [number, List.foldl_cons, List.foldl_nil, (hx (n / 16) (by omega)).2, (hx (n % 16) (by omega)).2]
    omega
  have : ∃ ps : List Piece, (∀ p ∈ ps, p.Ok) ∧ ps.flatMap Piece.bytes = bs := by
    induction bs with
    | nil => exact ⟨[], by simp, rfl⟩
    | cons b bs ih =>
      obtain ⟨ps, h1, h2⟩ := ih
      obtain ⟨x, y, hx, hy, hn⟩ := hd b.toNat b.toNat_lt
      refine ⟨.hex x y :: ps, ?_, ?_⟩
      · intro p hp
        rcases List.mem_cons.mp hp with rfl | hp
        · exact ⟨hx, hy⟩
        · exact h1 p hp
      · rw [List.flatMap_cons, h2, Piece.bytes, hn, UInt8.ofNat_toNat]; rfl
  obtain ⟨ps, h1, h2⟩ := this
  exact ⟨ps, h1, by rw [C48_bytes ps h1, h2]⟩

/-- **C48.** A raw byte string denotes the encoding of what is between the quotes. -/
theorem C48_raw_bytes (pre : List Char) (hpre : pre ∈ ["br".toList, "rb".toList]) (n : Nat) (content : List Char) :
    exprBytes (rawText pre n content) = content.flatMap String.utf8EncodeChar := exprBytes_raw hpre n content

/-- **C48.** A rune literal `?c` denotes the character `c`. -/
theorem C48_rune_char (c : Char) (h : c ≠ '\\') : exprRune ['?', c] = some c := by
  unfold exprRune
  split
  · rename_i h'; simp at h'
  · rename_i h'; simp at h'; exact absurd h' h
  · rename_i h'; simp at h'; rw [h'.1]
  · rename_i h1 h2 h3; exact absurd rfl (h3 c [])

/-- **C48.** A rune literal with an escape denotes the character it denotes in a string. -/
theorem C48_rune_escape (p : Piece) (hok : p.Ok) (hq : p.text ≠ ['\\', '"']) (hc : ∀ c, p ≠ .char c) :
    exprRune ('?' :: p.text) = p.chars.head? := by
  cases p with
  | char c => exact absurd rfl (hc c)
  | escape c =>
    simp only [Piece.Ok, List.mem_cons, List.not_mem_nil, or_false] at hok
    rcases hok with rfl | rfl | rfl | rfl | rfl | rfl <;> first | rfl | exact absurd rfl hq
  | hex h1 h2 =>
    have e : exprRune ('?' :: (Piece.hex h1 h2).text) = (fromStrRadix 16 (2 ^ 32) [h1, h2]).bind charFromU32 := rfl
    have := number2_lt hok.1 hok.2
    rw [e, radix2 hok.1 hok.2 _ (by decide), Option.bind_some, charFromU32_eq _ (by omega), if_neg (by omega)]
    rfl
  | unicode h1 h2 h3 h4 =>
    obtain ⟨a, b, c, d⟩ := hok
    have e : exprRune ('?' :: (Piece.unicode h1 h2 h3 h4).text) =
      (fromStrRadix 16 (2 ^ 32) [h1, h2, h3, h4]).bind charFromU32 := rfl
    rw [e, radix4 a b c d, Option.bind_some, charFromU32_eq _ (number4_lt a b c d), Piece.chars]
    split <;> rfl

example : exprBytes ("b\"\\xff\\n\\x00a\"".toList) = [255, 10, 0, 97] := by decide +kernel
example : exprBytes ("b\"hé\\n\\u00e9\\x41\\\"\"".toList) = [104, 195, 169, 10, 195, 169, 65, 34] :=
  C48_bytes samplePieces sample_ok.1
example : exprBytes "br#\"\"#".toList = [] := C48_raw_bytes "br".toList (by simp) 1 []
example : exprRune ['?', '한'] = some '한' := C48_rune_char '한' (by decide)
example : exprRune "?\\xff".toList = some (Char.ofNat 255) :=
  C48_rune_escape (.hex 'f' 'f') (by simp only [Piece.Ok, HexDigit, IsDigit]; decide) (by decide) (by simp)
example : exprRune "?\\ud800".toList = none :=
  C48_rune_escape (.unicode 'd' '8' '0' '0') (by simp only [Piece.Ok, HexDigit, IsDigit]; decide) (by decide) (by simp)

end Verif.Literals
