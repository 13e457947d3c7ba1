/-!
# Positions and document changes in the language server

Model of `src/lsp/server.rs` 136-190 (`handle_notification`, `did_open`, `did_change`, `did_close`),
779-843 (`apply_change`), 926-938 (`point_after_text`), 955-985 (`extract_completion_prefix`), 987-1035
(`position_from_offset`, `offset_from_position`, `byte_line_col`) and `src/database.rs` 60-76.

Simplifications:
* a `ropey::Rope` is its text, a list of characters. The operations of `ropey` 1.6.1 used here (with its
  default feature `unicode_lines`) are modelled from their documentation: indices are counts of
  characters, bytes, UTF-16 code units or lines; an index inside a character stands for that character;
  lines end with LF, CR, CRLF, VT, FF, NEL, LS or PS and include their terminator; indices past the end
  panic;
* `none` is a panic, where a function can panic;
* parsing and diagnostics are left out: of a change, the new text and the points given to the
  incremental parser are kept.
-/
namespace Verif.LspPos

/-- A text. -/
abbrev Text := List Char

/-! ## `ropey` -/

/-- The characters at which `ropey` ends a line. -/
def isBreak (c : Char) : Bool :=
  c.toNat == 0x0A || c.toNat == 0x0B || c.toNat == 0x0C || c.toNat == 0x0D || c.toNat == 0x85 ||
  c.toNat == 0x2028 || c.toNat == 0x2029

/-- `Rope::lines`: the lines with their terminators; the last one has none and may be empty. -/
def splitLines : Text → List Text
  | [] => [[]]
  | c :: r =>
    if c = '\r' ∧ r.head? = some '\n' then
      match splitLines r with
      | [] => [[c]]
      | l :: ls => (c :: l) :: ls
    else if isBreak c then [c] :: splitLines r
    else
      match splitLines r with
      | [] => [[c]]
      | l :: ls => (c :: l) :: ls

/-- `Rope::len_bytes`. -/
def lenBytes (s : Text) : Nat := (s.map Char.utf8Size).sum

/-- `char::len_utf16`. -/
def utf16Size (c : Char) : Nat := if c.toNat < 0x10000 then 1 else 2

/-- `RopeSlice::len_utf16_cu`. -/
def lenUtf16 (s : Text) : Nat := (s.map utf16Size).sum

/-- `Rope::char_to_byte`. -/
def charToByte (s : Text) (i : Nat) : Nat := lenBytes (s.take i)

/-- `Rope::byte_to_char`. -/
def byteToChar : Text → Nat → Nat
  | [], _ => 0
  | c :: r, b => if b < c.utf8Size then 0 else byteToChar r (b - c.utf8Size) + 1

/-- `RopeSlice::char_to_utf16_cu`. -/
def charToUtf16 (s : Text) (i : Nat) : Option Nat :=
  if i ≤ s.length then some (lenUtf16 (s.take i)) else none

/-- The character a UTF-16 index stands for. -/
def utf16Index : Text → Nat → Nat
  | [], _ => 0
  | c :: r, u => if u < utf16Size c then 0 else utf16Index r (u - utf16Size c) + 1

/-- `RopeSlice::utf16_cu_to_char`. -/
def utf16ToChar (s : Text) (u : Nat) : Option Nat :=
  if u ≤ lenUtf16 s then some (utf16Index s u) else none

/-- The line a character index is in, given the lines. -/
def lineIndex : List Text → Nat → Nat
  | [], _ => 0
  | [_], _ => 0
  | l :: m :: ls, i => if i < l.length then 0 else lineIndex (m :: ls) (i - l.length) + 1

/-- `Rope::char_to_line`. -/
def charToLine (s : Text) (i : Nat) : Nat := lineIndex (splitLines s) i

/-- `Rope::len_lines`. -/
def lenLines (s : Text) : Nat := (splitLines s).length

/-- `Rope::line_to_char`. -/
def lineToChar (s : Text) (n : Nat) : Nat := (((splitLines s).take n).map List.length).sum

/-- `Rope::line`. -/
def line (s : Text) (n : Nat) : Text := ((splitLines s)[n]?).getD []

/-! ## The server -/

/-- The part of a line before a final `\n`, server.rs 992-1000 and 1013-1021. -/
def content (l : Text) : Text := if l.getLast? = some '\n' then l.take (l.length - 1) else l

/-- `as u32`. -/
def u32 (n : Nat) : Nat := n % 2 ^ 32

/-- `position_from_offset`, server.rs 987-1004. -/
def positionFromOffset (s : Text) (offset : Nat) : Option (Nat × Nat) :=
  let charIndex := byteToChar s (min offset (lenBytes s))
  let n := charToLine s charIndex
  (charToUtf16 (content (line s n)) (charIndex - lineToChar s n)).map fun u => (u32 n, u32 u)

/-- `offset_from_position`, server.rs 1006-1025. The inner `none` is its own `None`. -/
def offsetFromPosition (s : Text) (n character : Nat) : Option (Option Nat) :=
  if n ≥ lenLines s then some none
  else
    let slice := content (line s n)
    (utf16ToChar slice (min character (lenUtf16 slice))).map fun k =>
      some (charToByte s (lineToChar s n + k))

/-- `tree_sitter::Point`. -/
structure Point where
  row : Nat
  column : Nat
deriving DecidableEq, Repr

/-- `byte_line_col`, server.rs 1027-1035. -/
def byteLineCol (s : Text) (offset : Nat) : Point :=
  let offset := min offset (lenBytes s)
  let n := charToLine s (byteToChar s offset)
  ⟨u32 n, u32 (offset - charToByte s (lineToChar s n))⟩

/-- The loop of `point_after_text`, server.rs 929-936. -/
def pointAfterText : Point → Text → Point
  | p, [] => p
  | p, c :: r => if c = '\n' then pointAfterText ⟨p.row + 1, 0⟩ r else pointAfterText ⟨p.row, p.column + c.utf8Size⟩ r

/-- `lsp_types::Position`. -/
structure Position where
  line : Nat
  character : Nat
deriving DecidableEq, Repr

/-- `TextDocumentContentChangeEvent`. -/
structure Change where
  range : Option (Position × Position)
  text : Text

/-- `tree_sitter::InputEdit`. -/
structure InputEdit where
  startByte : Nat
  oldEndByte : Nat
  newEndByte : Nat
  startPoint : Point
  oldEndPoint : Point
  newEndPoint : Point
deriving DecidableEq, Repr

/-- What becomes of a change: a panic, an error, or a new text with the edit of the tree. -/
inductive Outcome where
  | panic
  | invalid
  | ok (text : Text) (edit : Option InputEdit)

/-- `Rope::remove` of a range and `Rope::insert` at its start, server.rs 818-819: panics if the range is
reversed. -/
def splice (s : Text) (i j : Nat) (t : Text) : Option Text :=
  if i ≤ j then some (s.take i ++ t ++ s.drop j) else none

/-- The edit handed to the incremental parser, server.rs 801-812 and 823-830. -/
def inputEdit (s : Text) (startByte oldEndByte : Nat) (t : Text) : InputEdit :=
  ⟨startByte, oldEndByte, startByte + lenBytes t, byteLineCol s startByte, byteLineCol s oldEndByte,
    pointAfterText (byteLineCol s startByte) t⟩

/-- `apply_change`, server.rs 779-843, for a document with text `s`. -/
def applyChange (s : Text) (ch : Change) : Outcome :=
  match ch.range with
  | none => .ok ch.text none
  | some (start, stop) =>
    match offsetFromPosition s start.line start.character with
    | none => .panic
    | some none => .invalid
    | some (some startByte) =>
      match offsetFromPosition s stop.line stop.character with
      | none => .panic
      | some none => .invalid
      | some (some oldEndByte) =>
        match splice s (byteToChar s startByte) (byteToChar s oldEndByte) ch.text with
        | none => .panic
        | some s' => .ok s' (some (inputEdit s startByte oldEndByte ch.text))

/-- The loop of `did_change`, server.rs 167-169: `none` if a change is invalid or panics. -/
def applyChanges : Text → List Change → Option Text
  | s, [] => some s
  | s, ch :: chs =>
    match applyChange s ch with
    | .ok s' _ => applyChanges s' chs
    | _ => none

/-- The three notifications about documents. -/
inductive Notif where
  | didOpen (uri : List Char) (text : Text)
  | didChange (uri : List Char) (changes : List Change)
  | didClose (uri : List Char)

/-- `documents`, database.rs: the text of each open document. -/
abbrev Docs := List Char → Option Text

/-- `handle_notification`, server.rs 132-144. -/
def notify (d : Docs) : Notif → Option Docs
  | .didOpen uri text => some fun u => if u = uri then some text else d u
  | .didClose uri => some fun u => if u = uri then none else d u
  | .didChange uri chs =>
    match d uri with
    | none => some d
    | some s => (applyChanges s chs).map fun s' => fun u => if u = uri then some s' else d u

/-- The notifications received so far, in order. -/
def notifyAll : Docs → List Notif → Option Docs
  | d, [] => some d
  | d, n :: ns => (notify d n).bind fun d' => notifyAll d' ns

/-- The loop of `extract_completion_prefix`, server.rs 964-976; `fuel` bounds the number of rounds. -/
def prefixStart (isWord : Char → Bool) (s : Text) : Nat → Nat → Nat
  | 0, start => start
  | fuel + 1, start =>
    if start = 0 then start
    else
      match s[byteToChar s (start - 1)]? with
      | none => start
      | some c => if isWord c then prefixStart isWord s fuel (start - c.utf8Size) else start

/-- `extract_completion_prefix`, server.rs 955-985; `isWord` is `is_alphanumeric() || == '_'`. -/
def completionPrefix (isWord : Char → Bool) (s : Text) (offset : Nat) : Text :=
  if offset = 0 then []
  else
    let start := prefixStart isWord s offset offset
    if start ≥ offset then []
    else (s.take (byteToChar s offset)).drop (byteToChar s start)

end Verif.LspPos
