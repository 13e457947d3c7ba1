import Verif.Io.Model
/-! Specifications for C02-C04, independent of the buffering code. -/
namespace Verif.Io

/-! ## Output -/

/-- What the operating system did with one call: it took the first `n` bytes offered. -/
def Call.accepted (c : Call) : List Byte :=
  match c.result with
  | .ok n => c.offered.take n
  | .err _ => []

/-- All bytes the operating system took, in order. -/
def accepted (cs : List Call) : List Byte := cs.flatMap Call.accepted

/-- A result after which the writer must keep going: an interruption, or between 1 and all bytes. -/
def Call.progress (c : Call) : Prop :=
  c.result = .err EINTR ∨ ∃ n, c.result = .ok n ∧ 0 < n ∧ n ≤ c.offered.length

/-! ## Text encoding -/

/-- Well-formed UTF-8: the concatenated encodings of a sequence of Unicode scalar values
(`Char`), using Lean's own `String.utf8EncodeChar`. -/
def IsUtf8 (bytes : List Byte) : Prop := ∃ cs : List Char, bytes = cs.flatMap String.utf8EncodeChar

open Classical in
/-- What `read_line` should return for the bytes of a line: the bytes if they are valid UTF-8,
the encoding error otherwise. -/
noncomputable def classify (bytes : List Byte) : LineResult :=
  if IsUtf8 bytes then .line bytes else .invalidEncoding

/-! ## Input -/

/-- The input as the program should see it: bytes, end-of-file conditions and errors; neither
chunk boundaries nor interruptions. -/
inductive Item where
  | byte (b : Byte)
  | eof
  | error (code : Int)
deriving DecidableEq, Repr

/-- The observable content of a sequence of `read(2)` results. -/
def items : List Event → List Item
  | [] => []
  | .chunk c :: rest => c.map .byte ++ items rest
  | .endOfFile :: rest => .eof :: items rest
  | .interrupted :: rest => items rest
  | .error code :: rest => .error code :: items rest

/-- Remove one carriage return at the end. -/
def stripCr (l : List Byte) : List Byte := if l.getLast? = some 13 then l.dropLast else l

/-- What one `read_line` should return on an input: the text up to the first newline, end-of-file
or error, and the input after it. -/
inductive SpecLine : List Item → LineResult → List Item → Prop
  | newline (text : List Byte) (rest) : 10 ∉ text →
      SpecLine (text.map .byte ++ .byte 10 :: rest) (classify (stripCr text)) rest
  | eof (rest) : SpecLine (.eof :: rest) .endOfFile rest
  | lastLine (text : List Byte) (rest) : 10 ∉ text → text ≠ [] →
      SpecLine (text.map .byte ++ .eof :: rest) (classify text) rest
  | error (text : List Byte) (code : Int) (rest) : 10 ∉ text →
      SpecLine (text.map .byte ++ .error code :: rest) (.system code) rest

/-- Chunks returned by the kernel are non-empty and fit the buffer. -/
def KernelOk (evs : List Event) : Prop :=
  ∀ c, Event.chunk c ∈ evs → 0 < c.length ∧ c.length ≤ stdinBufferSize

/-- The lines of a text file: `(text, terminated)`; the last one may be unterminated, and there
is no empty unterminated line. -/
def linesOf : List Byte → List (List Byte × Bool)
  | [] => []
  | b :: rest =>
    if b = 10 then ([], true) :: linesOf rest
    else
      match linesOf rest with
      | [] => [([b], false)]
      | (l, t) :: ls => (b :: l, t) :: ls

/-- The result for one line of a file. -/
noncomputable def lineOf (l : List Byte × Bool) : LineResult :=
  classify (if l.2 then stripCr l.1 else l.1)

/-- `evs` is some way for the kernel to deliver the file contents `input`: arbitrary chunks and
interruptions. -/
def Delivers (evs : List Event) (input : List Byte) : Prop :=
  KernelOk evs ∧ items evs = input.map .byte

end Verif.Io
