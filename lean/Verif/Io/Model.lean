/-!
# Standard input and output of the native runtime

Model of `crates/tribute-runtime/src/lib.rs` lines 205-451.

Simplifications:
* a `Bytes` value is the list of its bytes (the pointer/length representation is modelled in
  `Verif.Bytes`); allocation of result descriptors is not modelled;
* the operating system is an arbitrary list of results, consumed one per system call; when the
  list is exhausted the call blocks;
* `errno` codes are `Int`; `EINTR` is 4.
-/
namespace Verif.Io

abbrev Byte := UInt8

/-! ## Output -/

/-- Result of one `write(2)` call as seen by `write_once`, lib.rs 245-254. -/
inductive WriteRes where
  | ok (written : Nat)
  | err (code : Int)
deriving DecidableEq, Repr

/-- `libc::EINTR`. -/
def EINTR : Int := 4

/-- How `write_all_with` ended, or what it still has to write when the schedule ran out. -/
inductive WriteOutcome where
  | returned (success : Bool)
  | blocked (remaining : List Byte)
deriving DecidableEq, Repr

/-- One system call: the buffer offered and the result. -/
structure Call where
  offered : List Byte
  result : WriteRes
deriving DecidableEq, Repr

/-- `write_all_with`, lib.rs 256-270.  Returns the system calls made, the outcome, and the
unused part of the schedule. -/
def writeAllWith (remaining : List Byte) (sched : List WriteRes) :
    List Call × WriteOutcome × List WriteRes :=
  if remaining.isEmpty then ([], .returned true, sched)
  else
    match sched with
    | [] => ([], .blocked remaining, [])
    | r :: rest =>
      match r with
      | .ok 0 => ([⟨remaining, r⟩], .returned false, rest)
      | .ok written =>
        if written ≤ remaining.length then
          let (cs, o, s) := writeAllWith (remaining.drop written) rest
          (⟨remaining, r⟩ :: cs, o, s)
        else ([⟨remaining, r⟩], .returned false, rest)
      | .err code =>
        if code = EINTR then
          let (cs, o, s) := writeAllWith remaining rest
          (⟨remaining, r⟩ :: cs, o, s)
        else ([⟨remaining, r⟩], .returned false, rest)

/-- `__tribute_bytes_print` (lib.rs 236-243) through `write_stdout_all` (245-254): writes unless
empty, and ignores whether writing succeeded. -/
def bytesPrint (bytes : List Byte) (sched : List WriteRes) :
    List Call × WriteOutcome × List WriteRes :=
  if bytes.length > 0 then writeAllWith bytes sched else ([], .returned true, sched)

/-- `__tribute_io_write`, lib.rs 350-356: print the bytes, then `__tribute_print_newline`
(211-213) if `newline == 1`. -/
def ioWrite (bytes : List Byte) (newline : Nat) (sched : List WriteRes) :
    List Call × WriteOutcome × List WriteRes :=
  match bytesPrint bytes sched with
  | (cs, .blocked r, s) => (cs, .blocked r, s)
  | (cs, .returned b, s) =>
    if newline = 1 then
      let (cs', o, s') := writeAllWith [10] s
      (cs ++ cs', o, s')
    else (cs, .returned b, s)

/-! ## Input -/

/-- Result of one `read(2)` call, lib.rs 363-384 (`enum ReadChunk`, 300-305, with the bytes the
kernel copied into the buffer). -/
inductive Event where
  | chunk (bytes : List Byte)
  | endOfFile
  | interrupted
  | error (code : Int)
deriving DecidableEq, Repr

/-- `enum ReadByte`, lib.rs 293-298. -/
inductive ReadByte where
  | byte (b : Byte)
  | endOfFile
  | interrupted
  | error (code : Int)
deriving DecidableEq, Repr

/-- `STDIN_BUFFER_SIZE`, lib.rs 307. -/
def stdinBufferSize : Nat := 8 * 1024

/-- `struct StdinBuffer`, lib.rs 309-313. -/
structure StdinBuffer where
  bytes : List Byte
  position : Nat
  length : Nat
deriving DecidableEq, Repr

/-- `StdinBuffer::new`, lib.rs 316-322. -/
def StdinBuffer.new : StdinBuffer := ⟨List.replicate stdinBufferSize 0, 0, 0⟩

/-- Effect of the kernel copying `c` to the front of the buffer. -/
def fill (old c : List Byte) : List Byte := c ++ old.drop c.length

/-- `StdinBuffer::read_byte`, lib.rs 324-342.  `none`: the read blocks (no event left), or the
index would be out of bounds (a panic); `Props` shows the latter cannot happen. -/
def readByte (b : StdinBuffer) (evs : List Event) : Option (ReadByte × StdinBuffer × List Event) :=
  if b.position < b.length then do
    let byte ← b.bytes[b.position]?
    some (.byte byte, { b with position := b.position + 1 }, evs)
  else
    match evs with
    | [] => none
    | .chunk c :: rest => do
      let bytes := fill b.bytes c
      let byte ← bytes[0]?
      some (.byte byte, { bytes := bytes, position := 1, length := c.length }, rest)
    | .endOfFile :: rest => some (.endOfFile, b, rest)
    | .interrupted :: rest => some (.interrupted, b, rest)
    | .error code :: rest => some (.error code, b, rest)

/-- `NativeReadLineResult` (lib.rs 276-291) with its tag made explicit. -/
inductive LineResult where
  | line (bytes : List Byte)
  | endOfFile
  | invalidEncoding
  | system (code : Int)
deriving DecidableEq, Repr

/-- `b` is a UTF-8 continuation byte. -/
def isCont (b : Byte) : Bool := 0x80 ≤ b && b ≤ 0xBF

/-- `core::str::from_utf8(..).is_ok()` (called at lib.rs 436): the validation automaton of the
Rust standard library, byte by byte. -/
def fromUtf8Ok : List Byte → Bool
  | [] => true
  | b0 :: rest =>
    if b0 < 0x80 then fromUtf8Ok rest
    else if 0xC2 ≤ b0 && b0 ≤ 0xDF then
      match rest with
      | b1 :: rest => isCont b1 && fromUtf8Ok rest
      | _ => false
    else if 0xE0 ≤ b0 && b0 ≤ 0xEF then
      match rest with
      | b1 :: b2 :: rest =>
        (if b0 = 0xE0 then 0xA0 ≤ b1 && b1 ≤ 0xBF
         else if b0 = 0xED then 0x80 ≤ b1 && b1 ≤ 0x9F
         else isCont b1) && isCont b2 && fromUtf8Ok rest
      | _ => false
    else if 0xF0 ≤ b0 && b0 ≤ 0xF4 then
      match rest with
      | b1 :: b2 :: b3 :: rest =>
        (if b0 = 0xF0 then 0x90 ≤ b1 && b1 ≤ 0xBF
         else if b0 = 0xF4 then 0x80 ≤ b1 && b1 ≤ 0x8F
         else isCont b1) && isCont b2 && isCont b3 && fromUtf8Ok rest
      | _ => false
    else false

/-- `line_result`, lib.rs 435-451. -/
def lineResult (bytes : List Byte) : LineResult :=
  if fromUtf8Ok bytes then .line bytes else .invalidEncoding

/-- Upper bound on the number of `read_byte` calls that can still return. -/
def evWork : List Event → Nat
  | [] => 0
  | .chunk c :: rest => c.length + 1 + evWork rest
  | _ :: rest => 1 + evWork rest

def work (b : StdinBuffer) (evs : List Event) : Nat := (b.length - b.position) + evWork evs

theorem readByte_work {b : StdinBuffer} {evs : List Event} {r b' evs'}
    (h : readByte b evs = some (r, b', evs')) : work b' evs' < work b evs := by
  unfold readByte at h
  split at h
  · cases hb : b.bytes[b.position]? with
    | none => simp [hb] at h
    | some x => simp [hb] at h; obtain ⟨_, rfl, rfl⟩ := h; simp [work]; omega
  · match evs with
    | [] => simp at h
    | .chunk c :: rest =>
      cases hb : (fill b.bytes c)[0]? with
      | none => simp [hb] at h
      | some x => simp [hb] at h; obtain ⟨_, rfl, rfl⟩ := h; simp [work, evWork]; omega
    | .endOfFile :: rest => simp at h; obtain ⟨_, rfl, rfl⟩ := h; simp [work, evWork]
    | .interrupted :: rest => simp at h; obtain ⟨_, rfl, rfl⟩ := h; simp [work, evWork]
    | .error _ :: rest => simp at h; obtain ⟨_, rfl, rfl⟩ := h; simp [work, evWork]

/-- The loop of `read_line_with`, lib.rs 402-433; `acc` is the `bytes` vector.
`none`: the call blocks. -/
def readLineLoop (acc : List Byte) (b : StdinBuffer) (evs : List Event) :
    Option (LineResult × StdinBuffer × List Event) :=
  match h : readByte b evs with
  | none => none
  | some (.byte x, b', evs') =>
    if x = 10 then
      let acc := if acc.getLast? = some 13 then acc.dropLast else acc
      some (lineResult acc, b', evs')
    else readLineLoop (acc ++ [x]) b' evs'
  | some (.endOfFile, b', evs') =>
    if acc.isEmpty then some (.endOfFile, b', evs') else some (lineResult acc, b', evs')
  | some (.interrupted, b', evs') => readLineLoop acc b' evs'
  | some (.error code, b', evs') => some (.system code, b', evs')
termination_by work b evs
decreasing_by all_goals exact readByte_work h

/-- `__tribute_io_read_line`, lib.rs 360-386. -/
def readLine (b : StdinBuffer) (evs : List Event) : Option (LineResult × StdinBuffer × List Event) :=
  readLineLoop [] b evs

/-- `n` successive `read_line` calls on one thread; `none` if one of them blocks. -/
def readLines (b : StdinBuffer) (evs : List Event) : Nat → Option (List LineResult)
  | 0 => some []
  | n + 1 => do
    let (r, b', evs') ← readLine b evs
    let rs ← readLines b' evs' n
    some (r :: rs)

end Verif.Io
