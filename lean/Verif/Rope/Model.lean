import Verif.Bytes.Model
/-!
# Strings as ropes

Model of the `String` enum and module, `lib/std/prelude.trb` 338-516.

Simplifications: a `Bytes` value inside a rope is the list of its bytes; `Verif.Bytes` proves that
the runtime primitives compute list operations (`C05_values`, `C05_range_equal`).  `Nat` values are
32-bit unsigned with wrapping arithmetic, as in the compiled program.
-/
namespace Verif.Rope

open Verif.Bytes (Byte Fault)

/-- `enum String`, prelude.trb 338-341. -/
inductive Str where
  | leaf (bytes : List Byte)
  | branch (left right : Str) (cachedLen : UInt32)
deriving DecidableEq, Repr

/-- `Bytes::len` on a byte list: the 64-bit length cut to 32 bits (runtime lib.rs 505-508). -/
def bytesLen (b : List Byte) : UInt32 := UInt32.ofNat b.length

/-- `__tribute_bytes_range_equal` on byte lists (runtime lib.rs 521-550, proved to be this
function in `rangeEq_models`). -/
def rangeEq (l : List Byte) (ls : UInt32) (r : List Byte) (rs : UInt32) (len : UInt32) : Bool :=
  if ls.toNat + len.toNat > l.length ∨ rs.toNat + len.toNat > r.length then false
  else (l.drop ls.toNat).take len.toNat == (r.drop rs.toNat).take len.toNat

/-- `String::len`, prelude.trb 360-365. -/
def Str.len : Str → UInt32
  | .leaf b => bytesLen b
  | .branch _ _ n => n

/-- `String::empty`, prelude.trb 354. -/
def Str.empty : Str := .leaf []

/-- `String::from_bytes`, prelude.trb 357. -/
def Str.fromBytes (b : List Byte) : Str := .leaf b

/-- `String::concat` (and `<>`), prelude.trb 368-375. -/
def Str.concat (l r : Str) : Str := .branch l r (l.len + r.len)

/-- `__tribute_bytes_concat` on byte lists: aborts when the result cannot be allocated. -/
def bytesConcat (a b : List Byte) : Except Fault (List Byte) :=
  if a.length + b.length ≤ Verif.Bytes.maxAlloc then .ok (a ++ b) else .error .abort

/-- `String::to_bytes`, prelude.trb 378-383. -/
def Str.toBytes : Str → Except Fault (List Byte)
  | .leaf b => .ok b
  | .branch l r _ => do
    let x ← l.toBytes
    let y ← r.toBytes
    bytesConcat x y

/-- `enum Cursor`, prelude.trb 347-351. -/
inductive Cursor where
  | done
  | pending (s : Str) (rest : Cursor)
  | chunk (bytes : List Byte) (offset remaining : UInt32) (rest : Cursor)
deriving DecidableEq, Repr

/-- Number of nodes of a rope (termination measure, not part of the code). -/
def Str.nodes : Str → Nat
  | .leaf _ => 1
  | .branch l r _ => 1 + l.nodes + r.nodes

/-- Termination measure of cursors (not part of the code). -/
def Cursor.size : Cursor → Nat
  | .done => 0
  | .pending s rest => 2 * s.nodes + rest.size
  | .chunk _ _ _ rest => 1 + rest.size

/-- `String::next_cursor`, prelude.trb 385-405. -/
def nextCursor : Cursor → Cursor
  | .done => .done
  | .pending (.leaf bytes) rest =>
    if bytesLen bytes = 0 then nextCursor rest else .chunk bytes 0 (bytesLen bytes) rest
  | .pending (.branch l r _) rest => nextCursor (.pending l (.pending r rest))
  | .chunk b o n rest => .chunk b o n rest
termination_by c => c.size
decreasing_by all_goals simp [Cursor.size, Str.nodes]; try omega

theorem nextCursor_size_le (c : Cursor) : (nextCursor c).size ≤ c.size := by
  fun_induction nextCursor c with
  | case1 => simp
  | case2 b rest h ih => simp [Cursor.size, Str.nodes]; omega
  | case3 b rest h => simp [Cursor.size, Str.nodes]
  | case4 l r n rest ih => simp [Cursor.size, Str.nodes] at ih ⊢; omega
  | case5 b o n rest => simp

theorem nextCursor_size_pending (s : Str) (rest : Cursor) :
    (nextCursor (.pending s rest)).size < (Cursor.pending s rest).size := by
  induction s generalizing rest with
  | leaf b =>
    rw [nextCursor]
    split
    · have := nextCursor_size_le rest
      simp [Cursor.size, Str.nodes]; omega
    · simp [Cursor.size, Str.nodes]
  | branch l r n ihl ihr =>
    rw [nextCursor]
    have := ihl (.pending r rest)
    simp [Cursor.size, Str.nodes] at this ⊢; omega

theorem adv_size (b : List Byte) (o n span : UInt32) (rest : Cursor) :
    (if n = span then nextCursor rest else Cursor.chunk b (o + span) (n - span) rest).size
      ≤ 1 + rest.size ∧
    (n = span →
      (if n = span then nextCursor rest else Cursor.chunk b (o + span) (n - span) rest).size
        < 1 + rest.size) := by
  have := nextCursor_size_le rest
  constructor
  · split
    · omega
    · simp [Cursor.size]
  · intro h; rw [if_pos h]; omega

/-- `String::cursors_equal`, prelude.trb 407-473. -/
def cursorsEqual : Cursor → Cursor → Bool
  | .done, .done => true
  | .done, .pending s rest => cursorsEqual .done (nextCursor (.pending s rest))
  | .done, .chunk _ _ _ _ => false
  | .pending s rest, right => cursorsEqual (nextCursor (.pending s rest)) right
  | .chunk _ _ _ _, .done => false
  | .chunk b o n rest, .pending s r => cursorsEqual (.chunk b o n rest) (nextCursor (.pending s r))
  | .chunk lb lo ln lrest, .chunk rb ro rn rrest =>
    let span := if ln < rn then ln else rn
    if rangeEq lb lo rb ro span then
      let nextLeft :=
        if ln = span then nextCursor lrest else .chunk lb (lo + span) (ln - span) lrest
      let nextRight :=
        if rn = span then nextCursor rrest else .chunk rb (ro + span) (rn - span) rrest
      cursorsEqual nextLeft nextRight
    else false
termination_by l r => l.size + r.size
decreasing_by
  · exact Nat.add_lt_add_left (nextCursor_size_pending _ _) _
  · exact Nat.add_lt_add_right (nextCursor_size_pending _ _) _
  · exact Nat.add_lt_add_left (nextCursor_size_pending _ _) _
  · have h1 := adv_size lb lo ln (if ln < rn then ln else rn) lrest
    have h2 := adv_size rb ro rn (if ln < rn then ln else rn) rrest
    simp only [Cursor.size, dite_eq_ite]
    by_cases hlt : ln < rn
    · have := h1.2 (by rw [if_pos hlt])
      have := h2.1
      omega
    · have := h2.2 (by rw [if_neg hlt])
      have := h1.1
      omega

/-- `String::rope_equal`, prelude.trb 475-484. -/
def ropeEqual (l r : Str) : Bool :=
  cursorsEqual (nextCursor (.pending l .done)) (nextCursor (.pending r .done))

/-- `String::(==)`, prelude.trb 487-505. -/
def Str.eq (l r : Str) : Bool :=
  if l.len = r.len then
    match l, r with
    | .leaf lb, .leaf rb => rangeEq lb 0 rb 0 (bytesLen lb)
    | _, _ => ropeEqual l r
  else false

/-- `String::(!=)`, prelude.trb 508-513. -/
def Str.ne (l r : Str) : Bool := if l.eq r then false else true

end Verif.Rope
