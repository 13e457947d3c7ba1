import Verif.Bytes.Proofs
/-!
# Properties C05 and C12: byte sequences
-/
namespace Verif.Bytes

/-! ## C05 -/

/-- C05.  Take any history of literals, lines read, concatenations and slices, where operands may be
slices sharing buffers.  If the list specification has values `vals` for it, the runtime completes
and every value ever created still holds exactly its list of bytes (so operands are unchanged and
concatenations and slices are right). -/
theorem C05_values (ops : List Op) (vals : List (List Byte)) (h : specRun ops = some vals) :
    ∃ st, run ops = .ok st ∧ st.objs.length = vals.length ∧
      ∀ (i : Nat) (x : TBytes) (v : List Byte), st.objs[i]? = some x → vals[i]? = some v →
        Holds st.mem x v := by
  have hm := run_matches ops
  rw [h] at hm
  match hr : run ops with
  | .ok st =>
    rw [hr] at hm
    exact ⟨st, rfl, hm.len, hm.holds⟩
  | .error f => rw [hr] at hm; cases f <;> exact hm.elim

/-- C05.  If the specification has no value for the history (a slice was out of range, or a
concatenation or line exceeds the largest possible allocation), the runtime stops the program; it
never reads memory it should not (`ub`). -/
theorem C05_aborts (ops : List Op) (h : specRun ops = none) :
    run ops = .error .abort ∨ run ops = .error .badHandle := by
  have hm := run_matches ops
  rw [h] at hm
  match hr : run ops with
  | .ok st => rw [hr] at hm; exact hm.elim
  | .error .abort => exact Or.inl rfl
  | .error .badHandle => exact Or.inr rfl
  | .error .ub => rw [hr] at hm; exact hm.elim

/-- "hello" and "lo"; concat, a slice of the concatenation, a slice of that slice, and a
concatenation of two overlapping slices. -/
def sampleOps : List Op :=
  [.literal [104, 101, 108, 108, 111], .lineRead [33, 63], .concat 0 1, .slice 2 1 6, .slice 3 2 5,
   .concat 3 4]

example : specRun sampleOps = some [[104, 101, 108, 108, 111], [33, 63],
    [104, 101, 108, 108, 111, 33, 63], [101, 108, 108, 111, 33], [108, 111, 33],
    [101, 108, 108, 111, 33, 108, 111, 33]] := by decide

example : specRun [.literal [1, 2, 3], .slice 0 2 4] = none ∧
    run [.literal [1, 2, 3], .slice 0 2 4] = .error .abort := by decide

/-- C05: comparing ranges of two values answers 1 exactly when both ranges lie inside the values
and contain the same bytes, for all 32-bit starts and lengths; it never faults. -/
theorem C05_range_equal {mem : List (List Cell)} {x y : TBytes} {v w : List Byte}
    (hx : Holds mem x v) (hy : Holds mem y w) (ls rs len : UInt32) :
    ∃ r, rangeEqual mem x ls y rs len = .ok r ∧ (r = 0 ∨ r = 1) ∧
      (r = 1 ↔ ls.toNat + len.toNat ≤ v.length ∧ rs.toNat + len.toNat ≤ w.length ∧
        range v ls.toNat (ls.toNat + len.toNat) = range w rs.toNat (rs.toNat + len.toNat)) := by
  obtain ⟨hxl, hxr⟩ := hx
  obtain ⟨hyl, hyr⟩ := hy
  unfold rangeEqual
  simp only
  rw [hxl] at hxr ⊢
  rw [hyl] at hyr ⊢
  by_cases hc : ls.toNat + len.toNat > v.length ∨ rs.toNat + len.toNat > w.length
  · rw [if_pos hc]
    refine ⟨0, rfl, Or.inl rfl, ?_⟩
    constructor
    · intro h; exact absurd h (by decide)
    · rintro ⟨h1, h2, _⟩; omega
  · rw [if_neg hc]
    by_cases hz : len = 0
    · subst hz
      refine ⟨1, by simp, Or.inr rfl, ?_⟩
      simp [range] at hc ⊢
      omega
    · rw [if_neg hz]
      have hpos : 0 < len.toNat := by
        rcases Nat.eq_zero_or_pos len.toNat with h | h
        · exact absurd (UInt32.toNat_inj.mp (by simpa using h)) hz
        · exact h
      rw [readCells_sub hxr _ _ (by omega) hpos, readCells_sub hyr _ _ (by omega) hpos]
      simp only [range, Nat.add_sub_cancel_left]
      refine ⟨if (v.drop ls.toNat).take len.toNat = (w.drop rs.toNat).take len.toNat then 1 else 0,
        rfl, ?_, ?_⟩
      · split <;> simp
      · split
        · rename_i h; simp [h]; omega
        · rename_i h; simp [h]

/-- In the sample history, bytes 1..4 of "hello!?" and 0..3 of "ello!" agree; 2..5 do not. -/
example : ∃ st, run sampleOps = .ok st ∧ ∃ x y, st.objs[2]? = some x ∧ st.objs[3]? = some y ∧
    rangeEqual st.mem x 1 y 0 3 = .ok 1 ∧ rangeEqual st.mem x 2 y 0 3 = .ok 0 ∧
    rangeEqual st.mem x 4294967295 y 0 3 = .ok 0 := by
  refine ⟨_, rfl, _, _, rfl, rfl, ?_⟩
  decide

/-- C05, length: right when the value has fewer than 2^32 bytes.  Missing: longer values, for which
the 64-bit length is cut to 32 bits (`C05_len_violated`). -/
theorem C05_len_partial {mem : List (List Cell)} {x : TBytes} {v : List Byte} (hx : Holds mem x v)
    (hl : v.length < 2 ^ 32) : (bytesLen x).toNat = v.length := by
  rw [← hx.1] at hl ⊢
  simp only [bytesLen, UInt32.toNat_ofNat']
  exact Nat.mod_eq_of_lt hl

/-- C05 is false for lengths of 2^32 bytes and more: a value can be built whose reported length is
0 although it holds 2^32 bytes. -/
theorem C05_len_violated :
    ∃ (ops : List Op) (st : St) (x : TBytes) (v : List Byte), run ops = .ok st ∧ x ∈ st.objs ∧
      Holds st.mem x v ∧ v.length = 2 ^ 32 ∧ bytesLen x = 0 := by
  obtain ⟨bs, hbs⟩ : ∃ bs : List Byte, bs.length = 2 ^ 32 := ⟨_, List.length_replicate (a := 0)⟩
  refine ⟨[.literal bs], ⟨[bs.map some], [⟨some (0, 0), bs.length⟩]⟩,
    ⟨some (0, 0), bs.length⟩, bs, rfl, List.mem_singleton.mpr rfl, holds_fresh [] _, hbs, ?_⟩
  rw [bytesLen, hbs]; rfl

/-! ## C12 -/

/-- C12: `Bytes.slice` never aborts, whatever the 32-bit arguments, and returns the bytes between
the two positions clamped to the value (for values shorter than 2^32 bytes). -/
theorem C12_slice {st : St} {x : TBytes} {v : List Byte} (hx : Holds st.mem x v)
    (hl : v.length < 2 ^ 32) (start stop : UInt32) :
    ∃ y, slice st x start stop = .ok (st.push y) ∧
      Holds st.mem y (range v (min start.toNat v.length) (min stop.toNat v.length)) := by
  have hlen := C05_len_partial hx hl
  unfold slice
  simp only [sliceOrPanic]
  have hs : (if start > bytesLen x then bytesLen x else start).toNat = min start.toNat v.length := by
    split
    · rename_i h; rw [gt_iff_lt, UInt32.lt_iff_toNat_lt] at h; omega
    · rename_i h; rw [gt_iff_lt, UInt32.lt_iff_toNat_lt] at h; omega
  generalize hsd : (if start > bytesLen x then bytesLen x else start) = s at hs
  have he : (if stop < s then s else if stop > bytesLen x then bytesLen x else stop).toNat
      = max s.toNat (min stop.toNat v.length) := by
    split
    · rename_i h; rw [UInt32.lt_iff_toNat_lt] at h; omega
    · rename_i h; rw [UInt32.lt_iff_toNat_lt] at h
      split
      · rename_i g; rw [gt_iff_lt, UInt32.lt_iff_toNat_lt] at g; omega
      · rename_i g; rw [gt_iff_lt, UInt32.lt_iff_toNat_lt] at g; omega
  generalize (if stop < s then s else if stop > bytesLen x then bytesLen x else stop) = e at he
  have h1 : s.toNat ≤ e.toNat := by omega
  have h2 : e.toNat ≤ v.length := by omega
  rw [hx.1, if_neg (by omega)]
  refine ⟨_, rfl, ?_⟩
  have := hx.slice s.toNat e.toNat h1 h2
  have hr : range v (min start.toNat v.length) (min stop.toNat v.length) =
      range v s.toNat e.toNat := by
    simp only [range, hs, he]
    congr 1
    omega
  rw [hr]
  exact this

/-- Clamped slices of "hello": (1, 99) and (4, 2). -/
example : ∃ st, run [.literal [104, 101, 108, 108, 111]] = .ok st ∧ ∃ x, st.objs[0]? = some x ∧
    slice st x 1 99 = .ok (st.push ⟨some (0, 1), 4⟩) ∧ slice st x 4 2 = .ok (st.push ⟨none, 0⟩) ∧
    range [104, 101, 108, 108, 111] 1 5 = [101, 108, 108, 111] := by
  refine ⟨_, rfl, _, rfl, ?_⟩
  decide

/-- C12: `Bytes.get` on any value shorter than 2^31 bytes and any 32-bit index does not fault,
gives nothing exactly when the index is out of range, and gives the byte itself when that byte is
below 128.  Missing: bytes 128-255, which come out wrong on the native target
(`C12_get_violated`), and values of 2^31 bytes or more. -/
theorem C12_get_partial {mem : List (List Cell)} {x : TBytes} {v : List Byte} (hx : Holds mem x v)
    (hl : v.length < 2 ^ 31) (index : UInt32) :
    (v.length ≤ index.toNat → get mem x index = .ok none) ∧
    (∀ b, v[index.toNat]? = some b → ∃ n, get mem x index = .ok (some n) ∧
      (b < 128 → n.toNat = b.toNat)) := by
  have hlen := C05_len_partial hx (by omega)
  constructor
  · intro h
    unfold get
    rw [if_neg]
    rw [UInt32.lt_iff_toNat_lt]; omega
  · intro b hb
    obtain ⟨hi, hb⟩ := List.getElem?_eq_some_iff.mp hb
    unfold get
    rw [if_pos (by rw [UInt32.lt_iff_toNat_lt]; omega)]
    obtain ⟨hxl, hxr⟩ := hx
    unfold getOrPanic
    match hp : x.ptr with
    | none =>
      rw [hp, hxl] at hxr
      simp only [readCells] at hxr
      split at hxr
      · omega
      · simp at hxr
    | some (bf, o) =>
      rw [hp, hxl] at hxr
      have hsx : sext32 index = index.toNat := by unfold sext32; rw [if_pos (by omega)]
      simp only [hsx]
      rw [if_neg (by omega)]
      have h1 := readCells_sub hxr index.toNat 1 (by omega) (by omega)
      simp only [Option.map_some] at h1
      have : ((o : Int) + (index.toNat : Int)).toNat = o + index.toNat := by omega
      rw [this, h1]
      have h2 : (v.drop index.toNat).take 1 = [b] := by
        rw [List.drop_eq_getElem_cons hi, hb]; simp
      rw [h2]
      refine ⟨sext8 b, rfl, ?_⟩
      intro hlt
      rw [UInt8.lt_iff_toNat_lt] at hlt
      have h128 : (128 : UInt8).toNat = 128 := rfl
      unfold sext8
      rw [if_pos (by omega)]
      simp

example : ∃ st, run [.literal [104, 101]] = .ok st ∧ ∃ x, st.objs[0]? = some x ∧
    get st.mem x 1 = .ok (some 101) ∧ get st.mem x 2 = .ok none := by
  refine ⟨_, rfl, _, rfl, ?_⟩
  decide

/-- C12 is false on the native target for bytes of 128 and more: `b"\xff".get(0)` is
`Some(4294967295)`, not `Some(255)`, because the byte is sign-extended; on the WebAssembly target
the same access gives 255. -/
theorem C12_get_violated :
    ∃ (ops : List Op) (st : St) (x : TBytes), run ops = .ok st ∧ x ∈ st.objs ∧
      Holds st.mem x [0xFF] ∧ get st.mem x 0 = .ok (some 4294967295) ∧
      wasmGetOrPanic [0xFF] 0 0 = .ok 255 := by
  refine ⟨[.literal [0xFF]], _, _, rfl, List.mem_singleton.mpr rfl, ?_, ?_, ?_⟩
  · exact holds_fresh [] [0xFF]
  · decide
  · decide

/-- C41 is false: `get_or_panic` is documented to panic out of bounds.  On the native target it
does not: indexing a slice one past its end returns the next byte of the buffer it was cut from,
and indexing past the buffer reads memory that does not belong to the value; on WebAssembly the
slice case also returns the neighbouring byte. -/
theorem C41_get_or_panic_violated :
    ∃ (ops : List Op) (st : St) (x y : TBytes), run ops = .ok st ∧ x ∈ st.objs ∧ y ∈ st.objs ∧
      Holds st.mem x [1, 2] ∧ getOrPanic st.mem x 2 = .ok 3 ∧
      Holds st.mem y [1, 2, 3] ∧ getOrPanic st.mem y 3 = .error .ub ∧
      wasmGetOrPanic [1, 2, 3] 0 2 = .ok 3 := by
  refine ⟨[.literal [1, 2, 3], .slice 0 0 2], _, ⟨some (0, 0), 2⟩, ⟨some (0, 0), 3⟩, rfl, ?_⟩
  refine ⟨by decide, by decide, ⟨rfl, rfl⟩, by decide, ⟨rfl, rfl⟩, by decide, by decide⟩

/-- C41, the part that holds: for an index inside the value, the native access reads exactly that
byte (sign-extended), and the WebAssembly access on a view `data[offset ..]` reads exactly that
byte (zero-extended).  Missing: the out-of-range case, which does not stop the program. -/
theorem C41_get_or_panic_partial {mem : List (List Cell)} {x : TBytes} {v : List Byte}
    (hx : Holds mem x v) (hl : v.length < 2 ^ 31) (index : UInt32) (h : index.toNat < v.length) :
    getOrPanic mem x index = .ok (sext8 v[index.toNat]) ∧
    ∀ (before after : List Byte) (offset : UInt32), offset.toNat = before.length →
      before.length + v.length < 2 ^ 32 →
      wasmGetOrPanic (before ++ v ++ after) offset index
        = .ok (UInt32.ofNat v[index.toNat].toNat) := by
  constructor
  · obtain ⟨hxl, hxr⟩ := hx
    unfold getOrPanic
    match hp : x.ptr with
    | none =>
      rw [hp, hxl] at hxr
      simp only [readCells] at hxr
      split at hxr
      · omega
      · simp at hxr
    | some (bf, o) =>
      rw [hp, hxl] at hxr
      have hsx : sext32 index = index.toNat := by unfold sext32; rw [if_pos (by omega)]
      simp only [hsx]
      rw [if_neg (by omega)]
      have h1 := readCells_sub hxr index.toNat 1 (by omega) (by omega)
      simp only [Option.map_some] at h1
      have : ((o : Int) + (index.toNat : Int)).toNat = o + index.toNat := by omega
      rw [this, h1]
      have h2 : (v.drop index.toNat).take 1 = [v[index.toNat]] := by
        rw [List.drop_eq_getElem_cons h, List.take_succ_cons, List.take_zero]
      rw [h2]
      rfl
  · intro before after offset ho hb
    have hs : (offset + index).toNat = before.length + index.toNat := by
      rw [UInt32.toNat_add]; omega
    unfold wasmGetOrPanic
    rw [hs, List.append_assoc, List.getElem?_append_right (by omega)]
    have e : before.length + index.toNat - before.length = index.toNat := by omega
    rw [e, List.getElem?_append_left h, List.getElem?_eq_getElem h]

example : ∃ st, run [.literal [104, 255]] = .ok st ∧ ∃ x, st.objs[0]? = some x ∧
    getOrPanic st.mem x 0 = .ok 104 ∧ wasmGetOrPanic [7, 104, 255, 9] 1 1 = .ok 255 := by
  refine ⟨_, rfl, _, rfl, ?_⟩
  decide

end Verif.Bytes
