import Verif.Rope.Model
import Verif.Bytes.Props
/-!
# Properties C10 and C11: strings are their bytes, whatever the rope shape
-/
namespace Verif.Rope

open Verif.Bytes (Byte Fault)

/-! ## Specification -/

/-- The text of a rope: its leaves from left to right. -/
def Str.text : Str → List Byte
  | .leaf b => b
  | .branch l r _ => l.text ++ r.text

/-- Ropes that programs can build: literals / `from_bytes`, and `concat`. -/
inductive Built : Str → Prop
  | leaf (b : List Byte) : Built (.leaf b)
  | concat {l r : Str} : Built l → Built r → Built (l.concat r)

/-! ## Link to the runtime primitive -/

/-- `rangeEq` is what the runtime computes on byte values in memory. -/
theorem rangeEq_models {mem : List (List Verif.Bytes.Cell)} {x y : Verif.Bytes.TBytes}
    {v w : List Byte} (hx : Verif.Bytes.Holds mem x v) (hy : Verif.Bytes.Holds mem y w)
    (ls rs len : UInt32) :
    Verif.Bytes.rangeEqual mem x ls y rs len = .ok (if rangeEq v ls w rs len then 1 else 0) := by
  obtain ⟨r, hr, h01, hiff⟩ := Verif.Bytes.C05_range_equal hx hy ls rs len
  rw [hr]
  simp only [Verif.Bytes.range, Nat.add_sub_cancel_left] at hiff
  congr 1
  by_cases h : rangeEq v ls w rs len = true
  · rw [if_pos h]
    apply hiff.mpr
    simp only [rangeEq] at h
    split at h
    · simp at h
    · simp at h; exact ⟨by omega, by omega, h⟩
  · rw [if_neg h]
    rcases h01 with rfl | rfl
    · rfl
    · exfalso
      apply h
      obtain ⟨h1, h2, h3⟩ := hiff.mp rfl
      simp only [rangeEq]
      rw [if_neg (by omega)]
      simp [h3]

/-! ## C11 -/

theorem bytesLen_toNat {b : List Byte} (h : b.length < 2 ^ 32) : (bytesLen b).toNat = b.length := by
  simp [bytesLen]; omega

theorem len_mod {s : Str} (h : Built s) : s.len = UInt32.ofNat s.text.length := by
  induction h with
  | leaf b => rfl
  | concat _ _ ihl ihr =>
    show Str.len _ + Str.len _ = _
    rw [ihl, ihr]
    simp only [Str.concat, Str.text, List.length_append]
    exact (UInt32.ofNat_add _ _).symm

/-- C11: the length of a string is the number of its bytes (below 2^32). -/
theorem C11_len {s : Str} (h : Built s) (hl : s.text.length < 2 ^ 32) :
    s.len.toNat = s.text.length := by
  rw [len_mod h]; simp; omega

/-- C11: flattening gives the text (below 2^32 bytes it never aborts). -/
theorem C11_to_bytes (s : Str) (hl : s.text.length < 2 ^ 32) : s.toBytes = .ok s.text := by
  induction s with
  | leaf b => rfl
  | branch l r n ihl ihr =>
    simp only [Str.text, List.length_append] at hl ⊢
    rw [Str.toBytes, ihl (by omega), ihr (by omega)]
    show bytesConcat l.text r.text = _
    rw [bytesConcat, if_pos (by unfold Verif.Bytes.maxAlloc; omega)]

/-- C11: concatenation flattens to the first string's bytes followed by the second's; the empty
string and `from_bytes` flatten to what they were given. -/
theorem C11_concat (l r : Str) (hl : l.text.length + r.text.length < 2 ^ 32) :
    ∃ x y, l.toBytes = .ok x ∧ r.toBytes = .ok y ∧ (l.concat r).toBytes = .ok (x ++ y) := by
  refine ⟨l.text, r.text, C11_to_bytes l (by omega), C11_to_bytes r (by omega), ?_⟩
  rw [C11_to_bytes (l.concat r) (by simpa [Str.concat, Str.text] using hl)]
  rfl

/-- C11: length as seen by the program equals the length of the flattened bytes. -/
theorem C11_len_to_bytes {s : Str} (h : Built s) (hl : s.text.length < 2 ^ 32) :
    ∃ x, s.toBytes = .ok x ∧ s.len = bytesLen x :=
  ⟨s.text, C11_to_bytes s hl, len_mod h⟩

/-- ("ab" <> "") <> ("c" <> "de") -/
def sampleL : Str :=
  ((Str.leaf [97, 98]).concat .empty).concat ((Str.leaf [99]).concat (.leaf [100, 101]))
/-- "a" <> ("bcd" <> ("" <> "e")) -/
def sampleR : Str :=
  (Str.leaf [97]).concat ((Str.leaf [98, 99, 100]).concat (Str.empty.concat (.leaf [101])))

theorem sampleL_built : Built sampleL := .concat (.concat (.leaf _) (.leaf _)) (.concat (.leaf _) (.leaf _))
theorem sampleR_built : Built sampleR := .concat (.leaf _) (.concat (.leaf _) (.concat (.leaf _) (.leaf _)))

example : Built sampleL ∧ sampleL.text.length < 2 ^ 32 ∧ sampleL.len = 5 ∧
    sampleL.toBytes = .ok [97, 98, 99, 100, 101] := ⟨sampleL_built, by decide, by decide, by decide⟩

/-! ## C10 -/

/-- Remaining text of a cursor. -/
def Cursor.text : Cursor → List Byte
  | .done => []
  | .pending s rest => s.text ++ rest.text
  | .chunk b o n rest => (b.drop o.toNat).take n.toNat ++ rest.text

/-- Chunks lie inside their leaf and are not empty; leaves are short. -/
def Str.Short : Str → Prop
  | .leaf b => b.length < 2 ^ 32
  | .branch l r _ => l.Short ∧ r.Short

def Cursor.Ok : Cursor → Prop
  | .done => True
  | .pending s rest => s.Short ∧ rest.Ok
  | .chunk b o n rest => 0 < n.toNat ∧ o.toNat + n.toNat ≤ b.length ∧ b.length < 2 ^ 32 ∧ rest.Ok

theorem short_of_text {s : Str} (h : s.text.length < 2 ^ 32) : s.Short := by
  induction s with
  | leaf b => exact h
  | branch l r n ihl ihr =>
    simp only [Str.text, List.length_append] at h
    exact ⟨ihl (by omega), ihr (by omega)⟩

/-- The result of `next_cursor` keeps the text and is a chunk or the end. -/
theorem nextCursor_spec (c : Cursor) (h : c.Ok) :
    (nextCursor c).Ok ∧ (nextCursor c).text = c.text := by
  fun_induction nextCursor c with
  | case1 => exact ⟨h, rfl⟩
  | case2 b rest hb ih =>
    obtain ⟨h1, h2⟩ := h
    have : b = [] := by
      have := bytesLen_toNat h1
      rw [hb] at this
      exact List.eq_nil_of_length_eq_zero (by simpa using this.symm)
    obtain ⟨i1, i2⟩ := ih h2
    exact ⟨i1, by simp [Cursor.text, Str.text, this, i2]⟩
  | case3 b rest hb =>
    obtain ⟨h1, h2⟩ := h
    have hl := bytesLen_toNat h1
    have hpos : 0 < (bytesLen b).toNat := by
      rcases Nat.eq_zero_or_pos (bytesLen b).toNat with h | h
      · exact absurd (UInt32.toNat_inj.mp (by simpa using h)) hb
      · exact h
    refine ⟨⟨hpos, by simp [hl], h1, h2⟩, ?_⟩
    simp [Cursor.text, Str.text, hl]
  | case4 l r n rest ih =>
    obtain ⟨⟨h1, h2⟩, h3⟩ := h
    obtain ⟨i1, i2⟩ := ih ⟨h1, h2, h3⟩
    exact ⟨i1, by rw [i2]; simp [Cursor.text, Str.text]⟩
  | case5 b o n rest => exact ⟨h, rfl⟩

theorem chunk_text_ne_nil {b : List Byte} {o n : UInt32} {rest : Cursor}
    (h : (Cursor.chunk b o n rest).Ok) : (Cursor.chunk b o n rest).text ≠ [] := by
  obtain ⟨h1, h2, _, _⟩ := h
  intro e
  have := congrArg List.length e
  simp [Cursor.text] at this
  omega

/-- Advance within a chunk. -/
theorem advance_spec {b : List Byte} {o n span : UInt32} {rest : Cursor}
    (h : (Cursor.chunk b o n rest).Ok) (hs : span.toNat ≤ n.toNat) (hp : 0 < span.toNat) :
    let c := if n = span then nextCursor rest else Cursor.chunk b (o + span) (n - span) rest
    c.Ok ∧ (Cursor.chunk b o n rest).text = (b.drop o.toNat).take span.toNat ++ c.text := by
  obtain ⟨h1, h2, h3, h4⟩ := h
  simp only
  split
  · rename_i he
    subst he
    obtain ⟨i1, i2⟩ := nextCursor_spec rest h4
    exact ⟨i1, by simp [Cursor.text, i2]⟩
  · rename_i he
    have hne : n.toNat ≠ span.toNat := fun e => he (UInt32.toNat_inj.mp e)
    have ho : (o + span).toNat = o.toNat + span.toNat := by
      rw [UInt32.toNat_add]; omega
    have hn : (n - span).toNat = n.toNat - span.toNat := by
      apply UInt32.toNat_sub_of_le; exact UInt32.le_iff_toNat_le.mpr hs
    refine ⟨⟨by omega, by omega, h3, h4⟩, ?_⟩
    simp only [Cursor.text, ho, hn]
    rw [← List.append_assoc]
    congr 1
    rw [← List.drop_drop, ← List.drop_take]
    have : (b.drop o.toNat).take span.toNat = ((b.drop o.toNat).take n.toNat).take span.toNat := by
      rw [List.take_take]; congr 1; omega
    rw [this, List.take_append_drop]

theorem cursorsEqual_spec (l r : Cursor) (hl : l.Ok) (hr : r.Ok) :
    cursorsEqual l r = true ↔ l.text = r.text := by
  fun_induction cursorsEqual l r with
  | case1 => simp
  | case2 s rest ih =>
    obtain ⟨h1, h2⟩ := nextCursor_spec _ hr
    rw [ih hl h1, h2]
  | case3 b o n rest =>
    simp only [Bool.false_eq_true, false_iff]
    exact fun e => chunk_text_ne_nil hr e.symm
  | case4 right s rest ih =>
    obtain ⟨h1, h2⟩ := nextCursor_spec _ hl
    rw [ih h1 hr, h2]
  | case5 b o n rest =>
    simp only [Bool.false_eq_true, false_iff]
    exact chunk_text_ne_nil hl
  | case6 b o n rest s r ih =>
    obtain ⟨h1, h2⟩ := nextCursor_spec _ hr
    rw [ih hl h1, h2]
  | case7 lb lo ln lrest rb ro rn rrest span hrange nextLeft nextRight ih =>
    have hsl : span.toNat ≤ ln.toNat := by
      simp only [span]; split
      · exact Nat.le_refl _
      · rename_i h; rw [UInt32.lt_iff_toNat_lt] at h; omega
    have hsr : span.toNat ≤ rn.toNat := by
      simp only [span]; split
      · rename_i h; rw [UInt32.lt_iff_toNat_lt] at h; omega
      · exact Nat.le_refl _
    have hpos : 0 < span.toNat := by
      have := hl.1; have := hr.1
      simp only [span]; split <;> omega
    obtain ⟨a1, a2⟩ := advance_spec hl hsl hpos
    obtain ⟨b1, b2⟩ := advance_spec hr hsr hpos
    rw [ih a1 b1, a2, b2]
    have heq : (lb.drop lo.toNat).take span.toNat = (rb.drop ro.toNat).take span.toNat := by
      simp only [rangeEq] at hrange
      split at hrange
      · simp at hrange
      · simpa using hrange
    rw [heq]
    simp only [List.append_cancel_left_eq]
    rfl
  | case8 lb lo ln lrest rb ro rn rrest span hrange =>
    have hsl : span.toNat ≤ ln.toNat := by
      simp only [span]; split
      · exact Nat.le_refl _
      · rename_i h; rw [UInt32.lt_iff_toNat_lt] at h; omega
    have hsr : span.toNat ≤ rn.toNat := by
      simp only [span]; split
      · rename_i h; rw [UInt32.lt_iff_toNat_lt] at h; omega
      · exact Nat.le_refl _
    have hpos : 0 < span.toNat := by
      have := hl.1; have := hr.1
      simp only [span]; split <;> omega
    obtain ⟨_, a2⟩ := advance_spec hl hsl hpos
    obtain ⟨_, b2⟩ := advance_spec hr hsr hpos
    have hl2 := hl.2.1
    have hr2 := hr.2.1
    simp only [Bool.false_eq_true, false_iff]
    intro e
    rw [a2, b2] at e
    have hlen : ((lb.drop lo.toNat).take span.toNat).length =
        ((rb.drop ro.toNat).take span.toNat).length := by simp; omega
    have := (List.append_inj e hlen).1
    apply hrange
    simp only [rangeEq]
    rw [if_neg (by omega)]
    simp [this]

theorem ropeEqual_spec (l r : Str) (hl : l.text.length < 2 ^ 32) (hr : r.text.length < 2 ^ 32) :
    ropeEqual l r = true ↔ l.text = r.text := by
  obtain ⟨l1, l2⟩ := nextCursor_spec (.pending l .done) ⟨short_of_text hl, trivial⟩
  obtain ⟨r1, r2⟩ := nextCursor_spec (.pending r .done) ⟨short_of_text hr, trivial⟩
  rw [ropeEqual, cursorsEqual_spec _ _ l1 r1, l2, r2]
  simp [Cursor.text]

/-- C10: two strings (of fewer than 2^32 bytes, built in any way) compare equal exactly when their
bytes are the same, whatever their rope shapes. -/
theorem C10_equality {l r : Str} (hl : Built l) (hr : Built r) (ll : l.text.length < 2 ^ 32)
    (lr : r.text.length < 2 ^ 32) : l.eq r = true ↔ l.text = r.text := by
  have hlen : l.len = r.len ↔ l.text.length = r.text.length := by
    rw [← UInt32.toNat_inj, C11_len hl ll, C11_len hr lr]
  unfold Str.eq
  split
  · rename_i he
    split
    · rename_i lb rb
      have h1 := bytesLen_toNat (b := lb) ll
      have h2 : lb.length = rb.length := hlen.mp he
      simp only [rangeEq, Str.text]
      rw [if_neg (by simp [h1, h2])]
      simp [h1, List.take_of_length_le, h2]
    · exact ropeEqual_spec l r ll lr
  · rename_i he
    simp only [Bool.false_eq_true, false_iff]
    intro e
    exact he (hlen.mpr (by rw [e]))

/-- C10: `!=` is the negation of `==`. -/
theorem C10_not_equal {l r : Str} (hl : Built l) (hr : Built r) (ll : l.text.length < 2 ^ 32)
    (lr : r.text.length < 2 ^ 32) : l.ne r = true ↔ l.text ≠ r.text := by
  rw [Ne, ← C10_equality hl hr ll lr, Str.ne]
  split <;> simp_all

/-- Different shapes, same text; and a different text of the same length. -/
example : Built sampleL ∧ Built sampleR ∧ sampleL ≠ sampleR ∧ sampleL.text = sampleR.text ∧
    sampleL.text.length < 2 ^ 32 :=
  ⟨sampleL_built, sampleR_built, by decide, by decide, by decide⟩

example : sampleL.eq sampleR = true ∧ sampleL.eq (.leaf [97, 98, 99, 100, 102]) = false := by
  constructor
  · exact (C10_equality sampleL_built sampleR_built (by decide) (by decide)).mpr (by decide)
  · rw [← Bool.not_eq_true, C10_equality sampleL_built (.leaf _) (by decide) (by decide)]
    decide

end Verif.Rope
