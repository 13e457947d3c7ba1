import Verif.LspPos.Spec
/-!
# Lemmas about positions
-/
namespace Verif.LspPos

theorem bytes_eq (s : Text) : bytes s = lenBytes s := by
  induction s with
  | nil => rfl
  | cons c r ih => simp only [bytes, lenBytes, List.flatMap_cons, List.length_append, List.map_cons, List.sum_cons,
      String.length_utf8EncodeChar] at *; omega

theorem units_eq (s : Text) : units s = lenUtf16 s := rfl

theorem lenBytes_cons (c : Char) (s : Text) : lenBytes (c :: s) = c.utf8Size + lenBytes s := by simp [lenBytes]
theorem lenUtf16_cons (c : Char) (s : Text) : lenUtf16 (c :: s) = utf16Size c + lenUtf16 s := by simp [lenUtf16]
theorem lenBytes_append (a b : Text) : lenBytes (a ++ b) = lenBytes a + lenBytes b := by simp [lenBytes]
theorem lenUtf16_append (a b : Text) : lenUtf16 (a ++ b) = lenUtf16 a + lenUtf16 b := by simp [lenUtf16]

theorem utf16Size_pos (c : Char) : 0 < utf16Size c := by unfold utf16Size; split <;> omega

theorem utf16_le_utf8 (c : Char) : utf16Size c ≤ c.utf8Size := by
  unfold utf16Size
  split
  · exact c.utf8Size_pos
  · rename_i h
    have : c.utf8Size = 4 := Char.utf8Size_eq_four_iff.mpr (by
      simp only [Char.toNat] at h
      rw [UInt32.lt_iff_toNat_lt]
      have : (65535 : UInt32).toNat = 65535 := rfl
      omega)
    omega

theorem lenUtf16_le (s : Text) : lenUtf16 s ≤ lenBytes s := by
  induction s with
  | nil => exact Nat.le_refl _
  | cons c r ih => rw [lenBytes_cons, lenUtf16_cons]; have := utf16_le_utf8 c; omega

theorem length_le (s : Text) : s.length ≤ lenBytes s := by
  induction s with
  | nil => exact Nat.le_refl _
  | cons c r ih => rw [lenBytes_cons, List.length_cons]; have := c.utf8Size_pos; omega

theorem lenBytes_take_le (s : Text) (k : Nat) : lenBytes (s.take k) ≤ lenBytes s := by
  conv => rhs; rw [← List.take_append_drop k s, lenBytes_append]
  omega

theorem lenUtf16_take_le (s : Text) (k : Nat) : lenUtf16 (s.take k) ≤ lenUtf16 s := by
  conv => rhs; rw [← List.take_append_drop k s, lenUtf16_append]
  omega

theorem byteToChar_take (s : Text) (k : Nat) (h : k ≤ s.length) : byteToChar s (lenBytes (s.take k)) = k := by
  induction s generalizing k with
  | nil => simp at h; subst h; rfl
  | cons c r ih =>
    cases k with
    | zero => simp [byteToChar, lenBytes, c.utf8Size_pos]
    | succ k =>
      rw [List.take_succ_cons, lenBytes_cons, byteToChar, if_neg (by omega), Nat.add_sub_cancel_left,
        ih k (by simpa using h)]

theorem utf16Index_take (s : Text) (k : Nat) (h : k ≤ s.length) : utf16Index s (lenUtf16 (s.take k)) = k := by
  induction s generalizing k with
  | nil => simp at h; subst h; rfl
  | cons c r ih =>
    cases k with
    | zero => simp [utf16Index, lenUtf16, utf16Size_pos]
    | succ k =>
      rw [List.take_succ_cons, lenUtf16_cons, utf16Index, if_neg (by omega), Nat.add_sub_cancel_left,
        ih k (by simpa using h)]

/-- Between a character's first unit and its last, the index is the character's. -/
theorem utf16Index_inside (s : Text) (k : Nat) (c : Char) (h : s[k]? = some c) (d : Nat) (hd : d < utf16Size c) :
    utf16Index s (lenUtf16 (s.take k) + d) = k := by
  induction s generalizing k with
  | nil => simp at h
  | cons x r ih =>
    cases k with
    | zero => simp at h; subst h; simp [utf16Index, lenUtf16, hd]
    | succ k =>
      rw [List.take_succ_cons, lenUtf16_cons, utf16Index, if_neg (by omega), Nat.add_assoc, Nat.add_sub_cancel_left,
        ih k (by simpa using h)]

/-! ## Lines -/

theorem splitLines_cons (c : Char) (r : Text) : ∃ l ls, splitLines r = l :: ls ∧
    (splitLines (c :: r) = [c] :: l :: ls ∧ isBreak c = true ∧ ¬ (c = '\r' ∧ r.head? = some '\n') ∨
      splitLines (c :: r) = (c :: l) :: ls ∧ (isBreak c = false ∨ c = '\r' ∧ r.head? = some '\n')) := by
  have hne : ∀ s, splitLines s ≠ [] := by
    intro s
    cases s with
    | nil => simp [splitLines]
    | cons c r => rw [splitLines]; split
                  · split <;> simp
                  · split
                    · simp
                    · split <;> simp
  cases hr : splitLines r with
  | nil => exact absurd hr (hne r)
  | cons l ls =>
    refine ⟨l, ls, rfl, ?_⟩
    rw [splitLines, hr]
    by_cases h1 : c = '\r' ∧ r.head? = some '\n'
    · rw [if_pos h1]; exact Or.inr ⟨rfl, Or.inr h1⟩
    · rw [if_neg h1]
      cases hb : isBreak c
      · exact Or.inr ⟨rfl, Or.inl rfl⟩
      · exact Or.inl ⟨rfl, rfl, h1⟩

theorem splitLines_flatten (s : Text) : (splitLines s).flatten = s := by
  induction s with
  | nil => rfl
  | cons c r ih =>
    obtain ⟨l, ls, hr, ⟨h, _⟩ | ⟨h, _⟩⟩ := splitLines_cons c r <;> rw [h] <;> rw [hr] at ih <;> simp at ih ⊢ <;>
      exact ih

theorem splitLines_length_pos (s : Text) : 0 < (splitLines s).length := by
  cases s with
  | nil => simp [splitLines]
  | cons c r => obtain ⟨l, ls, hr, ⟨h, _⟩ | ⟨h, _⟩⟩ := splitLines_cons c r <;> rw [h] <;> simp

/-- All lines but the last have a terminator. -/
theorem splitLines_nonempty (s : Text) (n : Nat) (h : n + 1 < (splitLines s).length) (l : Text)
    (hl : (splitLines s)[n]? = some l) : l ≠ [] := by
  induction s generalizing n with
  | nil => simp [splitLines] at h
  | cons c r ih =>
    obtain ⟨l', ls, hr, ⟨h', _⟩ | ⟨h', _⟩⟩ := splitLines_cons c r <;> rw [h'] at h hl
    · cases n with
      | zero => simp at hl; subst hl; simp
      | succ n => exact ih n (by rw [hr]; simpa using h) (by rw [hr]; simpa using hl)
    · cases n with
      | zero => simp at hl; subst hl; simp
      | succ n => exact ih (n + 1) (by rw [hr]; simpa using h) (by rw [hr]; simpa using hl)

/-- The last line has none. -/
theorem splitLines_last (s : Text) (l : Text) (hl : (splitLines s).getLast? = some l) :
    ∀ c ∈ l, isBreak c = false ∨ c = '\r' := by
  induction s generalizing l with
  | nil => simp [splitLines] at hl; subst hl; simp
  | cons c r ih =>
    obtain ⟨l', ls, hr, ⟨h', _⟩ | ⟨h', hb⟩⟩ := splitLines_cons c r <;> rw [h'] at hl
    · refine ih l ?_
      rw [hr]; simpa [List.getLast?_cons_cons] using hl
    · cases ls with
      | nil =>
        simp at hl; subst hl
        have := ih l' (by rw [hr]; rfl)
        intro x hx
        rcases List.mem_cons.mp hx with rfl | hx
        · rcases hb with hb | hb
          · exact Or.inl hb
          · exact Or.inr hb.1
        · exact this x hx
      | cons m ls =>
        refine ih l ?_
        rw [hr]; simpa [List.getLast?_cons_cons] using hl

/-- Where an index is, among pieces of a text. -/
theorem lineIndex_spec (ls : List Text) (h0 : ls ≠ []) (k : Nat) (hk : k ≤ ls.flatten.length) :
    ∃ l, ls[lineIndex ls k]? = some l ∧ ((ls.take (lineIndex ls k)).map List.length).sum ≤ k ∧
      k - ((ls.take (lineIndex ls k)).map List.length).sum ≤ l.length ∧
      (lineIndex ls k + 1 < ls.length → k - ((ls.take (lineIndex ls k)).map List.length).sum < l.length) := by
  induction ls generalizing k with
  | nil => exact absurd rfl h0
  | cons l ls ih =>
    cases ls with
    | nil => exact ⟨l, by simp [lineIndex], by simp [lineIndex], by simpa [lineIndex] using hk, by simp [lineIndex]⟩
    | cons m ls =>
      rw [lineIndex]
      by_cases h : k < l.length
      · rw [if_pos h]; exact ⟨l, by simp, by simp, by simp; omega, by simpa using h⟩
      · rw [if_neg h]
        obtain ⟨l', h1, h2, h3, h4⟩ := ih (by simp) (k - l.length) (by simp at hk ⊢; omega)
        refine ⟨l', by simpa using h1, ?_, ?_, ?_⟩
        · rw [List.take_succ_cons, List.map_cons, List.sum_cons]; omega
        · rw [List.take_succ_cons, List.map_cons, List.sum_cons]; omega
        · intro h5
          rw [List.take_succ_cons, List.map_cons, List.sum_cons]
          have := h4 (by simpa using h5)
          omega

theorem flatten_drop (ls : List Text) (n : Nat) :
    ls.flatten.drop ((ls.take n).map List.length).sum = (ls.drop n).flatten := by
  induction ls generalizing n with
  | nil => simp
  | cons l ls ih =>
    cases n with
    | zero => simp
    | succ n =>
      rw [List.take_succ_cons, List.map_cons, List.sum_cons, List.flatten_cons, List.drop_succ_cons, ← List.drop_drop,
        List.drop_left, ih n]

theorem lineToChar_succ (s : Text) (n : Nat) (l : Text) (h : (splitLines s)[n]? = some l) :
    lineToChar s (n + 1) = lineToChar s n + l.length := by
  simp [lineToChar, List.take_add_one, h]

/-- A line is found in the text at its start. -/
theorem line_at (s : Text) (n : Nat) (l : Text) (h : (splitLines s)[n]? = some l) :
    ∃ rest, s.drop (lineToChar s n) = l ++ rest ∧ (n + 1 = (splitLines s).length → rest = []) ∧
      lineToChar s n + l.length ≤ s.length := by
  have hn : n < (splitLines s).length := (List.getElem?_eq_some_iff.mp h).1
  have hl : (splitLines s)[n] = l := (List.getElem?_eq_some_iff.mp h).2
  refine ⟨((splitLines s).drop (n + 1)).flatten, ?_, ?_, ?_⟩
  · have := flatten_drop (splitLines s) n
    rw [splitLines_flatten] at this
    rw [lineToChar, this, List.drop_eq_getElem_cons hn, List.flatten_cons, hl]
  · intro e; rw [List.drop_eq_nil_of_le (by omega)]; rfl
  · have e : s.length = (((splitLines s).map List.length)).sum := by
      conv => lhs; rw [← splitLines_flatten s]
      rw [List.length_flatten]
    rw [e, ← lineToChar_succ s n l h, lineToChar]
    conv => rhs; rw [← List.take_append_drop (n + 1) (splitLines s), List.map_append, List.sum_append]
    omega

theorem content_prefix (l : Text) : ∃ t, l = content l ++ t := by
  rw [content]; split
  · exact ⟨_, (List.take_append_drop (l.length - 1) l).symm⟩
  · exact ⟨[], by simp⟩

/-- Every index of a text is on its line, in the part the server looks at. -/
theorem locate (s : Text) (k : Nat) (hk : k ≤ s.length) :
    ∃ l, (splitLines s)[charToLine s k]? = some l ∧ lineToChar s (charToLine s k) ≤ k ∧
      k - lineToChar s (charToLine s k) ≤ (content l).length ∧
      (charToLine s k + 1 < lenLines s → k - lineToChar s (charToLine s k) < l.length) := by
  obtain ⟨l, h1, h2, h3, h4⟩ := lineIndex_spec (splitLines s)
    (fun e => by have := splitLines_length_pos s; rw [e] at this; simp at this) k (by rw [splitLines_flatten]; exact hk)
  refine ⟨l, h1, h2, ?_, h4⟩
  rw [content]
  split
  · rename_i hlast
    by_cases hl : charToLine s k + 1 < lenLines s
    · have := h4 hl
      rw [List.length_take]
      simp only [charToLine, lineToChar]
      omega
    · have hlt : charToLine s k < lenLines s := (List.getElem?_eq_some_iff.mp h1).1
      have hg : (splitLines s).getLast? = some l := by
        rw [List.getLast?_eq_getElem?, ← h1]
        congr 1
        simp only [lenLines, charToLine] at *
        omega
      have := splitLines_last s l hg '\n' (List.mem_of_getLast? hlast)
      exact absurd this (by decide)
  · exact h3

theorem take_content (l : Text) (m : Nat) (h : m ≤ (content l).length) : (content l).take m = l.take m := by
  obtain ⟨t, ht⟩ := content_prefix l
  conv => rhs; rw [ht, List.take_append_of_le_length h]

/-- From the start of a line. -/
theorem line_take (s : Text) (n : Nat) (l : Text) (h : (splitLines s)[n]? = some l) (m : Nat) (hm : m ≤ l.length) :
    (s.drop (lineToChar s n)).take m = l.take m := by
  obtain ⟨rest, h1, _⟩ := line_at s n l h
  rw [h1, List.take_append_of_le_length hm]

theorem u32_of_lt {n : Nat} (h : n < 2 ^ 32) : u32 n = n := Nat.mod_eq_of_lt h

theorem lineToChar_lines_le (s : Text) (n : Nat) (h : n < lenLines s) : n ≤ lineToChar s n := by
  induction n with
  | zero => omega
  | succ n ih =>
    have hn : n < lenLines s := by omega
    have hl : (splitLines s)[n]? = some (splitLines s)[n] := List.getElem?_eq_getElem hn
    rw [lineToChar_succ s n _ hl]
    have := ih hn
    have := List.length_pos_iff.mpr (splitLines_nonempty s n h _ hl)
    omega

theorem positionFromOffset_eq (s : Text) (k : Nat) (hk : k ≤ s.length) (hb : lenBytes s < 2 ^ 32) :
    ∃ l, (splitLines s)[charToLine s k]? = some l ∧ lineToChar s (charToLine s k) ≤ k ∧
      k - lineToChar s (charToLine s k) ≤ (content l).length ∧
      positionFromOffset s (lenBytes (s.take k)) =
        some (charToLine s k, lenUtf16 ((content l).take (k - lineToChar s (charToLine s k)))) := by
  obtain ⟨l, h1, h2, h3, _⟩ := locate s k hk
  refine ⟨l, h1, h2, h3, ?_⟩
  have hm : min (lenBytes (s.take k)) (lenBytes s) = lenBytes (s.take k) := Nat.min_eq_left (lenBytes_take_le s k)
  have hl : line s (charToLine s k) = l := by simp [line, h1]
  have hlt : charToLine s k < lenLines s := (List.getElem?_eq_some_iff.mp h1).1
  have hs := length_le s
  have h5 := lineToChar_lines_le s _ hlt
  have h6 : lenUtf16 ((content l).take (k - lineToChar s (charToLine s k))) < 2 ^ 32 := by
    rw [take_content l _ h3, ← line_take s _ l h1 _ (by
      obtain ⟨t, ht⟩ := content_prefix l
      have : l.length = (content l).length + t.length := by
        conv => lhs; rw [ht, List.length_append]
      omega)]
    have := lenUtf16_le ((s.drop (lineToChar s (charToLine s k))).take (k - lineToChar s (charToLine s k)))
    have := lenBytes_take_le (s.drop (lineToChar s (charToLine s k))) (k - lineToChar s (charToLine s k))
    have e : lenBytes s = lenBytes (s.take (lineToChar s (charToLine s k))) +
        lenBytes (s.drop (lineToChar s (charToLine s k))) := by
      rw [← lenBytes_append, List.take_append_drop]
    omega
  rw [positionFromOffset]
  simp only [hm, byteToChar_take s k hk, hl, charToUtf16, if_pos h3, Option.map_some, u32_of_lt h6,
    u32_of_lt (show charToLine s k < 2 ^ 32 by omega)]

theorem offsetFromPosition_eq (s : Text) (n : Nat) (l : Text) (h : (splitLines s)[n]? = some l) (m : Nat)
    (hm : m ≤ (content l).length) :
    offsetFromPosition s n (lenUtf16 ((content l).take m)) = some (some (lenBytes (s.take (lineToChar s n + m)))) := by
  have hlt : n < lenLines s := (List.getElem?_eq_some_iff.mp h).1
  have hl : line s n = l := by simp [line, h]
  have hmin := Nat.min_eq_left (lenUtf16_take_le (content l) m)
  rw [offsetFromPosition, if_neg (by omega)]
  simp only [hl, hmin, utf16ToChar, lenUtf16_take_le, if_true, utf16Index_take _ m hm, Option.map_some, charToByte]

/-- Too large a column. -/
theorem offsetFromPosition_clamp (s : Text) (n : Nat) (l : Text) (h : (splitLines s)[n]? = some l) (col : Nat)
    (hc : lenUtf16 (content l) ≤ col) :
    offsetFromPosition s n col = some (some (lenBytes (s.take (lineToChar s n + (content l).length)))) := by
  have e := offsetFromPosition_eq s n l h (content l).length (Nat.le_refl _)
  rw [List.take_length] at e
  rw [← e]
  have hlt : n < lenLines s := (List.getElem?_eq_some_iff.mp h).1
  have hl : line s n = l := by simp [line, h]
  rw [offsetFromPosition, offsetFromPosition, if_neg (by omega), if_neg (by omega)]
  simp only [hl, Nat.min_eq_right hc, Nat.min_self]

/-! ## The editor's lines -/

theorem endsLine_succ (c : Char) (r : Text) (m : Nat) : EndsLine (c :: r) (m + 1) ↔ EndsLine r m := by
  simp [EndsLine]

theorem isBreak_plain {c : Char} (h : c.toNat ≠ 0x0B ∧ c.toNat ≠ 0x0C ∧ c.toNat ≠ 0x85 ∧ c.toNat ≠ 0x2028 ∧
    c.toNat ≠ 0x2029) : isBreak c = true ↔ c = '\n' ∨ c = '\r' := by
  simp only [isBreak, Bool.or_eq_true, beq_iff_eq]
  constructor
  · intro h'
    rcases h' with (((((h' | h') | h') | h') | h') | h') | h'
    · exact Or.inl (Char.toNat_inj.mp h')
    · exact absurd h' h.1
    · exact absurd h' h.2.1
    · exact Or.inr (Char.toNat_inj.mp h')
    · exact absurd h' h.2.2.1
    · exact absurd h' h.2.2.2.1
    · exact absurd h' h.2.2.2.2
  · rintro (rfl | rfl) <;> decide

theorem endsLine_zero {c : Char} {r : Text} (h : PlainLines (c :: r)) :
    EndsLine (c :: r) 0 ↔ isBreak c = true ∧ ¬ (c = '\r' ∧ r.head? = some '\n') := by
  rw [isBreak_plain (h c (by simp))]
  simp only [EndsLine, List.getElem?_cons_zero, Option.some.injEq, Nat.zero_add, List.getElem?_cons_succ, ne_eq,
    List.head?_eq_getElem?]
  constructor
  · rintro (rfl | ⟨rfl, h'⟩)
    · simp
    · exact ⟨Or.inr rfl, fun x => h' x.2⟩
  · rintro ⟨rfl | rfl, h'⟩
    · exact Or.inl rfl
    · exact Or.inr ⟨rfl, fun x => h' ⟨rfl, x⟩⟩

/-- The lines of `ropey` are the editor's. -/
theorem lines_spec (s : Text) (hs : PlainLines s) (n : Nat) (l : Text) (h : (splitLines s)[n]? = some l) :
    (∀ m, m + 1 < l.length → ¬ EndsLine s (lineToChar s n + m)) ∧
    (n + 1 < lenLines s → EndsLine s (lineToChar s n + (l.length - 1))) ∧
    (n + 1 = lenLines s → ∀ m < l.length, ¬ EndsLine s (lineToChar s n + m)) := by
  induction s generalizing n l with
  | nil => cases n <;> simp [splitLines] at h; subst h; simp [lenLines, splitLines]
  | cons c r ih =>
    have ih := ih (fun x hx => hs x (by simp [hx]))
    obtain ⟨l', ls, hr, hh⟩ := splitLines_cons c r
    have hz := endsLine_zero hs
    rcases hh with ⟨h', hb⟩ | ⟨h', hb⟩
    · have hb := hz.mpr hb
      rw [h'] at h
      cases n with
      | zero =>
        simp at h; subst h
        refine ⟨by simp, fun _ => by simpa [lineToChar] using hb, fun e => ?_⟩
        simp [lenLines, h'] at e
      | succ n =>
        have hn : (splitLines r)[n]? = some l := by rw [hr]; simpa using h
        have e1 : lineToChar (c :: r) (n + 1) = lineToChar r n + 1 := by simp [lineToChar, h', hr]; omega
        have e2 : lenLines (c :: r) = lenLines r + 1 := by simp [lenLines, h', hr]
        obtain ⟨i1, i2, i3⟩ := ih n l hn
        rw [e1, e2]
        refine ⟨fun m hm => ?_, fun hm => ?_, fun hm m hm' => ?_⟩
        · rw [Nat.add_right_comm, endsLine_succ]; exact i1 m hm
        · rw [Nat.add_right_comm, endsLine_succ]; exact i2 (by omega)
        · rw [Nat.add_right_comm, endsLine_succ]; exact i3 (by omega) m hm'
    · have hb : ¬ EndsLine (c :: r) 0 := by
        rw [hz]
        rintro ⟨x, y⟩
        rcases hb with hb | hb
        · rw [hb] at x; cases x
        · exact y hb
      rw [h'] at h
      have e2 : lenLines (c :: r) = lenLines r := by simp [lenLines, h', hr]
      cases n with
      | zero =>
        simp at h; subst h
        have hn : (splitLines r)[0]? = some l' := by rw [hr]; rfl
        obtain ⟨i1, i2, i3⟩ := ih 0 l' hn
        have z : lineToChar (c :: r) 0 = 0 := by simp [lineToChar]
        have z' : lineToChar r 0 = 0 := by simp [lineToChar]
        rw [z, e2]; rw [z'] at i1 i2 i3
        simp only [Nat.zero_add, List.length_cons, Nat.add_sub_cancel] at *
        refine ⟨fun m hm => ?_, fun hm => ?_, fun hm m hm' => ?_⟩
        · cases m with
          | zero => exact hb
          | succ m => rw [endsLine_succ]; exact i1 m (by omega)
        · have := splitLines_nonempty r 0 (by simpa [lenLines] using hm) l' hn
          have := List.length_pos_iff.mpr this
          obtain ⟨x, hx⟩ : ∃ x, l'.length = x + 1 := ⟨l'.length - 1, by omega⟩
          rw [hx, endsLine_succ]
          have := i2 hm
          rwa [hx, Nat.add_sub_cancel] at this
        · cases m with
          | zero => exact hb
          | succ m => rw [endsLine_succ]; exact i3 hm m (by omega)
      | succ n =>
        have hn : (splitLines r)[n + 1]? = some l := by rw [hr]; simpa using h
        have e1 : lineToChar (c :: r) (n + 1) = lineToChar r (n + 1) + 1 := by simp [lineToChar, h', hr]; omega
        obtain ⟨i1, i2, i3⟩ := ih (n + 1) l hn
        rw [e1, e2]
        refine ⟨fun m hm => ?_, fun hm => ?_, fun hm m hm' => ?_⟩
        · rw [Nat.add_right_comm, endsLine_succ]; exact i1 m hm
        · rw [Nat.add_right_comm, endsLine_succ]; exact i2 hm
        · rw [Nat.add_right_comm, endsLine_succ]; exact i3 hm m hm'

theorem last_length (s : Text) (n : Nat) (l : Text) (h : (splitLines s)[n]? = some l) (hn : n + 1 = lenLines s) :
    s.length = lineToChar s n + l.length := by
  obtain ⟨rest, h1, h2, h3⟩ := line_at s n l h
  have := congrArg List.length h1
  rw [h2 hn] at this
  simp at this
  omega

/-- The start of a line is where the editor sees it. -/
theorem lineStart_iff (s : Text) (hs : PlainLines s) (n i : Nat) :
    LineStart s n i ↔ n < lenLines s ∧ i = lineToChar s n := by
  constructor
  · intro h
    induction h with
    | zero => exact ⟨splitLines_length_pos s, by simp [lineToChar]⟩
    | @next n i j _ hij he hno ih =>
      obtain ⟨hn, rfl⟩ := ih
      have hl : (splitLines s)[n]? = some (splitLines s)[n] := List.getElem?_eq_getElem hn
      obtain ⟨l, hl'⟩ : ∃ l, (splitLines s)[n] = l := ⟨_, rfl⟩
      rw [hl'] at hl
      obtain ⟨i1, i2, i3⟩ := lines_spec s hs n l hl
      have hj : j < s.length := by
        rcases he with he | he
        · exact (List.getElem?_eq_some_iff.mp he).1
        · exact (List.getElem?_eq_some_iff.mp he.1).1
      by_cases hlast : n + 1 = lenLines s
      · exfalso
        have hlen := last_length s n l hl hlast
        refine i3 hlast (j - lineToChar s n) (by omega) ?_
        rwa [Nat.add_sub_cancel' hij]
      · refine ⟨by omega, ?_⟩
        have hpos := List.length_pos_iff.mpr (splitLines_nonempty s n (by show n + 1 < lenLines s; omega) l hl)
        rw [lineToChar_succ s n l hl]
        have e2 := i2 (by omega)
        rcases Nat.lt_trichotomy j (lineToChar s n + (l.length - 1)) with h | h | h
        · exact absurd he (by have := i1 (j - lineToChar s n) (by omega); rwa [Nat.add_sub_cancel' hij] at this)
        · omega
        · exact absurd e2 (hno _ (by omega) h)
  · rintro ⟨hn, rfl⟩
    induction n with
    | zero => have : lineToChar s 0 = 0 := by simp [lineToChar]
              rw [this]; exact .zero
    | succ n ih =>
      have hn' : n < lenLines s := by omega
      have hl : (splitLines s)[n]? = some (splitLines s)[n] := List.getElem?_eq_getElem hn'
      obtain ⟨l, hl'⟩ : ∃ l, (splitLines s)[n] = l := ⟨_, rfl⟩
      rw [hl'] at hl
      obtain ⟨i1, i2, i3⟩ := lines_spec s hs n l hl
      have hpos := List.length_pos_iff.mpr (splitLines_nonempty s n hn l hl)
      have e : lineToChar s (n + 1) = lineToChar s n + (l.length - 1) + 1 := by
        rw [lineToChar_succ s n l hl]; omega
      rw [e]
      refine .next (ih hn') (by omega) (i2 hn) fun m h1 h2 => ?_
      have := i1 (m - lineToChar s n) (by omega)
      rwa [Nat.add_sub_cancel' h1] at this

/-- The positions of the editor, in terms of `ropey`'s lines. -/
theorem at_iff (s : Text) (hs : PlainLines s) (n col k : Nat) :
    At s n col k ↔ ∃ l, (splitLines s)[n]? = some l ∧ lineToChar s n ≤ k ∧
      k - lineToChar s n ≤ (content l).length ∧ (n + 1 < lenLines s → k - lineToChar s n < l.length) ∧
      col = lenUtf16 ((content l).take (k - lineToChar s n)) := by
  have hcl : ∀ l : Text, (content l).length ≤ l.length := fun l => by
    rw [content]; split
    · rw [List.length_take]; omega
    · omega
  constructor
  · rintro ⟨i, hi, hik, hk, hno, rfl⟩
    obtain ⟨hn, rfl⟩ := (lineStart_iff s hs n i).mp hi
    have hl : (splitLines s)[n]? = some (splitLines s)[n] := List.getElem?_eq_getElem hn
    obtain ⟨l, hl'⟩ : ∃ l, (splitLines s)[n] = l := ⟨_, rfl⟩
    rw [hl'] at hl
    obtain ⟨i1, i2, i3⟩ := lines_spec s hs n l hl
    have hlt : n + 1 < lenLines s → k - lineToChar s n < l.length := by
      intro h
      have hpos := List.length_pos_iff.mpr (splitLines_nonempty s n h l hl)
      have e2 := i2 h
      rcases Nat.lt_or_ge (lineToChar s n + (l.length - 1)) k with h' | h'
      · exact absurd e2 (hno _ (by omega) h')
      · omega
    have hc : k - lineToChar s n ≤ (content l).length := by
      rw [content]; split
      · rename_i hlast
        rw [List.length_take]
        by_cases h : n + 1 < lenLines s
        · have := hlt h; omega
        · exfalso
          have hg : (splitLines s).getLast? = some l := by
            rw [List.getLast?_eq_getElem?, ← hl]
            congr 1
            show lenLines s - 1 = n
            omega
          have := splitLines_last s l hg '\n' (List.mem_of_getLast? hlast)
          exact absurd this (by decide)
      · by_cases h : n + 1 < lenLines s
        · have := hlt h; omega
        · have := last_length s n l hl (by omega); omega
    refine ⟨l, hl, hik, hc, hlt, ?_⟩
    rw [units_eq, take_content l _ hc, ← line_take s n l hl _ (Nat.le_trans hc (hcl l)), List.take_drop,
      Nat.add_sub_cancel' hik]
  · rintro ⟨l, hl, h1, h2, h3, rfl⟩
    have hn : n < lenLines s := (List.getElem?_eq_some_iff.mp hl).1
    obtain ⟨rest, _, _, hlen⟩ := line_at s n l hl
    obtain ⟨i1, i2, i3⟩ := lines_spec s hs n l hl
    have := hcl l
    refine ⟨lineToChar s n, (lineStart_iff s hs n _).mpr ⟨hn, rfl⟩, h1, by omega, fun m hm1 hm2 => ?_, ?_⟩
    · rw [← Nat.add_sub_cancel' hm1]
      by_cases h : n + 1 < lenLines s
      · exact i1 _ (by have := h3 h; omega)
      · exact i3 (by omega) _ (by omega)
    · rw [units_eq, take_content l _ h2, ← line_take s n l hl _ (Nat.le_trans h2 (hcl l)), List.take_drop,
        Nat.add_sub_cancel' h1]

end Verif.LspPos
