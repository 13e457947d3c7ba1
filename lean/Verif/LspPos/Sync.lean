import Verif.LspPos.Proofs
/-!
# Lemmas about changes, parser points and completion
-/
namespace Verif.LspPos

theorem offset_of_at {s : Text} (hs : PlainLines s) {n col k : Nat} (h : At s n col k) :
    offsetFromPosition s n col = some (some (lenBytes (s.take k))) := by
  obtain ⟨l, h1, h2, h3, _, rfl⟩ := (at_iff s hs n col k).mp h
  rw [offsetFromPosition_eq s n l h1 _ h3, Nat.add_sub_cancel' h2]

theorem at_le {s : Text} {n col k : Nat} (h : At s n col k) : k ≤ s.length := by
  obtain ⟨_, _, _, h, _⟩ := h; exact h

theorem applyChange_range {a b c t : Text} {p q : Position} (hs : PlainLines (a ++ b ++ c))
    (hp : At (a ++ b ++ c) p.line p.character a.length)
    (hq : At (a ++ b ++ c) q.line q.character (a.length + b.length)) :
    applyChange (a ++ b ++ c) ⟨some (p, q), t⟩ =
      .ok (a ++ t ++ c) (some (inputEdit (a ++ b ++ c) (lenBytes a) (lenBytes (a ++ b)) t)) := by
  have ta : (a ++ b ++ c).take a.length = a := by simp
  have tb : (a ++ b ++ c).take (a.length + b.length) = a ++ b := by
    rw [← List.length_append, List.take_left]
  have db : (a ++ b ++ c).drop (a.length + b.length) = c := by
    rw [← List.length_append, List.drop_left]
  have e1 := offset_of_at hs hp
  have e2 := offset_of_at hs hq
  have f1 := byteToChar_take (a ++ b ++ c) a.length (at_le hp)
  have f2 := byteToChar_take (a ++ b ++ c) (a.length + b.length) (at_le hq)
  rw [ta] at e1 f1
  rw [tb] at e2 f2
  simp only [applyChange, e1, e2, f1, f2, splice, ta, db, show a.length ≤ a.length + b.length from by omega, if_true]

theorem applyChange_edits {s s' : Text} {ch : Change} (hs : PlainLines s) (h : Edits s ch s') :
    ∃ e, applyChange s ch = .ok s' e := by
  cases h with
  | full => exact ⟨none, rfl⟩
  | range hp hq => exact ⟨_, applyChange_range hs hp hq⟩

theorem applyChanges_edits {s s' : Text} {chs : List Change} (h : EditsAll s chs s') : applyChanges s chs = some s' := by
  induction h with
  | nil => rfl
  | cons hs _ he _ ih =>
    obtain ⟨e, h⟩ := applyChange_edits hs he
    simp only [applyChanges, h, ih]

theorem session {d d' : Docs} {ns : List Notif} (h : Session d ns d') : notifyAll d ns = some d' := by
  induction h with
  | nil => rfl
  | opened _ ih => simp only [notifyAll, notify, Option.bind_some, ih]
  | closed _ ih => simp only [notifyAll, notify, Option.bind_some, ih]
  | changed hd he _ ih => simp only [notifyAll, notify, hd, applyChanges_edits he, Option.map_some, Option.bind_some, ih]

/-! ## Parser points -/

theorem parserPoint_append (a b : Text) (ha : a = [] ∨ a.getLast? = some '\n') (hb : '\n' ∉ b) :
    parserPoint (a ++ b) = ⟨a.count '\n', bytes b⟩ := by
  have hb' : ∀ x ∈ b.reverse, (x != '\n') = true := by
    intro x hx
    simp only [bne_iff_ne, ne_eq]
    rintro rfl
    exact hb (by simpa using hx)
  rw [parserPoint, List.count_append, List.count_eq_zero.mpr hb, Nat.add_zero, List.reverse_append,
    List.takeWhile_append_of_pos hb']
  congr 1
  have : a.reverse.takeWhile (· != '\n') = [] := by
    rcases ha with rfl | ha
    · rfl
    · cases hr : a.reverse with
      | nil => rfl
      | cons x r =>
        have : a.reverse.head? = some '\n' := by rw [List.head?_reverse]; exact ha
        rw [hr] at this
        simp at this
        subst this
        rfl
  rw [this, List.append_nil, List.reverse_reverse]

theorem lines_count (s : Text) (hs : PlainLines s) (hcr : NoLoneCr s) (n : Nat) (hn : n < lenLines s) :
    (s.take (lineToChar s n)).count '\n' = n ∧
      (s.take (lineToChar s n) = [] ∨ (s.take (lineToChar s n)).getLast? = some '\n') := by
  induction n with
  | zero => simp [lineToChar]
  | succ n ih =>
    obtain ⟨ih1, _⟩ := ih (by omega)
    have hn' : n < (splitLines s).length := by show n < lenLines s; omega
    obtain ⟨l, hl⟩ : ∃ l, (splitLines s)[n]? = some l := ⟨_, List.getElem?_eq_getElem hn'⟩
    have hpos := List.length_pos_iff.mpr (splitLines_nonempty s n hn l hl)
    obtain ⟨i1, i2, _⟩ := lines_spec s hs n l hl
    obtain ⟨rest, hr, _, hlen⟩ := line_at s n l hl
    have hget : ∀ m < l.length, s[lineToChar s n + m]? = l[m]? := by
      intro m hm
      rw [← List.getElem?_drop, hr, List.getElem?_append_left hm]
    have hlast : l.getLast? = some '\n' := by
      rw [List.getLast?_eq_getElem?, ← hget _ (by omega)]
      rcases i2 hn with h | h
      · exact h
      · exact absurd (hcr _ h.1) h.2
    have hinit : '\n' ∉ l.dropLast := by
      intro hm
      obtain ⟨m, hm1, hm2⟩ := List.getElem_of_mem hm
      rw [List.length_dropLast] at hm1
      refine i1 m (by omega) (Or.inl ?_)
      rw [hget m (by omega), List.getElem?_eq_getElem (by omega), ← hm2, List.getElem_dropLast]
    have hsplit : l = l.dropLast ++ ['\n'] := by
      have hne : l ≠ [] := List.length_pos_iff.mp hpos
      rw [List.getLast?_eq_some_getLast hne] at hlast
      conv => lhs; rw [← List.dropLast_concat_getLast hne]
      rw [Option.some.inj hlast]
    have ht : s.take (lineToChar s (n + 1)) = s.take (lineToChar s n) ++ l := by
      rw [lineToChar_succ s n l hl, List.take_add, hr, List.take_left]
    rw [ht, List.count_append, ih1]
    refine ⟨?_, Or.inr ?_⟩
    · rw [hsplit, List.count_append, List.count_eq_zero.mpr hinit]; rfl
    · rw [hsplit]; simp

theorem byteLineCol_eq (s : Text) (hs : PlainLines s) (hcr : NoLoneCr s) (hb : lenBytes s < 2 ^ 32) (k : Nat)
    (hk : k ≤ s.length) : byteLineCol s (lenBytes (s.take k)) = parserPoint (s.take k) := by
  obtain ⟨l, h1, h2, h3, h4⟩ := locate s k hk
  have hn : charToLine s k < lenLines s := (List.getElem?_eq_some_iff.mp h1).1
  obtain ⟨c1, c2⟩ := lines_count s hs hcr _ hn
  obtain ⟨rest, hr, _, hlen⟩ := line_at s _ l h1
  obtain ⟨i1, i2, i3⟩ := lines_spec s hs _ l h1
  obtain ⟨t, ht⟩ := content_prefix l
  have hcl : (content l).length ≤ l.length := by
    conv => rhs; rw [ht, List.length_append]
    omega
  have hsplit : s.take k = s.take (lineToChar s (charToLine s k)) ++ l.take (k - lineToChar s (charToLine s k)) := by
    rw [← line_take s _ l h1 _ (by omega), ← List.take_add, Nat.add_sub_cancel' h2]
  have hno : '\n' ∉ l.take (k - lineToChar s (charToLine s k)) := by
    intro hm
    obtain ⟨m, hm1, hm2⟩ := List.getElem_of_mem hm
    rw [List.length_take] at hm1
    have : EndsLine s (lineToChar s (charToLine s k) + m) := by
      refine Or.inl ?_
      rw [← List.getElem?_drop, hr, List.getElem?_append_left (by omega), List.getElem?_eq_getElem (by omega), ← hm2,
        List.getElem_take]
    by_cases hlast : charToLine s k + 1 < lenLines s
    · exact i1 m (by have := h4 hlast; omega) this
    · exact i3 (by omega) m (by omega) this
  have hm : min (lenBytes (s.take k)) (lenBytes s) = lenBytes (s.take k) := Nat.min_eq_left (lenBytes_take_le s k)
  have e : lenBytes (s.take k) - lenBytes (s.take (lineToChar s (charToLine s k))) =
      lenBytes (l.take (k - lineToChar s (charToLine s k))) := by
    rw [hsplit, lenBytes_append]; omega
  have := lenBytes_take_le s k
  have := lineToChar_lines_le s _ hn
  have := length_le s
  rw [byteLineCol]
  simp only [hm, byteToChar_take s k hk, charToByte, e]
  rw [u32_of_lt (by omega), u32_of_lt (by omega), hsplit, parserPoint_append _ _ c2 hno, c1, bytes_eq]

theorem parserPoint_snoc (a : Text) (c : Char) : parserPoint (a ++ [c]) =
    if c = '\n' then ⟨(parserPoint a).row + 1, 0⟩ else ⟨(parserPoint a).row, (parserPoint a).column + c.utf8Size⟩ := by
  by_cases h : c = '\n'
  · subst h; rw [if_pos rfl]
    rw [parserPoint, parserPoint]; simp [bytes]
  · rw [if_neg h, parserPoint, parserPoint]
    simp [h, bytes, List.count_append]

theorem pointAfterText_eq (a t : Text) : pointAfterText (parserPoint a) t = parserPoint (a ++ t) := by
  induction t generalizing a with
  | nil => simp [pointAfterText]
  | cons c r ih =>
    rw [pointAfterText, show a ++ c :: r = (a ++ [c]) ++ r from by simp, ← ih (a ++ [c]), parserPoint_snoc]
    split <;> rfl

/-! ## Completion -/

theorem byteToChar_inside (p : Text) (c : Char) (r : Text) :
    byteToChar (p ++ c :: r) (lenBytes (p ++ [c]) - 1) = p.length := by
  have hc := c.utf8Size_pos
  have : ∀ (p : Text) (d : Nat), d < c.utf8Size → byteToChar (p ++ c :: r) (lenBytes p + d) = p.length := by
    intro p d hd
    induction p with
    | nil => simp [byteToChar, lenBytes, hd]
    | cons x p ih =>
      rw [List.cons_append, lenBytes_cons, byteToChar, if_neg (by omega), Nat.add_assoc, Nat.add_sub_cancel_left, ih,
        List.length_cons]
  rw [lenBytes_append, show lenBytes p + lenBytes [c] - 1 = lenBytes p + (lenBytes [c] - 1) from by
    simp [lenBytes]; omega]
  exact this p _ (by simp [lenBytes]; omega)

theorem prefixStart_eq (isWord : Char → Bool) (a w b : Text) (hw : ∀ c ∈ w, isWord c = true)
    (ha : ∀ c, a.getLast? = some c → isWord c = false) (fuel : Nat) (hf : w.length ≤ fuel) :
    prefixStart isWord (a ++ w ++ b) fuel (lenBytes (a ++ w)) = lenBytes a := by
  obtain ⟨v, rfl⟩ : ∃ v, w = v.reverse := ⟨w.reverse, by simp⟩
  induction v generalizing b fuel with
  | nil =>
    simp only [List.reverse_nil, List.append_nil]
    cases fuel with
    | zero => rfl
    | succ fuel =>
      rw [prefixStart]
      split
      · rfl
      · rename_i h
        rcases List.eq_nil_or_concat a with rfl | ⟨a', c, rfl⟩
        · simp [lenBytes] at h
        · rw [List.concat_eq_append] at *
          have := byteToChar_inside a' c b
          rw [show a' ++ c :: b = (a' ++ [c]) ++ b from by simp] at this
          rw [this]
          have hc := ha c (by simp)
          simp [hc]
  | cons c v ih =>
    cases fuel with
    | zero => simp at hf
    | succ fuel =>
      have hcw : isWord c = true := hw c (by simp)
      have e1 : a ++ (c :: v).reverse ++ b = (a ++ v.reverse) ++ c :: b := by simp
      have e2 : a ++ (c :: v).reverse = (a ++ v.reverse) ++ [c] := by simp
      rw [prefixStart, if_neg, e1, e2, byteToChar_inside]
      · simp only [List.getElem?_append_right (Nat.le_refl _), Nat.sub_self, List.getElem?_cons_zero, hcw, if_true]
        have := ih (c :: b) fuel (fun x hx => hw x (by simp at hx ⊢; exact Or.inl hx)) (by simpa using hf)
        rw [← this]
        congr 1
        rw [lenBytes_append, lenBytes_append]; simp [lenBytes]
      · rw [e2, lenBytes_append]; have := c.utf8Size_pos; simp [lenBytes]; omega

theorem completionPrefix_eq (isWord : Char → Bool) (a w b : Text) (hw : ∀ c ∈ w, isWord c = true)
    (ha : ∀ c, a.getLast? = some c → isWord c = false) :
    completionPrefix isWord (a ++ w ++ b) (lenBytes (a ++ w)) = w := by
  have hl : w.length ≤ lenBytes (a ++ w) := by
    have := length_le (a ++ w); simp at this; omega
  have hp := prefixStart_eq isWord a w b hw ha (lenBytes (a ++ w)) hl
  rw [completionPrefix]
  by_cases h0 : lenBytes (a ++ w) = 0
  · rw [if_pos h0]
    exact (List.eq_nil_of_length_eq_zero (by omega)).symm
  · rw [if_neg h0]
    simp only [hp]
    by_cases hz : w = []
    · subst hz; rw [if_pos (by simp)]
    · have := List.length_pos_iff.mpr hz
      have := length_le w
      have e := lenBytes_append a w
      have t1 : (a ++ w ++ b).take a.length = a := by simp
      have t2 : (a ++ w ++ b).take (a ++ w).length = a ++ w := by rw [List.take_left]
      have f1 := byteToChar_take (a ++ w ++ b) a.length (by simp)
      have f2 := byteToChar_take (a ++ w ++ b) (a ++ w).length (by simp)
      rw [t1] at f1; rw [t2] at f2
      rw [if_neg (by omega), f1, f2, t2, List.drop_left]

end Verif.LspPos
