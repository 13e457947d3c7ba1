import Verif.LspPos.Sync
/-!
# Properties C40, C45, C46, C47: the language server's positions, documents and completions
-/
namespace Verif.LspPos

/-- The document of the examples: two kinds of line ends, a character of two bytes and one of two UTF-16
code units. -/
def sample : Text := ['é', '😀', 'x', '\r', '\n', 'a', '\n']

theorem sample_plain : PlainLines sample := by unfold PlainLines; decide
theorem sample_bytes : bytes sample = 11 := by decide

/-- Line 0 and line 1 of the sample. -/
theorem sample_start1 : LineStart sample 1 5 := by
  refine .next .zero (Nat.zero_le 4) (Or.inl rfl) fun m _ h => ?_
  have : m = 0 ∨ m = 1 ∨ m = 2 ∨ m = 3 := by omega
  rcases this with rfl | rfl | rfl | rfl <;> simp [EndsLine, sample]

theorem sample_at0 : At sample 0 3 2 := by
  refine ⟨0, .zero, by omega, by decide, fun m _ h => ?_, by decide⟩
  have : m = 0 ∨ m = 1 := by omega
  rcases this with rfl | rfl <;> simp [EndsLine, sample]

theorem sample_at1 : At sample 1 1 6 := by
  refine ⟨5, sample_start1, by omega, by decide, fun m _ h => ?_, by decide⟩
  have : m = 5 := by omega
  subst this; simp [EndsLine, sample]

/-- C40: from an offset at a character boundary to a position and back, in every document. -/
theorem C40_roundtrip (a b : Text) (h : bytes (a ++ b) < 2 ^ 32) :
    ∃ n col, positionFromOffset (a ++ b) (bytes a) = some (n, col) ∧
      offsetFromPosition (a ++ b) n col = some (some (bytes a)) := by
  rw [bytes_eq] at *
  have ht : (a ++ b).take a.length = a := List.take_left
  obtain ⟨l, h1, h2, h3, h4⟩ := positionFromOffset_eq (a ++ b) a.length (by simp) h
  rw [ht] at h4
  refine ⟨_, _, h4, ?_⟩
  rw [offsetFromPosition_eq _ _ l h1 _ h3, Nat.add_sub_cancel' h2, ht]

example : positionFromOffset sample 6 = some (0, 3) ∧ offsetFromPosition sample 0 3 = some (some 6) := by decide

/-- C40: the position is the editor's. -/
theorem C40_position_partial (a b : Text) (h : bytes (a ++ b) < 2 ^ 32) (hs : PlainLines (a ++ b)) :
    ∃ n col, positionFromOffset (a ++ b) (bytes a) = some (n, col) ∧ At (a ++ b) n col a.length := by
  rw [bytes_eq] at *
  have ht : (a ++ b).take a.length = a := List.take_left
  obtain ⟨l, h1, h2, h3, h4⟩ := positionFromOffset_eq (a ++ b) a.length (by simp) h
  rw [ht] at h4
  obtain ⟨l', g1, _, _, g4⟩ := locate (a ++ b) a.length (by simp)
  rw [h1] at g1; cases g1
  exact ⟨_, _, h4, (at_iff _ hs _ _ _).mpr ⟨l, h1, h2, h3, g4, rfl⟩⟩

example : PlainLines sample ∧ bytes sample < 2 ^ 32 := ⟨sample_plain, by decide⟩

/-- C40: the offset of every position of the editor's is that of the character it is before. -/
theorem C40_offset_partial (s : Text) (hs : PlainLines s) (n col k : Nat) (h : At s n col k) :
    offsetFromPosition s n col = some (some (bytes (s.take k))) := by
  rw [bytes_eq]; exact offset_of_at hs h

example : At sample 1 1 6 := sample_at1

/-- C40: a column that cuts a character in two is that of the character. -/
theorem C40_surrogate (s : Text) (hs : PlainLines s) (n col k : Nat) (c : Char) (h : At s n col k)
    (hk : s[k]? = some c) (hc : 65536 ≤ c.toNat) :
    offsetFromPosition s n (col + 1) = some (some (bytes (s.take k))) := by
  obtain ⟨l, h1, h2, h3, h4, rfl⟩ := (at_iff s hs n col k).mp h
  have hlt : n < lenLines s := (List.getElem?_eq_some_iff.mp h1).1
  have hl : line s n = l := by simp [line, h1]
  obtain ⟨rest, hr, hlast, hlen⟩ := line_at s n l h1
  have hkl : k < s.length := (List.getElem?_eq_some_iff.mp hk).1
  have hkl' : k - lineToChar s n < l.length := by
    by_cases hn : n + 1 < lenLines s
    · exact h4 hn
    · have := last_length s n l h1 (by omega); omega
  have hget : l[k - lineToChar s n]? = some c := by
    rw [← hk, show s[k]? = s[lineToChar s n + (k - lineToChar s n)]? from by rw [Nat.add_sub_cancel' h2],
      ← List.getElem?_drop, hr, List.getElem?_append_left hkl']
  have hcl : k - lineToChar s n < (content l).length := by
    rcases Nat.lt_or_ge (k - lineToChar s n) (content l).length with h | h
    · exact h
    · exfalso
      have e : k - lineToChar s n = (content l).length := by omega
      rw [content] at e
      split at e
      · rename_i hg
        rw [List.length_take] at e
        rw [List.getLast?_eq_getElem?, show l.length - 1 = k - lineToChar s n from by omega, hget] at hg
        cases hg
        revert hc; decide
      · omega
  obtain ⟨t, ht⟩ := content_prefix l
  have hget' : (content l)[k - lineToChar s n]? = some c := by
    rw [← hget]
    conv => rhs; rw [ht, List.getElem?_append_left hcl]
  have hsz : utf16Size c = 2 := by rw [utf16Size, if_neg (by omega)]
  have hle : lenUtf16 ((content l).take (k - lineToChar s n)) + 1 ≤ lenUtf16 (content l) := by
    conv => rhs; rw [← List.take_append_drop (k - lineToChar s n) (content l), lenUtf16_append]
    rw [List.drop_eq_getElem_cons hcl, lenUtf16_cons]
    have := utf16Size_pos (content l)[k - lineToChar s n]
    omega
  rw [offsetFromPosition, if_neg (by omega)]
  simp only [hl, Nat.min_eq_left hle, utf16ToChar, hle, if_true,
    utf16Index_inside _ _ c hget' 1 (by omega), Option.map_some, charToByte, Nat.add_sub_cancel' h2, bytes_eq]

example : offsetFromPosition sample 0 2 = some (some 2) ∧ bytes (sample.take 1) = 2 := by decide

/-- C40: a line past the last is rejected. -/
theorem C40_no_such_line_partial (s : Text) (hs : PlainLines s) (n col : Nat) (h : ∀ i, ¬ LineStart s n i) :
    offsetFromPosition s n col = some none := by
  rw [offsetFromPosition, if_pos]
  rcases Nat.lt_or_ge n (lenLines s) with h' | h'
  · exact absurd ((lineStart_iff s hs n _).mpr ⟨h', rfl⟩) (h _)
  · exact h'

example : ∀ i, ¬ LineStart sample 7 i := by
  intro i h
  have := ((lineStart_iff sample sample_plain 7 i).mp h).1
  revert this; decide

/-- C40: a column past the end of the line is clamped to it, if the text has no carriage returns. -/
theorem C40_clamp_partial (s : Text) (hs : PlainLines s) (hcr : '\r' ∉ s) (n i e : Nat) (hi : LineStart s n i)
    (hie : i ≤ e) (he : e = s.length ∨ s[e]? = some '\n') (hno : ∀ m, i ≤ m → m < e → s[m]? ≠ some '\n') (col : Nat)
    (hc : units ((s.take e).drop i) ≤ col) :
    offsetFromPosition s n col = some (some (bytes (s.take e))) := by
  have hends : ∀ m, EndsLine s m ↔ s[m]? = some '\n' := by
    intro m
    refine ⟨fun h => h.elim id fun h => absurd (List.mem_of_getElem? h.1) hcr, Or.inl⟩
  have hat : At s n (units ((s.take e).drop i)) e := by
    refine ⟨i, hi, hie, ?_, fun m h1 h2 h3 => hno m h1 h2 ((hends m).mp h3), rfl⟩
    rcases he with he | he
    · omega
    · have := (List.getElem?_eq_some_iff.mp he).1; omega
  obtain ⟨l, h1, h2, h3, h4, h5⟩ := (at_iff s hs n _ e).mp hat
  obtain ⟨i1, i2, i3⟩ := lines_spec s hs n l h1
  obtain ⟨rest, hr, _, hlen⟩ := line_at s n l h1
  obtain ⟨t, ht⟩ := content_prefix l
  have hcl : (content l).length ≤ l.length := by
    conv => rhs; rw [ht, List.length_append]
    omega
  have key : e - lineToChar s n = (content l).length := by
    rcases he with he | he
    · have := hlen; omega
    · rcases Nat.lt_or_ge (e - lineToChar s n) (content l).length with h | h
      · exfalso
        have hends' := (hends e).mpr he
        rw [← Nat.add_sub_cancel' h2] at hends'
        by_cases hn : n + 1 < lenLines s
        · rcases Nat.lt_or_ge (e - lineToChar s n + 1) l.length with h' | h'
          · exact i1 _ h' hends'
          · have hg : l.getLast? = some '\n' := by
              rw [List.getLast?_eq_getElem?, show l.length - 1 = e - lineToChar s n from by omega, ← he]
              conv => rhs; rw [← Nat.add_sub_cancel' h2]
              rw [← List.getElem?_drop, hr, List.getElem?_append_left (by omega)]
            rw [content, if_pos hg, List.length_take] at h
            omega
        · have hlt : n < lenLines s := (List.getElem?_eq_some_iff.mp h1).1
          exact i3 (by omega) _ (by omega) hends'
      · omega
  rw [h5, key, List.take_length] at hc
  rw [offsetFromPosition_clamp s n l h1 col hc, ← key, Nat.add_sub_cancel' h2, bytes_eq]

example : offsetFromPosition ['h', 'i', '\n', 'x'] 0 100 = some (some 2) := by decide

/-- C40 is false of lines that end with a carriage return: the column is clamped to a place between `\r`
and `\n`, or to the start of the next line. -/
theorem C40_clamp_violated :
    offsetFromPosition ['a', '\r', '\n', 'b'] 0 100 = some (some 2) ∧
    offsetFromPosition ['a', '\r', 'b'] 0 100 = some (some 2) ∧ LineStart ['a', '\r', 'b'] 1 2 := by
  refine ⟨by decide, by decide, .next .zero (Nat.zero_le 1) (Or.inr ⟨rfl, by simp⟩) fun m _ h => ?_⟩
  have : m = 0 := by omega
  subst this; simp [EndsLine]

/-- C40 is false of texts with a vertical tab: for the editor it is a character like any other, for the
server it ends the line. -/
theorem C40_line_breaks_violated :
    At ['a', Char.ofNat 0x0B, 'b'] 0 2 2 ∧
    positionFromOffset ['a', Char.ofNat 0x0B, 'b'] 2 = some (1, 0) ∧
    offsetFromPosition ['a', Char.ofNat 0x0B, 'b', '\n', 'c'] 1 0 = some (some 2) := by
  refine ⟨⟨0, .zero, by omega, by decide, fun m _ h => ?_, by decide⟩, by decide, by decide⟩
  have : m = 0 ∨ m = 1 := by omega
  rcases this with rfl | rfl <;> simp [EndsLine]

/-- C45: after any session, the server's documents are the editor's. -/
theorem C45_documents_partial (ns : List Notif) (d : Docs) (h : Session (fun _ => none) ns d) :
    notifyAll (fun _ => none) ns = some d := session h

example : ∃ d, Session (fun _ => none) [.didOpen ['u'] sample,
    .didChange ['u'] [⟨some (⟨0, 3⟩, ⟨1, 1⟩), ['z']⟩, ⟨none, ['q']⟩], .didClose ['v']] d ∧ d ['u'] = some ['q'] := by
  refine ⟨_, .opened (.changed (s := sample) (by simp) (.cons sample_plain (by decide)
    (.range (a := sample.take 2) (b := (sample.drop 2).take 4) (c := ['\n']) (t := ['z']) sample_at0 sample_at1)
    (.cons (by unfold PlainLines; decide) (by decide) .full .nil)) (.closed .nil)), by simp⟩

/-- C45: one change replaces the text between two positions and nothing else. -/
theorem C45_change_partial (s s' : Text) (ch : Change) (hs : PlainLines s) (h : Edits s ch s') :
    ∃ e, applyChange s ch = .ok s' e := applyChange_edits hs h

example : Edits sample ⟨some (⟨0, 3⟩, ⟨1, 1⟩), ['z']⟩ ['é', '😀', 'z', '\n'] :=
  .range (a := sample.take 2) (b := (sample.drop 2).take 4) (c := ['\n']) (t := ['z']) sample_at0 sample_at1

/-- C45 is false of texts with a vertical tab: what the editor appends, the server inserts before the last
character. -/
theorem C45_documents_violated :
    Edits ['a', Char.ofNat 0x0B, 'b'] ⟨some (⟨0, 3⟩, ⟨0, 3⟩), ['z']⟩ ['a', Char.ofNat 0x0B, 'b', 'z'] ∧
    ∃ e, applyChange ['a', Char.ofNat 0x0B, 'b'] ⟨some (⟨0, 3⟩, ⟨0, 3⟩), ['z']⟩ =
      .ok ['a', Char.ofNat 0x0B, 'z', 'b'] e := by
  constructor
  · have h : At ['a', Char.ofNat 0x0B, 'b'] 0 3 3 := by
      refine ⟨0, .zero, by omega, by decide, fun m _ h => ?_, by decide⟩
      have : m = 0 ∨ m = 1 ∨ m = 2 := by omega
      rcases this with rfl | rfl | rfl <;> simp [EndsLine]
    exact .range (a := ['a', Char.ofNat 0x0B, 'b']) (b := []) (c := []) (p := ⟨0, 3⟩) (q := ⟨0, 3⟩) h h
  · have e1 : offsetFromPosition ['a', Char.ofNat 0x0B, 'b'] 0 3 = some (some 2) := by decide
    have e2 : byteToChar ['a', Char.ofNat 0x0B, 'b'] 2 = 2 := by decide
    simp only [applyChange, e1, e2, splice]
    exact ⟨_, rfl⟩

/-- C46: the edit given to the incremental parser has the bytes and points of the change, in the parser's
own counting. -/
theorem C46_input_edit_partial (a b c t : Text) (p q : Position) (hs : PlainLines (a ++ b ++ c))
    (hcr : NoLoneCr (a ++ b ++ c)) (hb : bytes (a ++ b ++ c) < 2 ^ 32)
    (hp : At (a ++ b ++ c) p.line p.character a.length)
    (hq : At (a ++ b ++ c) q.line q.character (a.length + b.length)) :
    applyChange (a ++ b ++ c) ⟨some (p, q), t⟩ = .ok (a ++ t ++ c)
      (some ⟨bytes a, bytes (a ++ b), bytes (a ++ t), parserPoint a, parserPoint (a ++ b), parserPoint (a ++ t)⟩) := by
  rw [bytes_eq] at hb
  have ta : (a ++ b ++ c).take a.length = a := by simp
  have tb : (a ++ b ++ c).take (a.length + b.length) = a ++ b := by rw [← List.length_append, List.take_left]
  have e1 := byteLineCol_eq _ hs hcr hb a.length (at_le hp)
  have e2 := byteLineCol_eq _ hs hcr hb (a.length + b.length) (at_le hq)
  rw [ta] at e1
  rw [tb] at e2
  rw [applyChange_range hs hp hq, inputEdit, e1, e2, pointAfterText_eq]
  simp only [bytes_eq, lenBytes_append]

theorem sample_crlf : NoLoneCr sample := by
  intro i h
  have hi : i < 7 := (List.getElem?_eq_some_iff.mp h).1
  have : i = 0 ∨ i = 1 ∨ i = 2 ∨ i = 3 ∨ i = 4 ∨ i = 5 ∨ i = 6 := by omega
  rcases this with rfl | rfl | rfl | rfl | rfl | rfl | rfl <;> simp [sample] at h ⊢

example : parserPoint sample = ⟨2, 0⟩ ∧ parserPoint (sample.take 3) = ⟨0, 7⟩ := by decide

/-- C46 is false of texts with a carriage return of its own: the server counts a row the parser does
not. -/
theorem C46_input_edit_violated :
    ∃ e, applyChange ['a', '\r', 'b'] ⟨some (⟨1, 0⟩, ⟨1, 0⟩), ['z']⟩ = .ok ['a', '\r', 'z', 'b'] (some e) ∧
      e.startPoint = ⟨1, 0⟩ ∧ parserPoint ['a', '\r'] = ⟨0, 2⟩ := by
  have e1 : offsetFromPosition ['a', '\r', 'b'] 1 0 = some (some 2) := by decide
  have e2 : byteToChar ['a', '\r', 'b'] 2 = 2 := by decide
  refine ⟨inputEdit ['a', '\r', 'b'] 2 2 ['z'], ?_, by decide, by decide⟩
  simp only [applyChange, e1, e2, splice]
  rfl

/-- C47: the prefix offered for completion is the longest run of identifier characters before the cursor. -/
theorem C47_completion_prefix (isWord : Char → Bool) (a w b : Text) (hw : ∀ c ∈ w, isWord c = true)
    (ha : ∀ c, a.getLast? = some c → isWord c = false) :
    completionPrefix isWord (a ++ w ++ b) (bytes (a ++ w)) = w := by
  rw [bytes_eq]; exact completionPrefix_eq isWord a w b hw ha

example : completionPrefix (fun c => c.isAlphanum || c == '_' || c == 'é') ['x', ' ', 'é', 'b', '(', ')'] 5 = ['é', 'b'] := by
  decide

end Verif.LspPos
