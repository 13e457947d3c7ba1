import Verif.IrText.Spec
import Mathlib.Tactic.Tauto
/-!
# Lemmas on words, numbers and quoted texts
-/
namespace Verif.IrText

theorem char_eq {c d : Char} (h : c.toNat = d.toNat) : c = d := by
  apply Char.ext; apply UInt32.toNat_inj.mp; exact h

/-! ## Digits -/

theorem digit_isDigit {d : Nat} (h : d < 10) : (Char.ofNat (48 + d)).isDigit = true := by
  have : ∀ d, d < 10 → (Char.ofNat (48 + d)).isDigit = true := by decide
  exact this d h

theorem digit_val {d : Nat} (h : d < 10) : (Char.ofNat (48 + d)).toNat - 48 = d := by
  have : ∀ d, d < 10 → (Char.ofNat (48 + d)).toNat - 48 = d := by decide
  exact this d h

theorem digits_spec : ∀ n, (∀ c ∈ digits n, c.isDigit = true) ∧ digits n ≠ [] ∧ decimal (digits n) = n ∧
    ((digits n).head? = some '0' → n = 0) := by
  intro n
  induction n using Nat.strongRecOn with
  | ind n ih =>
    rw [digits]
    split
    · rename_i h
      refine ⟨by simpa using digit_isDigit h, by simp, by simp [decimal, digit_val h], ?_⟩
      have : ∀ d, d < 10 → Char.ofNat (48 + d) = '0' → d = 0 := by decide
      simpa using this n h
    · rename_i h
      obtain ⟨h1, h2, h3, h4⟩ := ih (n / 10) (by omega)
      have hm : n % 10 < 10 := Nat.mod_lt _ (by decide)
      refine ⟨?_, by simp, ?_, ?_⟩
      · intro c hc
        rcases List.mem_append.mp hc with hc | hc
        · exact h1 c hc
        · simp only [List.mem_singleton] at hc; rw [hc]; exact digit_isDigit hm
      · simp only [decimal, List.foldl_append, List.foldl_cons, List.foldl_nil] at h3 ⊢
        rw [h3, digit_val hm]; omega
      · intro hh
        obtain ⟨c, cs, hcs⟩ := List.exists_cons_of_ne_nil h2
        rw [hcs] at hh h4
        have := h4 (by simpa using hh)
        omega

theorem isDigit_word {c : Char} (h : c.isDigit = true) : isWordChar c = true := by
  simp [isWordChar, Char.isAlphanum, h]

theorem wordStart_word {c : Char} (h : isWordStart c = true) : isWordChar c = true := by
  simp only [isWordStart, isWordChar, Char.isAlphanum, Bool.or_eq_true] at *
  tauto

/-! ## Taking words -/

theorem takeWhile_append {f : Char → Bool} : ∀ {a b : List Char}, (∀ c ∈ a, f c = true) →
    (∀ c, b.head? = some c → f c = false) →
    (a ++ b).takeWhile f = a ∧ (a ++ b).dropWhile f = b
  | [], b, _, hb => by
    cases b with
    | nil => exact ⟨rfl, rfl⟩
    | cons c b => simp [hb c rfl]
  | c :: a, b, ha, hb => by
    obtain ⟨h1, h2⟩ := takeWhile_append (a := a) (fun x hx => ha x (List.mem_cons_of_mem _ hx)) hb
    have hc := ha c List.mem_cons_self
    simp [hc, h1, h2]

theorem takeWhile1_append {f : Char → Bool} {a b : List Char} (hne : a ≠ []) (ha : ∀ c ∈ a, f c = true)
    (hb : ∀ c, b.head? = some c → f c = false) : takeWhile1 f (a ++ b) = some (a, b) := by
  obtain ⟨h1, h2⟩ := takeWhile_append ha hb
  rw [takeWhile1, h1, h2, if_neg (by simpa using hne)]

theorem takeWhile1_none {f : Char → Bool} {b : List Char} (hb : ∀ c, b.head? = some c → f c = false) :
    takeWhile1 f b = none := by
  have := (takeWhile_append (a := []) (b := b) (f := f) (by simp) hb).1
  rw [List.nil_append] at this
  rw [takeWhile1, this]; rfl

theorem ident_append {w b : List Char} (hw : Word w) (hb : ∀ c, b.head? = some c → isWordChar c = false) :
    ident (w ++ b) = some (w, b) := by
  cases w with
  | nil => cases hw
  | cons c w =>
    obtain ⟨h1, h2⟩ := takeWhile_append hw.2 hb
    rw [List.cons_append, ident, if_pos hw.1, h1, h2]

theorem word_all {w : List Char} (hw : Word w) : ∀ c ∈ w, isWordChar c = true := by
  cases w with
  | nil => cases hw
  | cons c w =>
    intro x hx
    rcases List.mem_cons.mp hx with rfl | hx
    · exact wordStart_word hw.1
    · exact hw.2 x hx

theorem word_ne {w : List Char} (hw : Word w) : w ≠ [] := by rintro rfl; exact hw

theorem qualified_append {d n b : List Char} (hd : Word d) (hn : Word n)
    (hb : ∀ c, b.head? = some c → isWordChar c = false) :
    qualifiedName (d ++ '.' :: n ++ b) = some ((d, n), b) := by
  rw [qualifiedName, List.append_assoc, ident_append hd (by intro c hc; simp at hc; subst hc; decide)]
  simp [chr, ident_append hn hb]

/-! ## Whitespace -/

theorem ws_cons {c : Char} {s : List Char} (h : isSpace c = false) : ws (c :: s) = c :: s := by
  simp [ws, h]

theorem ws_space (s : List Char) : ws (' ' :: s) = ws s := by
  rw [ws, List.dropWhile_cons]
  rfl

theorem isSpace_word {c : Char} (h : isWordChar c = true) : isSpace c = false := by
  cases hs : isSpace c with
  | false => rfl
  | true =>
    simp only [isSpace, Bool.or_eq_true, beq_iff_eq] at hs
    rcases hs with (((rfl | rfl) | rfl) | h12) | rfl
    · revert h; decide
    · revert h; decide
    · revert h; decide
    · rw [show c = Char.ofNat 12 from char_eq h12] at h; revert h; decide
    · revert h; decide

/-! ## Quoted text -/

theorem hex_roundtrip : ∀ n, n < 256 → hexByte (hexDigit (n / 16)) (hexDigit (n % 16)) = some (UInt8.ofNat n) := by
  decide +kernel

theorem control_lt {c : Char} (h : isControl c = true) : c.toNat < 256 := by
  simp [isControl] at h; omega

theorem stringBody_char (c : Char) (r : List Char) :
    stringBody (escapeChar c ++ r) = (stringBody r).map fun x => (c :: x.1, x.2) := by
  unfold escapeChar
  split
  · rename_i h; subst h; simp [stringBody]
  split
  · rename_i h; subst h; simp [stringBody]
  split
  · rename_i h; subst h; simp [stringBody]
  split
  · rename_i h; subst h; simp [stringBody]
  split
  · rename_i h; subst h; simp [stringBody]
  split
  · rename_i h; subst h; simp [stringBody]
  split
  · rename_i h
    have hlt := control_lt h
    simp only [hexEscape, List.cons_append, List.nil_append, stringBody, hex_roundtrip _ hlt]
    have : Char.ofNat (UInt8.ofNat c.toNat).toNat = c := by
      rw [UInt8.toNat_ofNat', Nat.mod_eq_of_lt hlt, Char.ofNat_toNat]
    rw [this]
  · rename_i h1 h2 _ _ _ _ _
    rw [List.cons_append, List.nil_append]
    rw [stringBody]
    · intro h; exact h2 h
    all_goals (intros; simp_all)

theorem stringBody_escape : ∀ (s r : List Char), stringBody (escapeString s ++ '"' :: r) = some (s, r)
  | [], r => by simp [escapeString, stringBody]
  | c :: s, r => by
    have ih := stringBody_escape s r
    rw [escapeString, List.flatMap_cons, List.append_assoc, stringBody_char, ← escapeString, ih]
    rfl

theorem stringLit_quoted (s r : List Char) : stringLit (quoted s ++ r) = some (s, r) := by
  simp [quoted, stringLit, chr, stringBody_escape]

theorem escapeByte_roundtrip (b : UInt8) : ∀ (n : Nat) (r : List Char),
    bytesContent (n + 1) (escapeByte b ++ r) = (b :: (bytesContent n r).1, (bytesContent n r).2) := by
  have hp : ∀ n, n < 256 → 0x20 ≤ n ∧ n ≤ 0x7e → (Char.ofNat n).toNat = n ∧
      String.utf8EncodeChar (Char.ofNat n) = [UInt8.ofNat n] := by decide +kernel
  intro n r
  unfold escapeByte
  split
  · rename_i h; subst h; simp [bytesContent, byteEscape]
  split
  · rename_i h; subst h; simp [bytesContent, byteEscape]
  split
  · rename_i h; subst h; simp [bytesContent, byteEscape]
  split
  · rename_i h; subst h; simp [bytesContent, byteEscape]
  split
  · rename_i h; subst h; simp [bytesContent, byteEscape]
  split
  · rename_i h; subst h; simp [bytesContent, byteEscape]
  split
  · rename_i h1 h2 _ _ _ _ h
    have hb : 0x20 ≤ b.toNat ∧ b.toNat ≤ 0x7e :=
      ⟨by simpa using UInt8.le_iff_toNat_le.mp h.1, by simpa using UInt8.le_iff_toNat_le.mp h.2⟩
    obtain ⟨e1, e2⟩ := hp b.toNat b.toNat_lt hb
    have n1 : Char.ofNat b.toNat ≠ '\\' := by
      intro he; rw [he] at e1
      exact h1 (UInt8.toNat_inj.mp (by rw [← e1]; rfl))
    have n2 : Char.ofNat b.toNat ≠ '"' := by
      intro he; rw [he] at e1
      exact h2 (UInt8.toNat_inj.mp (by rw [← e1]; rfl))
    rw [List.cons_append, List.nil_append, bytesContent, if_neg n1, if_neg n2, e2]
    simp
  · have hx := hex_roundtrip b.toNat b.toNat_lt
    simp [hexEscape, bytesContent, byteEscape, hx]

theorem escapeByte_length (b : UInt8) : 1 ≤ (escapeByte b).length := by
  unfold escapeByte hexEscape
  repeat' split
  all_goals simp

theorem bytesContent_escape : ∀ (bs : List UInt8) (n : Nat) (r : List Char), bs.length < n →
    bytesContent n (escapeBytes bs ++ '"' :: r) = (bs, '"' :: r)
  | [], n, r, h => by
    obtain ⟨m, rfl⟩ : ∃ m, n = m + 1 := ⟨n - 1, by simp at h; omega⟩
    simp [escapeBytes, bytesContent]
  | b :: bs, n, r, h => by
    obtain ⟨m, rfl⟩ : ∃ m, n = m + 1 := ⟨n - 1, by simp at h; omega⟩
    have ih := bytesContent_escape bs m r (by simp at h; omega)
    rw [escapeBytes, List.flatMap_cons, List.append_assoc, escapeByte_roundtrip, ← escapeBytes, ih]

theorem escapeBytes_length : ∀ bs : List UInt8, bs.length ≤ (escapeBytes bs).length
  | [] => by simp [escapeBytes]
  | b :: bs => by
    have h1 := escapeByte_length b
    have h2 := escapeBytes_length bs
    rw [escapeBytes, List.flatMap_cons, ← escapeBytes, List.length_append, List.length_cons]
    omega

theorem bytesLit_print (bs : List UInt8) (r : List Char) :
    bytesLit ('b' :: '"' :: escapeBytes bs ++ ['"'] ++ r) = some (bs, r) := by
  have hl : bs.length < (escapeBytes bs ++ '"' :: r).length := by
    have := escapeBytes_length bs
    simp; omega
  have hb := bytesContent_escape bs _ r hl
  rw [show 'b' :: '"' :: escapeBytes bs ++ ['"'] ++ r = 'b' :: '"' :: (escapeBytes bs ++ '"' :: r) from by simp]
  simp only [bytesLit, chr, if_true, Option.bind_some, hb]

/-! ## Names and numbers -/

theorem printName_quoted {s : List Char} (h : s = [] ∨ ∃ c ∈ s, isWordChar c = false) :
    printName s = quoted s := by
  rw [printName, if_pos]
  rcases h with rfl | ⟨c, hc, h⟩
  · rfl
  · simp only [Bool.or_eq_true, Bool.not_eq_true']
    right
    cases hs : s.all isWordChar with
    | false => rfl
    | true => rw [List.all_eq_true] at hs; rw [hs c hc] at h; cases h

theorem printName_bare {s : List Char} (h1 : s ≠ []) (h2 : ∀ c ∈ s, isWordChar c = true) : printName s = s := by
  rw [printName, if_neg]
  have : s.all isWordChar = true := List.all_eq_true.mpr h2
  simp [h1, this]

theorem quoted_or_bare (s : List Char) :
    (printName s = quoted s) ∨ (printName s = s ∧ s ≠ [] ∧ ∀ c ∈ s, isWordChar c = true) := by
  by_cases h : s = [] ∨ ∃ c ∈ s, isWordChar c = false
  · exact Or.inl (printName_quoted h)
  · simp only [not_or, not_exists, not_and, Bool.not_eq_false] at h
    exact Or.inr ⟨printName_bare h.1 h.2, h.1, h.2⟩

theorem symbolRef_print (s r : List Char) (hr : ∀ c, r.head? = some c → isWordChar c = false) :
    symbolRef (printSymbol s ++ r) = some (s, r) := by
  rcases quoted_or_bare s with h | ⟨h, hne, hall⟩
  · have := stringLit_quoted s r
    rw [printSymbol, h]
    simp only [symbolRef, List.cons_append, chr, if_true, Option.bind_some]
    rw [if_pos (by simp [quoted]), this]
  · rw [printSymbol, h]
    simp only [symbolRef, List.cons_append, chr, if_true, Option.bind_some]
    rw [if_neg, takeWhile1_append hne hall hr]
    obtain ⟨c, cs, rfl⟩ := List.exists_cons_of_ne_nil hne
    simp only [List.cons_append, List.head?_cons, Option.some.injEq]
    rintro rfl
    have := hall '"' List.mem_cons_self
    revert this; decide

theorem aliasName_print (s r : List Char) (hs : AliasName s)
    (hr : ∀ c, r.head? = some c → isWordChar c = false) :
    aliasName (printName s ++ r) = some (s, r) := by
  rcases quoted_or_bare s with h | ⟨h, hne, hall⟩
  · rw [h, aliasName, if_pos (by simp [quoted]), stringLit_quoted]
  · obtain ⟨c, cs, rfl⟩ := List.exists_cons_of_ne_nil hne
    have hw : Word (c :: cs) := ⟨hs hall c rfl, fun x hx => hall x (List.mem_cons_of_mem _ hx)⟩
    rw [h, aliasName, if_neg, ident_append hw hr]
    simp only [List.cons_append, List.head?_cons, Option.some.injEq]
    rintro rfl
    have := hall '"' List.mem_cons_self
    revert this; decide

theorem stop_digit {r : List Char} (hr : ∀ c, r.head? = some c → isWordChar c = false) :
    ∀ c, r.head? = some c → c.isDigit = false := by
  intro c hc
  cases hd : c.isDigit with
  | false => rfl
  | true => exact absurd (hr c hc) (by simp [isDigit_word hd])

theorem head_ne_dash {n : Nat} {r : List Char} : (digits n ++ r).head? ≠ some '-' := by
  obtain ⟨h1, h2, _⟩ := digits_spec n
  obtain ⟨c, cs, hcs⟩ := List.exists_cons_of_ne_nil h2
  rw [hcs]
  simp only [List.cons_append, List.head?_cons, ne_eq, Option.some.injEq]
  rintro rfl
  have := h1 '-' (by rw [hcs]; exact List.mem_cons_self)
  revert this; decide

theorem integerLit_print (v : Int) (h1 : -2 ^ 127 ≤ v) (h2 : v < 2 ^ 127) (r : List Char)
    (hr : ∀ c, r.head? = some c → isWordChar c = false) :
    integerLit (printInt v ++ r) = some (v, r) := by
  obtain ⟨d1, d2, d3, _⟩ := digits_spec v.natAbs
  have ht := takeWhile1_append d2 d1 (stop_digit hr)
  unfold printInt
  split
  · simp only [integerLit, List.cons_append, List.head?_cons, if_true, List.drop_succ_cons, List.drop_zero, ht,
      Option.bind_some, d3]
    rw [if_pos (by omega), if_neg (by omega)]
    congr 2; omega
  · have hd := head_ne_dash (n := v.natAbs) (r := r)
    simp only [integerLit, hd, if_false, ht, Option.bind_some, d3]
    rw [if_pos (by omega), if_pos (by omega)]
    congr 2; omega

theorem decUint_print (n : Nat) (hn : n < 2 ^ 64) (r : List Char)
    (hr : ∀ c, r.head? = some c → isWordChar c = false) :
    decUint (digits n ++ r) = some (n, r) := by
  obtain ⟨d1, d2, d3, d4⟩ := digits_spec n
  have ht := takeWhile1_append d2 d1 (stop_digit hr)
  by_cases h0 : n = 0
  · subst h0
    rw [digits]; simp [decUint]
  · obtain ⟨c, cs, hcs⟩ := List.exists_cons_of_ne_nil d2
    have hc : c ≠ '0' := by rintro rfl; exact h0 (d4 (by rw [hcs]; rfl))
    rw [decUint]
    · rw [ht, Option.bind_some, d3, if_pos hn]
    · intro r' he; rw [hcs] at he; cases he; exact hc rfl

end Verif.IrText
