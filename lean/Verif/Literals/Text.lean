import Verif.Literals.Proofs
/-!
# Lemmas about quoted texts
-/
namespace Verif.Literals

/-! ## Encoding -/

theorem utf8_nil : utf8 [] = [] := rfl
theorem utf8_cons (c : Char) (s : List Char) : utf8 (c :: s) = String.utf8EncodeChar c ++ utf8 s := List.flatMap_cons
theorem utf8_append (s t : List Char) : utf8 (s ++ t) = utf8 s ++ utf8 t := by simp [utf8]

theorem fromUtf8_utf8 (s : List Char) : fromUtf8 (utf8 s) = some s := by
  have h : ByteArray.mk (utf8 s).toArray = s.utf8Encode := by
    rw [List.utf8Encode, utf8]
    exact ByteArray.ext (by rw [List.data_toByteArray])
  rw [fromUtf8, h, List.utf8Decode?_utf8Encode]; rfl

theorem encode_ascii : ∀ n, n < 128 → String.utf8EncodeChar (Char.ofNat n) = [UInt8.ofNat n] ∧ (Char.ofNat n).toNat = n := by
  decide +kernel

theorem ofNat_toNat (c : Char) : Char.ofNat c.toNat = c := by simp

theorem encode_of_lt {c : Char} (h : c.toNat < 128) : String.utf8EncodeChar c = [UInt8.ofNat c.toNat] := by
  have := (encode_ascii c.toNat h).1
  rwa [ofNat_toNat] at this

theorem u8_toNat {n : Nat} (h : n < 256) : (UInt8.ofNat n).toNat = n := UInt8.toNat_ofNat_of_lt' h

/-- A byte 92 comes only from a backslash. -/
theorem encode_no_backslash {c : Char} (h : c ≠ '\\') : ∀ b ∈ String.utf8EncodeChar c, b ≠ 92 := by
  rintro b hb rfl
  by_cases hc : c.toNat < 128
  · rw [encode_of_lt hc, List.mem_singleton] at hb
    have h1 := congrArg UInt8.toNat hb
    rw [u8_toNat (by omega)] at h1
    exact h (by rw [← ofNat_toNat c, ← h1]; rfl)
  · have hv : ¬ c.val.toNat ≤ 0x7f := by
      have : c.toNat = c.val.toNat := rfl
      omega
    have key : ∀ x : Nat, 128 ≤ x → x < 256 → (92 : UInt8) = UInt8.ofNat x → False := by
      intro x h1 h2 h3
      have h4 := congrArg UInt8.toNat h3
      rw [u8_toNat h2] at h4
      have h5 : (92 : UInt8).toNat = 92 := rfl
      omega
    simp only [String.utf8EncodeChar, hv, if_false] at hb
    split at hb
    · simp only [List.mem_cons, List.not_mem_nil, or_false] at hb
      rcases hb with hb | hb <;> exact key _ (by omega) (by omega) hb
    split at hb
    · simp only [List.mem_cons, List.not_mem_nil, or_false] at hb
      rcases hb with hb | hb | hb <;> exact key _ (by omega) (by omega) hb
    · simp only [List.mem_cons, List.not_mem_nil, or_false] at hb
      rcases hb with hb | hb | hb | hb <;> exact key _ (by omega) (by omega) hb

/-! ## Hexadecimal digits -/

theorem hex_lt {c : Char} (h : HexDigit c) : c.toNat < 128 := by
  have := (alnum_iff c).mp h.1
  omega

theorem hex_encode {c : Char} (h : HexDigit c) : String.utf8EncodeChar c = [UInt8.ofNat c.toNat] := encode_of_lt (hex_lt h)

theorem hex_byteChar {c : Char} (h : HexDigit c) : byteChar (UInt8.ofNat c.toNat) = c := by
  have := hex_lt h
  rw [byteChar, u8_toNat (by omega), ofNat_toNat]

theorem number2_lt {h1 h2 : Char} (a : HexDigit h1) (b : HexDigit h2) : number 16 [h1, h2] < 256 := by
  have := a.2
  have := b.2
  simp only [number, List.foldl_cons, List.foldl_nil]
  omega

theorem number4_lt {h1 h2 h3 h4 : Char} (a : HexDigit h1) (b : HexDigit h2) (c : HexDigit h3) (d : HexDigit h4) :
    number 16 [h1, h2, h3, h4] < 65536 := by
  have := a.2
  have := b.2
  have := c.2
  have := d.2
  simp only [number, List.foldl_cons, List.foldl_nil]
  omega

theorem radix2 {h1 h2 : Char} (a : HexDigit h1) (b : HexDigit h2) (bound : Nat) (hb : 256 ≤ bound) :
    fromStrRadix 16 bound [h1, h2] = some (number 16 [h1, h2]) := by
  rw [fromStrRadix_eq 16 bound (by decide) (by omega) _ (by
    intro c hc; simp at hc; rcases hc with rfl | rfl <;> assumption) (by simp), if_pos]
  have := number2_lt a b
  omega

theorem radix4 {h1 h2 h3 h4 : Char} (a : HexDigit h1) (b : HexDigit h2) (c : HexDigit h3) (d : HexDigit h4) :
    fromStrRadix 16 (2 ^ 32) [h1, h2, h3, h4] = some (number 16 [h1, h2, h3, h4]) := by
  rw [fromStrRadix_eq 16 _ (by decide) (by decide) _ (by
    intro c hc; simp at hc; rcases hc with rfl | rfl | rfl | rfl <;> assumption) (by simp), if_pos]
  have := number4_lt a b c d
  omega

theorem charFromU32_eq (n : Nat) (h : n < 65536) :
    charFromU32 n = if 0xD800 ≤ n ∧ n ≤ 0xDFFF then none else some (Char.ofNat n) := by
  rw [charFromU32]
  by_cases h1 : 0xD800 ≤ n ∧ n ≤ 0xDFFF
  · rw [if_pos h1, if_neg]
    simp only [Nat.isValidChar]; omega
  · rw [if_neg h1, if_pos]
    simp only [Nat.isValidChar]; omega

/-! ## Escapes in expressions -/

theorem escapesLoop_fuel : ∀ (n m : Nat) (bs : List UInt8), bs.length ≤ n → bs.length ≤ m →
    escapesLoop n bs = escapesLoop m bs
  | 0, m, bs, h1, _ => by
    have : bs = [] := List.length_eq_zero_iff.mp (by omega)
    subst this
    cases m <;> rfl
  | n + 1, 0, bs, _, h2 => by
    have : bs = [] := List.length_eq_zero_iff.mp (by omega)
    subst this
    rfl
  | n + 1, m + 1, [], _, _ => rfl
  | n + 1, m + 1, b :: r, h1, h2 => by
    simp only [List.length_cons, Nat.add_le_add_iff_right] at h1 h2
    have ih : ∀ bs : List UInt8, bs.length ≤ r.length → escapesLoop n bs = escapesLoop m bs := fun bs h =>
      escapesLoop_fuel n m bs (by omega) (by omega)
    simp only [escapesLoop]
    split
    · rw [ih r (by omega)]
    · match r, ih with
      | [], _ => rfl
      | e :: r1, ih =>
        have e1 := ih r1 (by simp)
        have e2 := ih (e :: r1) (by simp)
        simp only [e1, e2]
        match r1, ih with
        | [], _ => rfl
        | [a], ih => rfl
        | [a, b], ih => simp only [ih [] (by simp)]
        | [a, b, c], ih => simp only [ih [c] (by simp)]
        | a :: b :: c :: d :: r2, ih =>
          simp only [ih (c :: d :: r2) (by simp only [List.length_cons]; omega),
            ih r2 (by simp only [List.length_cons]; omega)]

theorem processEscapes_nil : processEscapes [] = [] := rfl

theorem processEscapes_cons {b : UInt8} {r : List UInt8} (h : b ≠ 92) : processEscapes (b :: r) = b :: processEscapes r := by
  simp only [processEscapes, List.length_cons, escapesLoop, ne_eq, h, not_false_eq_true, if_true]

theorem processEscapes_copy (l r : List UInt8) (h : ∀ b ∈ l, b ≠ 92) : processEscapes (l ++ r) = l ++ processEscapes r := by
  induction l with
  | nil => rfl
  | cons b l ih =>
    rw [List.cons_append, processEscapes_cons (h b (by simp)), ih (fun x hx => h x (by simp [hx])), List.cons_append]

theorem loop_eq {n : Nat} {r : List UInt8} (h : r.length ≤ n) : escapesLoop n r = processEscapes r :=
  escapesLoop_fuel n r.length r h (Nat.le_refl _)

theorem processEscapes_escape {c : Char} (h : c ∈ ['n', 'r', 't', '0', '\\', '"']) (r : List UInt8) :
    processEscapes (utf8 ['\\', c] ++ r) = utf8 [escaped c] ++ processEscapes r := by
  have e : ∀ l : List UInt8, escapesLoop (l.length + 1) l = processEscapes l := fun l => loop_eq (by omega)
  simp only [List.mem_cons, List.not_mem_nil, or_false] at h
  rcases h with rfl | rfl | rfl | rfl | rfl | rfl
  · show escapesLoop (r.length + 2) (92 :: 110 :: r) = 10 :: _
    rw [← e]; rfl
  · show escapesLoop (r.length + 2) (92 :: 114 :: r) = 13 :: _
    rw [← e]; rfl
  · show escapesLoop (r.length + 2) (92 :: 116 :: r) = 9 :: _
    rw [← e]; rfl
  · show escapesLoop (r.length + 2) (92 :: 48 :: r) = 0 :: _
    rw [← e]; rfl
  · show escapesLoop (r.length + 2) (92 :: 92 :: r) = 92 :: _
    rw [← e]; rfl
  · show escapesLoop (r.length + 2) (92 :: 34 :: r) = 34 :: _
    rw [← e]; rfl

theorem processEscapes_hex {h1 h2 : Char} (a : HexDigit h1) (b : HexDigit h2) (r : List UInt8) :
    processEscapes (utf8 ['\\', 'x', h1, h2] ++ r) = UInt8.ofNat (number 16 [h1, h2]) :: processEscapes r := by
  have : utf8 ['\\', 'x', h1, h2] = [92, 120, UInt8.ofNat h1.toNat, UInt8.ofNat h2.toNat] := by
    simp only [utf8_cons, utf8_nil, hex_encode a, hex_encode b, List.append_nil]; rfl
  rw [this, ← radix2_val a b, ← loop_eq (n := r.length + 3) (r := r) (by omega)]
  conv => rhs; rw [← hex_byteChar a, ← hex_byteChar b]
  rfl
where
  radix2_val {h1 h2 : Char} (a : HexDigit h1) (b : HexDigit h2) :
      (fromStrRadix 16 (2 ^ 8) [h1, h2]).getD 0 = number 16 [h1, h2] := by
    rw [radix2 a b _ (by decide)]; rfl

theorem processEscapes_unicode {h1 h2 h3 h4 : Char} (a : HexDigit h1) (b : HexDigit h2) (c : HexDigit h3) (d : HexDigit h4)
    (r : List UInt8) : processEscapes (utf8 ['\\', 'u', h1, h2, h3, h4] ++ r) =
      utf8 (Piece.unicode h1 h2 h3 h4).chars ++ processEscapes r := by
  have e : utf8 ['\\', 'u', h1, h2, h3, h4] =
      [92, 117, UInt8.ofNat h1.toNat, UInt8.ofNat h2.toNat, UInt8.ofNat h3.toNat, UInt8.ofNat h4.toNat] := by
    simp only [utf8_cons, utf8_nil, hex_encode a, hex_encode b, hex_encode c, hex_encode d, List.append_nil]; rfl
  rw [e, processEscapes]
  simp only [List.cons_append, List.nil_append, List.length_cons]
  rw [escapesLoop]
  simp only [show ¬ ((92 : UInt8) ≠ 92) by decide, if_false, show ¬ ((117 : UInt8) = 110) by decide,
    show ¬ ((117 : UInt8) = 114) by decide, show ¬ ((117 : UInt8) = 116) by decide, show ¬ ((117 : UInt8) = 48) by decide,
    show ¬ ((117 : UInt8) = 92) by decide, show ¬ ((117 : UInt8) = 34) by decide, show ¬ ((117 : UInt8) = 120) by decide,
    if_true, hex_byteChar a, hex_byteChar b, hex_byteChar c, hex_byteChar d, radix4 a b c d, Option.bind_some,
    charFromU32_eq _ (number4_lt a b c d), Piece.chars]
  by_cases hs : 0xD800 ≤ number 16 [h1, h2, h3, h4] ∧ number 16 [h1, h2, h3, h4] ≤ 0xDFFF
  · simp only [if_pos hs]
    exact loop_eq (by omega)
  · simp only [if_neg hs]
    rw [loop_eq (by omega), utf8_cons, utf8_nil, List.append_nil]

theorem processEscapes_piece (p : Piece) (h : p.Ok) (r : List UInt8) :
    processEscapes (utf8 p.text ++ r) = p.bytes ++ processEscapes r := by
  cases p with
  | char c =>
    rw [Piece.text, utf8_cons, utf8_nil, List.append_nil, processEscapes_copy _ _ (encode_no_backslash h.2)]
    simp [Piece.bytes, Piece.chars]
  | escape c => exact processEscapes_escape h r
  | hex h1 h2 => exact processEscapes_hex h.1 h.2 r
  | unicode h1 h2 h3 h4 => exact processEscapes_unicode h.1 h.2.1 h.2.2.1 h.2.2.2 r

theorem processEscapes_written (ps : List Piece) (h : ∀ p ∈ ps, p.Ok) :
    processEscapes (utf8 (written ps)) = ps.flatMap Piece.bytes := by
  induction ps with
  | nil => rfl
  | cons p ps ih =>
    rw [written, List.flatMap_cons, utf8_append, processEscapes_piece p (h p (by simp)), List.flatMap_cons]
    congr 1
    exact ih (fun q hq => h q (by simp [hq]))

theorem bytes_ascii (p : Piece) (ha : p.Ascii) : p.bytes = utf8 p.chars := by
  cases p with
  | hex h1 h2 =>
    rw [Piece.bytes, Piece.chars, utf8_cons, utf8_nil, List.append_nil, (encode_ascii _ ha).1]
  | _ => rfl

theorem bytes_chars (ps : List Piece) (ha : ∀ p ∈ ps, p.Ascii) : ps.flatMap Piece.bytes = utf8 (ps.flatMap Piece.chars) := by
  induction ps with
  | nil => rfl
  | cons p ps ih =>
    rw [List.flatMap_cons, List.flatMap_cons, utf8_append, ih (fun q hq => ha q (by simp [hq])), bytes_ascii p (ha p (by simp))]

/-! ## Escapes in patterns -/

theorem unescape_cons (n : Nat) (c : Char) (r : List Char) : unescape (n + 1) (c :: r) =
    (if c ≠ '\\' then c :: unescape n r
    else
      match r with
      | [] => []
      | e :: r1 =>
        if e = 'n' then '\n' :: unescape n r1
        else if e = 'r' then '\r' :: unescape n r1
        else if e = 't' then '\t' :: unescape n r1
        else if e = '\\' then '\\' :: unescape n r1
        else if e = '"' then '"' :: unescape n r1
        else if e = '0' then Char.ofNat 0 :: unescape n r1
        else if e = 'x' then
          match fromStrRadix 16 (2 ^ 8) (r1.take 2) with
          | some v => Char.ofNat v :: unescape n (r1.drop 2)
          | none => unescape n (r1.drop 2)
        else if e = 'u' then
          if r1.head? = some '{' then
            let hex := (r1.drop 1).takeWhile (· != '}')
            match (fromStrRadix 16 (2 ^ 32) hex).bind charFromU32 with
            | some ch => ch :: unescape n ((r1.drop 1).drop (hex.length + 1))
            | none => unescape n ((r1.drop 1).drop (hex.length + 1))
          else
            match (fromStrRadix 16 (2 ^ 32) (r1.take 4)).bind charFromU32 with
            | some ch => ch :: unescape n (r1.drop 4)
            | none => unescape n (r1.drop 4)
        else e :: unescape n r1) := rfl

theorem unescape_fuel : ∀ (n m : Nat) (s : List Char), s.length ≤ n → s.length ≤ m → unescape n s = unescape m s
  | 0, m, s, h1, _ => by
    have : s = [] := List.length_eq_zero_iff.mp (by omega)
    subst this
    cases m <;> rfl
  | n + 1, 0, s, _, h2 => by
    have : s = [] := List.length_eq_zero_iff.mp (by omega)
    subst this
    rfl
  | n + 1, m + 1, [], _, _ => rfl
  | n + 1, m + 1, c :: r, h1, h2 => by
    simp only [List.length_cons, Nat.add_le_add_iff_right] at h1 h2
    have ih : ∀ s : List Char, s.length ≤ r.length → unescape n s = unescape m s := fun s h =>
      unescape_fuel n m s (by omega) (by omega)
    rw [unescape_cons, unescape_cons]
    by_cases hc : c ≠ '\\'
    · rw [if_pos hc, if_pos hc, ih r (by omega)]
    · rw [if_neg hc, if_neg hc]
      match r, ih with
      | [], _ => rfl
      | e :: r1, ih =>
        have e1 := ih r1 (by simp)
        have e2 := ih (r1.drop 2) (by simp only [List.length_drop, List.length_cons]; omega)
        have e3 := ih (r1.drop 4) (by simp only [List.length_drop, List.length_cons]; omega)
        have e4 := ih ((r1.drop 1).drop (((r1.drop 1).takeWhile (· != '}')).length + 1)) (by
          simp only [List.length_drop, List.length_cons]; omega)
        simp only [e1, e2, e3, e4]

theorem unescape_ge {n : Nat} {s : List Char} (h : s.length ≤ n) : unescape n s = unescape s.length s :=
  unescape_fuel n s.length s h (Nat.le_refl _)

theorem unescape_escape {c : Char} (h : c ∈ ['n', 'r', 't', '0', '\\', '"']) (n : Nat) (r : List Char) :
    unescape (n + 1) ('\\' :: c :: r) = escaped c :: unescape n r := by
  simp only [List.mem_cons, List.not_mem_nil, or_false] at h
  rcases h with rfl | rfl | rfl | rfl | rfl | rfl <;> rfl

theorem ofNat_hex (n : Nat) : Char.ofNat n = Char.ofNat n := rfl

theorem hex_ne_brace {c : Char} (h : HexDigit c) : c ≠ '{' := by
  rintro rfl; exact absurd h.1 (by decide)

theorem unescape_piece (p : Piece) (h : p.Ok) (n : Nat) (r : List Char) :
    unescape (n + 1) (p.text ++ r) = p.chars ++ unescape n r := by
  cases p with
  | char c => simp only [Piece.text, List.cons_append, List.nil_append, unescape, ne_eq, h.2, not_false_eq_true, if_true, Piece.chars]
  | escape c => exact unescape_escape h n r
  | hex h1 h2 =>
    have e : unescape (n + 1) ((Piece.hex h1 h2).text ++ r) = (match fromStrRadix 16 (2 ^ 8) [h1, h2] with
      | some m => Char.ofNat m :: unescape n r
      | none => unescape n r) := rfl
    rw [e, radix2 h.1 h.2 _ (by decide)]
    rfl
  | unicode h1 h2 h3 h4 =>
    obtain ⟨a, b, c, d⟩ := h
    have e : unescape (n + 1) ((Piece.unicode h1 h2 h3 h4).text ++ r) =
        (if some h1 = some '{' then
            let hex := (h2 :: h3 :: h4 :: r).takeWhile (· != '}')
            match (fromStrRadix 16 (2 ^ 32) hex).bind charFromU32 with
            | some ch => ch :: unescape n ((h2 :: h3 :: h4 :: r).drop (hex.length + 1))
            | none => unescape n ((h2 :: h3 :: h4 :: r).drop (hex.length + 1))
          else match (fromStrRadix 16 (2 ^ 32) [h1, h2, h3, h4]).bind charFromU32 with
      | some ch => ch :: unescape n r
      | none => unescape n r) := rfl
    rw [e, if_neg (by intro h; exact hex_ne_brace a (Option.some.inj h)), radix4 a b c d, Option.bind_some,
      charFromU32_eq _ (number4_lt a b c d), Piece.chars]
    by_cases hs : 0xD800 ≤ number 16 [h1, h2, h3, h4] ∧ number 16 [h1, h2, h3, h4] ≤ 0xDFFF
    · simp only [if_pos hs]; rfl
    · simp only [if_neg hs]; rfl

theorem text_length (p : Piece) : 1 ≤ p.text.length := by
  cases p <;> simp [Piece.text]

theorem unescape_written (ps : List Piece) (h : ∀ p ∈ ps, p.Ok) :
    unescape (written ps).length (written ps) = ps.flatMap Piece.chars := by
  induction ps with
  | nil => rfl
  | cons p ps ih =>
    have e : written (p :: ps) = p.text ++ written ps := List.flatMap_cons
    have hl := text_length p
    rw [e, List.length_append, show p.text.length + (written ps).length = (p.text.length - 1 + (written ps).length) + 1 by omega,
      unescape_piece p (h p (by simp)), List.flatMap_cons, unescape_ge (by omega), ih (fun q hq => h q (by simp [hq]))]

/-! ## Delimiters -/

theorem trim_ends (a b : Char) (s : List Char) (ha : isWhitespace a = false) (hb : isWhitespace b = false) :
    trim (a :: s ++ [b]) = a :: s ++ [b] := by
  refine trim_eq _ (fun c h => ?_) (fun c h => ?_)
  · simp at h; subst h; exact ha
  · rw [List.getLast?_append] at h
    simp at h; subst h; exact hb

theorem slice_mid (pre s suf : List Char) : slice (pre ++ s ++ suf) pre.length (pre.length + s.length) = s := by
  rw [slice, ← List.length_append, List.take_left, List.drop_left]

end Verif.Literals
