import Verif.IntText.Spec
import Verif.Rope.Props
namespace Verif.IntText

open Verif.Bytes (Byte Fault sext32 sext8)
open Verif.Rope (Str bytesLen bytesLen_toNat)

/-- Longest text each target can index. -/
def maxText : Target → Nat
  | .native => 2 ^ 31
  | .wasm => 2 ^ 32

theorem maxText_le (t : Target) : maxText t ≤ 2 ^ 32 := by cases t <;> decide

/-- Extension of a byte to a `Nat` on each target. -/
def ext : Target → Byte → UInt32
  | .native => sext8
  | .wasm => fun b => UInt32.ofNat b.toNat

theorem byteAt_ok (t : Target) {bytes : List Byte} {i : UInt32} (h : i.toNat < bytes.length)
    (hl : bytes.length ≤ maxText t) : byteAt t bytes i = .ok (ext t bytes[i.toNat]) := by
  cases t with
  | native =>
    have hi : i.toNat < 2 ^ 31 := by simp only [maxText] at hl; omega
    have hs : sext32 i = i.toNat := by rw [sext32, if_pos hi]
    simp only [byteAt, hs]
    rw [if_neg (by omega)]
    simp [h, ext]
  | wasm =>
    simp [byteAt, h, ext]

theorem ext_toNat (t : Target) (b : Byte) :
    (b.toNat < 128 → (ext t b).toNat = b.toNat) ∧ (128 ≤ b.toNat → 128 ≤ (ext t b).toNat) := by
  have hb := UInt8.toNat_lt b
  cases t with
  | native =>
    simp only [ext, sext8]
    constructor
    · intro h; rw [if_pos h]; simp <;> omega
    · intro h; rw [if_neg (by omega)]; simp <;> omega
  | wasm => simp only [ext]; simp <;> omega

theorem digit_spec (t : Target) (b : Byte) :
    (IsDigit b → digitOrInvalid (ext t b) = ((b.toNat - 48 : Nat) : Int)) ∧
    (¬ IsDigit b → digitOrInvalid (ext t b) = -1) := by
  obtain ⟨h1, h2⟩ := ext_toNat t b
  have hb := UInt8.toNat_lt b
  generalize hx : (ext t b).toNat = x at h1 h2
  simp only [digitOrInvalid, hx, IsDigit]
  generalize b.toNat = y at *
  constructor
  · rintro ⟨l, u⟩
    have := h1 (by omega)
    subst this
    have : x = 48 ∨ x = 49 ∨ x = 50 ∨ x = 51 ∨ x = 52 ∨ x = 53 ∨ x = 54 ∨ x = 55 ∨ x = 56 ∨ x = 57 := by
      omega
    rcases this with rfl | rfl | rfl | rfl | rfl | rfl | rfl | rfl | rfl | rfl <;> rfl
  · intro h
    have hx : ¬ (48 ≤ x ∧ x ≤ 57) := by
      by_cases hlt : y < 128
      · rw [h1 hlt]; exact h
      · have := h2 (by omega); omega
    split <;> first | rfl | omega

/-- Digit folding from an accumulator. -/
def acc (ds : List Byte) (a : Nat) : Nat := ds.foldl (fun acc b => acc * 10 + (b.toNat - 48)) a

theorem acc_ge (ds : List Byte) (a : Nat) : a ≤ acc ds a := by
  induction ds generalizing a with
  | nil => exact Nat.le_refl _
  | cons b ds ih =>
    have := ih (a * 10 + (b.toNat - 48))
    simp only [acc, List.foldl_cons] at this ⊢
    omega

/-- Largest magnitude for a sign. -/
def limit : Bool → Nat
  | true => 2147483648
  | false => 2147483647

def signed : Bool → Nat → Int
  | true, a => -(a : Int)
  | false, a => a

theorem stepOverflows_spec {a d : Nat} {neg : Bool} (hd : d ≤ 9) :
    stepOverflows (signed neg a) d neg = decide (limit neg < a * 10 + d) := by
  rw [Bool.eq_iff_iff, decide_eq_true_iff]
  cases neg with
  | true =>
    have hs : signed true a = -(a : Int) := rfl
    have hl : limit true = 2147483648 := rfl
    rw [hl]
    generalize signed true a = v at hs
    simp only [stepOverflows]
    split
    · simp; omega
    · split
      · rw [decide_eq_true_iff]; omega
      · simp; omega
  | false =>
    have hs : signed false a = (a : Int) := rfl
    have hl : limit false = 2147483647 := rfl
    rw [hl]
    generalize signed false a = v at hs
    simp only [stepOverflows]
    split
    · simp; omega
    · split
      · rw [decide_eq_true_iff]; omega
      · simp; omega

theorem wrap_eq {x : Int} (h1 : -2147483648 ≤ x) (h2 : x < 2147483648) : wrap x = x := by
  rw [wrap, Int.bmod_eq_of_le (by omega) (by omega)]

theorem next_spec {a d : Nat} {neg : Bool} (hd : d ≤ 9) (h : a * 10 + d ≤ limit neg) :
    (if neg then wrap (wrap (signed neg a * 10) - d) else wrap (wrap (signed neg a * 10) + d))
      = signed neg (a * 10 + d) := by
  cases neg with
  | true =>
    have hs : ∀ a, signed true a = -(a : Int) := fun _ => rfl
    have hl : limit true = 2147483648 := rfl
    rw [hl] at h
    rw [if_pos rfl, hs, hs, wrap_eq (x := -(a : Int) * 10) (by omega) (by omega),
      wrap_eq (by omega) (by omega)]
    omega
  | false =>
    have hs : ∀ a, signed false a = (a : Int) := fun _ => rfl
    have hl : limit false = 2147483647 := rfl
    rw [hl] at h
    rw [if_neg (by decide), hs, hs, wrap_eq (x := (a : Int) * 10) (by omega) (by omega),
      wrap_eq (by omega) (by omega)]
    omega

/-- What the digit loop computes on the remaining bytes. -/
def specDigits (ds : List Byte) (a : Nat) (neg over : Bool) : ParseResult :=
  if ∀ b ∈ ds, IsDigit b then
    if over ∨ limit neg < acc ds a then .outOfRange else .ok (signed neg (acc ds a))
  else .invalidSyntax

theorem parseDigits_spec (t : Target) (bytes : List Byte) (hl : bytes.length ≤ maxText t)
    (hl' : bytes.length < 2 ^ 32) (ds : List Byte) :
    ∀ (i : UInt32) (a : Nat) (neg over : Bool), bytes.drop i.toNat = ds → i.toNat ≤ bytes.length →
      a ≤ limit neg →
      parseDigits t bytes i (signed neg a) neg over = .ok (specDigits ds a neg over) := by
  induction ds with
  | nil =>
    intro i a neg over hd hi ha
    have : i = bytesLen bytes := by
      apply UInt32.toNat_inj.mp
      rw [bytesLen_toNat hl']
      have := congrArg List.length hd
      simp at this; omega
    rw [parseDigits, if_pos this, specDigits]
    simp only [acc, List.foldl_nil]
    cases over <;> simp <;> omega
  | cons b ds ih =>
    intro i a neg over hd hi ha
    have hlt : i.toNat < bytes.length := by
      have := congrArg List.length hd
      simp at this; omega
    have hb : bytes[i.toNat] = b := by
      have := List.drop_eq_getElem_cons hlt
      rw [hd] at this
      exact (List.cons.inj this).1.symm
    have hds : bytes.drop (i + 1).toNat = ds := by
      have h1 : (i + 1).toNat = i.toNat + 1 := by
        rw [UInt32.toNat_add]; simp; omega
      rw [h1]
      have := List.drop_eq_getElem_cons hlt
      rw [hd] at this
      exact (List.cons.inj this).2.symm
    have hi1 : (i + 1).toNat ≤ bytes.length := by
      have h1 : (i + 1).toNat = i.toNat + 1 := by
        rw [UInt32.toNat_add]; simp; omega
      omega
    have hne : ¬ i = bytesLen bytes := by
      intro e
      rw [e, bytesLen_toNat hl'] at hlt; omega
    rw [parseDigits, if_neg hne, byteAt_ok t hlt hl, hb]
    simp only
    obtain ⟨d1, d2⟩ := digit_spec t b
    by_cases hdig : IsDigit b
    · rw [d1 hdig]
      rw [if_neg (by omega)]
      have hd9 : b.toNat - 48 ≤ 9 := by obtain ⟨_, h⟩ := hdig; omega
      cases over with
      | true =>
        simp only [if_true]
        rw [ih (i + 1) a neg true hds hi1 ha]
        simp [specDigits, hdig]
      | false =>
        simp only [Bool.false_eq_true, if_false]
        rw [stepOverflows_spec hd9]
        by_cases ho : limit neg < a * 10 + (b.toNat - 48)
        · rw [if_pos (by simpa using ho)]
          rw [ih (i + 1) a neg true hds hi1 ha]
          have := acc_ge ds (a * 10 + (b.toNat - 48))
          have h2 : limit neg < acc (b :: ds) a := by
            simp only [acc, List.foldl_cons] at this ⊢; omega
          simp [specDigits, hdig, h2]
        · rw [if_neg (by simpa using ho)]
          rw [next_spec hd9 (by omega)]
          rw [ih (i + 1) (a * 10 + (b.toNat - 48)) neg false hds hi1 (by omega)]
          simp [specDigits, hdig, acc]
    · rw [d2 hdig]
      rw [if_pos (by omega)]
      simp [specDigits, hdig]

/-- What `parse` computes. -/
def specParse (bytes : List Byte) : ParseResult :=
  match bytes with
  | [] => .invalidSyntax
  | b :: ds =>
    if b = 43 then (if ds = [] then .invalidSyntax else specDigits ds 0 false false)
    else if b = 45 then (if ds = [] then .invalidSyntax else specDigits ds 0 true false)
    else specDigits (b :: ds) 0 false false

theorem afterSign_spec (t : Target) (b : Byte) (ds : List Byte)
    (hl : (b :: ds).length ≤ maxText t) (hl' : (b :: ds).length < 2 ^ 32) (neg : Bool) :
    parseAfterSign t (b :: ds) 1 neg =
      .ok (if ds = [] then .invalidSyntax else specDigits ds 0 neg false) := by
  have h1 : (1 : UInt32).toNat = 1 := rfl
  rw [parseAfterSign]
  by_cases hd : ds = []
  · subst hd; rfl
  · rw [if_neg, if_neg hd]
    · have := parseDigits_spec t (b :: ds) hl hl' ds 1 0 neg false (by simp) (by simp) (by omega)
      have hs : signed neg 0 = 0 := by cases neg <;> rfl
      rw [hs] at this
      exact this
    · intro e
      have := congrArg UInt32.toNat e
      rw [bytesLen_toNat hl'] at this
      simp at this
      exact hd this

theorem parseBytes_spec (t : Target) (bytes : List Byte) (hl : bytes.length ≤ maxText t)
    (hl' : bytes.length < 2 ^ 32) : parseBytes t bytes = .ok (specParse bytes) := by
  cases bytes with
  | nil => rfl
  | cons b ds =>
    have hne : ¬ bytesLen (b :: ds) = 0 := by
      intro e
      have := congrArg UInt32.toNat e
      rw [bytesLen_toNat hl'] at this
      simp at this
    rw [parseBytes, if_neg hne, byteAt_ok t (by simp) hl]
    simp only [UInt32.toNat_zero, List.getElem_cons_zero, specParse]
    obtain ⟨e1, e2⟩ := ext_toNat t b
    by_cases h43 : b = 43
    · subst h43
      have : (ext t 43).toNat = 43 := e1 (by decide)
      simp only [this]
      rw [afterSign_spec t 43 ds hl hl']
      simp
    · by_cases h45 : b = 45
      · subst h45
        have : (ext t 45).toNat = 45 := e1 (by decide)
        simp only [this]
        rw [afterSign_spec t 45 ds hl hl']
        simp
      · have hn43 : b.toNat ≠ 43 := fun e => h43 (UInt8.toNat_inj.mp e)
        have hn45 : b.toNat ≠ 45 := fun e => h45 (UInt8.toNat_inj.mp e)
        rw [if_neg h43, if_neg h45]
        have hx : (ext t b).toNat ≠ 43 ∧ (ext t b).toNat ≠ 45 := by
          by_cases hlt : b.toNat < 128
          · rw [e1 hlt]; exact ⟨hn43, hn45⟩
          · have := e2 (by omega); omega
        split
        · omega
        · omega
        · exact parseDigits_spec t (b :: ds) hl hl' (b :: ds) 0 0 false false (by simp) (by simp)
            (by omega)

theorem not_digit_43 : ¬ IsDigit 43 := by decide
theorem not_digit_45 : ¬ IsDigit 45 := by decide

theorem acc_zero (ds : List Byte) : acc ds 0 = decVal ds := rfl

/-- Numerals are exactly the texts that are not syntax errors. -/
theorem specDigits_iff (ds : List Byte) (neg : Bool) :
    ((∀ b ∈ ds, IsDigit b) →
      specDigits ds 0 neg false = if limit neg < decVal ds then .outOfRange
        else .ok (signed neg (decVal ds))) ∧
    (¬ (∀ b ∈ ds, IsDigit b) → specDigits ds 0 neg false = .invalidSyntax) := by
  constructor
  · intro h; rw [specDigits, if_pos h]; simp [acc_zero]
  · intro h; rw [specDigits, if_neg h]

theorem range_false (a : Nat) :
    (if limit false < a then ParseResult.outOfRange else .ok (signed false a)) =
      if InRange (a : Int) then .ok a else .outOfRange := by
  have hl : limit false = 2147483647 := rfl
  rw [hl]
  by_cases h : 2147483647 < a
  · rw [if_pos h, if_neg]; intro ⟨_, h2⟩; omega
  · rw [if_neg h, if_pos]
    · rfl
    · exact ⟨by omega, by omega⟩

theorem range_true (a : Nat) :
    (if limit true < a then ParseResult.outOfRange else .ok (signed true a)) =
      if InRange (-(a : Int)) then .ok (-(a : Int)) else .outOfRange := by
  have hl : limit true = 2147483648 := rfl
  rw [hl]
  by_cases h : 2147483648 < a
  · rw [if_pos h, if_neg]; intro ⟨h1, _⟩; omega
  · rw [if_neg h, if_pos]
    · rfl
    · exact ⟨by omega, by omega⟩

theorem specParse_numeral {bytes : List Byte} {n : Int} (h : Numeral bytes n) :
    specParse bytes = if InRange n then .ok n else .outOfRange := by
  cases h with
  | plain _ hne hd =>
    cases bytes with
    | nil => exact absurd rfl hne
    | cons b ds =>
      have hb := hd b (by simp)
      have h43 : b ≠ 43 := by rintro rfl; exact not_digit_43 hb
      have h45 : b ≠ 45 := by rintro rfl; exact not_digit_45 hb
      rw [specParse, if_neg h43, if_neg h45, (specDigits_iff _ _).1 hd]
      exact range_false _
  | plus ds hne hd =>
    rw [specParse, if_pos rfl, if_neg hne, (specDigits_iff _ _).1 hd]
    exact range_false _
  | minus ds hne hd =>
    rw [specParse, if_neg (by decide), if_pos rfl, if_neg hne, (specDigits_iff _ _).1 hd]
    exact range_true _

theorem specParse_not_numeral {bytes : List Byte} (h : ¬ ∃ n, Numeral bytes n) :
    specParse bytes = .invalidSyntax := by
  cases bytes with
  | nil => rfl
  | cons b ds =>
    rw [specParse]
    by_cases h43 : b = 43
    · subst h43
      rw [if_pos rfl]
      split
      · rfl
      · rename_i hne
        exact (specDigits_iff _ _).2 fun hd => h ⟨_, .plus ds hne hd⟩
    · rw [if_neg h43]
      by_cases h45 : b = 45
      · subst h45
        rw [if_pos rfl]
        split
        · rfl
        · rename_i hne
          exact (specDigits_iff _ _).2 fun hd => h ⟨_, .minus ds hne hd⟩
      · rw [if_neg h45]
        exact (specDigits_iff _ _).2 fun hd => h ⟨_, .plain _ (by simp) hd⟩

/-! ## Formatting -/

theorem digit_byte {d : Nat} (h : d ≤ 9) : UInt8.ofNat (Nat.digitChar d).toNat = UInt8.ofNat (48 + d) := by
  have : d = 0 ∨ d = 1 ∨ d = 2 ∨ d = 3 ∨ d = 4 ∨ d = 5 ∨ d = 6 ∨ d = 7 ∨ d = 8 ∨ d = 9 := by omega
  rcases this with rfl | rfl | rfl | rfl | rfl | rfl | rfl | rfl | rfl | rfl <;> rfl

theorem positiveDigit_text {d : Nat} (h : d ≤ 9) :
    (positiveDigit d).text = [UInt8.ofNat (Nat.digitChar d).toNat] := by
  have : d = 0 ∨ d = 1 ∨ d = 2 ∨ d = 3 ∨ d = 4 ∨ d = 5 ∨ d = 6 ∨ d = 7 ∨ d = 8 ∨ d = 9 := by omega
  rcases this with rfl | rfl | rfl | rfl | rfl | rfl | rfl | rfl | rfl | rfl <;> rfl

theorem negativeDigit_text {d : Nat} (h : d ≤ 9) :
    (negativeDigit (-(d : Int))).text = [UInt8.ofNat (Nat.digitChar d).toNat] := by
  have : d = 0 ∨ d = 1 ∨ d = 2 ∨ d = 3 ∨ d = 4 ∨ d = 5 ∨ d = 6 ∨ d = 7 ∨ d = 8 ∨ d = 9 := by omega
  rcases this with rfl | rfl | rfl | rfl | rfl | rfl | rfl | rfl | rfl | rfl <;> rfl

/-- Bytes of the decimal digits of a natural number. -/
def natText (n : Nat) : List Byte := (Nat.toDigits 10 n).map fun c => UInt8.ofNat c.toNat

theorem natText_lt {n : Nat} (h : n < 10) : natText n = [UInt8.ofNat (Nat.digitChar n).toNat] := by
  rw [natText, Nat.toDigits_of_lt_base h]; rfl

theorem natText_ge {n : Nat} (h : 10 ≤ n) :
    natText n = natText (n / 10) ++ [UInt8.ofNat (Nat.digitChar (n % 10)).toNat] := by
  rw [natText, Nat.toDigits_of_base_le (by decide) h, List.map_append]; rfl

theorem formatPositive_text (n : Nat) : (formatPositive n).text = natText n := by
  induction n using Nat.strongRecOn with
  | _ n ih =>
    have hq : Int.tdiv (n : Int) 10 = ((n / 10 : Nat) : Int) := by
      rw [Int.tdiv_eq_ediv_of_nonneg (by omega)]; omega
    have hr : Int.tmod (n : Int) 10 = ((n % 10 : Nat) : Int) := by
      rw [Int.tmod_eq_emod_of_nonneg (by omega)]; omega
    rw [formatPositive, hq, hr]
    by_cases h : n < 10
    · rw [if_pos (by omega), positiveDigit_text (by omega), natText_lt h, Nat.mod_eq_of_lt h]
    · rw [if_neg (by omega)]
      simp only [Str.concat, Str.text]
      rw [ih (n / 10) (by omega), positiveDigit_text (by omega), natText_ge (n := n) (by omega)]

theorem formatNegative_text (n : Nat) : (formatNegative (-(n : Int))).text = natText n := by
  induction n using Nat.strongRecOn with
  | _ n ih =>
    have hq : Int.tdiv (-(n : Int)) 10 = -((n / 10 : Nat) : Int) := by
      rw [Int.neg_tdiv, Int.tdiv_eq_ediv_of_nonneg (by omega)]; omega
    have hr : Int.tmod (-(n : Int)) 10 = -((n % 10 : Nat) : Int) := by
      rw [Int.neg_tmod, Int.tmod_eq_emod_of_nonneg (by omega)]; omega
    rw [formatNegative, hq, hr]
    by_cases h : n < 10
    · rw [if_pos (by omega), negativeDigit_text (by omega), natText_lt h, Nat.mod_eq_of_lt h]
    · rw [if_neg (by omega)]
      simp only [Str.concat, Str.text]
      rw [ih (n / 10) (by omega), negativeDigit_text (by omega), natText_ge (n := n) (by omega)]

theorem toStr_text (n : Int) : (toStr n).text = ascii n.repr := by
  rw [toStr, Int.repr_eq_if]
  by_cases h0 : n = 0
  · subst h0; rfl
  · rw [if_neg h0]
    by_cases hn : n < 0
    · rw [if_pos hn, if_neg (by omega)]
      obtain ⟨m, rfl⟩ : ∃ m : Nat, n = -(m : Int) := ⟨n.natAbs, by omega⟩
      simp only [Str.concat, Str.text]
      rw [formatNegative_text]
      simp only [ascii, String.toList_append, List.map_append]
      congr 1
      rw [Nat.toList_repr]
      simp [natText]
    · rw [if_neg hn, if_pos (by omega)]
      obtain ⟨m, rfl⟩ : ∃ m : Nat, n = (m : Int) := ⟨n.toNat, by omega⟩
      rw [formatPositive_text]
      simp only [ascii, Nat.toList_repr]
      simp [natText]

theorem natText_digits (n : Nat) : natText n ≠ [] ∧ (∀ b ∈ natText n, IsDigit b) ∧
    decVal (natText n) = n := by
  induction n using Nat.strongRecOn with
  | _ n ih =>
    by_cases h : n < 10
    · rw [natText_lt h, digit_byte (by omega)]
      have : (UInt8.ofNat (48 + n)).toNat = 48 + n := by simp; omega
      refine ⟨by simp, ?_, ?_⟩
      · intro b hb
        simp only [List.mem_singleton] at hb
        subst hb
        exact ⟨by omega, by omega⟩
      · simp only [decVal, List.foldl_cons, List.foldl_nil, this]; omega
    · obtain ⟨i1, i2, i3⟩ := ih (n / 10) (by omega)
      rw [natText_ge (by omega), digit_byte (by omega)]
      have : (UInt8.ofNat (48 + n % 10)).toNat = 48 + n % 10 := by simp; omega
      refine ⟨by simp, ?_, ?_⟩
      · intro b hb
        rcases List.mem_append.mp hb with hb | hb
        · exact i2 b hb
        · simp only [List.mem_singleton] at hb
          subst hb
          exact ⟨by omega, by omega⟩
      · simp only [decVal, List.foldl_append, List.foldl_cons, List.foldl_nil, this] at i3 ⊢
        rw [i3]; omega

theorem ascii_repr_numeral (n : Int) : Numeral (ascii n.repr) n := by
  rw [Int.repr_eq_if]
  by_cases hn : 0 ≤ n
  · rw [if_pos hn]
    obtain ⟨h1, h2, h3⟩ := natText_digits n.toNat
    have := Numeral.plain _ h1 h2
    rw [h3] at this
    simp only [ascii, Nat.toList_repr]
    have e : ((n.toNat : Nat) : Int) = n := by omega
    rw [e] at this
    exact this
  · rw [if_neg hn]
    obtain ⟨h1, h2, h3⟩ := natText_digits (-n).toNat
    have := Numeral.minus _ h1 h2
    rw [h3] at this
    simp only [ascii, String.toList_append, List.map_append, Nat.toList_repr]
    have e : -((((-n).toNat : Nat)) : Int) = n := by omega
    rw [e] at this
    exact this

theorem ascii_repr_length {n : Int} (h : InRange n) : (ascii n.repr).length ≤ 11 := by
  obtain ⟨h1, h2⟩ := h
  rw [Int.repr_eq_if]
  split
  · simp only [ascii, List.length_map, Nat.toList_repr]
    have := (Nat.length_toDigits_le_iff (b := 10) (n := n.toNat) (k := 11) (by decide) (by decide)).mpr
      (by omega)
    omega
  · simp only [ascii, String.toList_append, List.map_append, List.length_append, List.length_map,
      Nat.toList_repr]
    have := (Nat.length_toDigits_le_iff (b := 10) (n := (-n).toNat) (k := 10) (by decide) (by decide)).mpr
      (by omega)
    have h3 : "-".toList.length = 1 := rfl
    omega

end Verif.IntText
