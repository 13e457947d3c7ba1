import Verif.IntText.Proofs
/-!
# Properties C08 and C09: decimal text of integers
-/
namespace Verif.IntText

open Verif.Bytes (Byte Fault)
open Verif.Rope (Str)

theorem parse_eq (t : Target) (s : Str) (h : s.text.length < 2 ^ 31) :
    parse t s = .ok (specParse s.text) := by
  rw [parse, Verif.Rope.C11_to_bytes s (by omega)]
  exact parseBytes_spec t _ (by cases t <;> simp only [maxText] <;> omega) (by omega)

/-- C08: `parse` returns `Ok(n)` exactly when the text is an optional sign followed by one or more
ASCII digits whose value `n` is a 32-bit integer. -/
theorem C08_ok_iff (t : Target) (s : Str) (h : s.text.length < 2 ^ 31) (n : Int) :
    parse t s = .ok (.ok n) ↔ Numeral s.text n ∧ InRange n := by
  rw [parse_eq t s h]
  constructor
  · intro he
    have he : specParse s.text = .ok n := by simpa using he
    by_cases hex : ∃ m, Numeral s.text m
    · obtain ⟨m, hm⟩ := hex
      rw [specParse_numeral hm] at he
      split at he
      · cases he; exact ⟨hm, by assumption⟩
      · cases he
    · rw [specParse_not_numeral hex] at he; cases he
  · rintro ⟨h1, h2⟩
    rw [specParse_numeral h1, if_pos h2]

/-- C08: `OutOfRange` exactly for numerals outside the 32-bit range. -/
theorem C08_out_of_range_iff (t : Target) (s : Str) (h : s.text.length < 2 ^ 31) :
    parse t s = .ok .outOfRange ↔ ∃ n, Numeral s.text n ∧ ¬ InRange n := by
  rw [parse_eq t s h]
  constructor
  · intro he
    have he : specParse s.text = .outOfRange := by simpa using he
    by_cases hex : ∃ m, Numeral s.text m
    · obtain ⟨m, hm⟩ := hex
      rw [specParse_numeral hm] at he
      split at he
      · cases he
      · exact ⟨m, hm, by assumption⟩
    · rw [specParse_not_numeral hex] at he; cases he
  · rintro ⟨n, h1, h2⟩
    rw [specParse_numeral h1, if_neg h2]

/-- C08: `InvalidSyntax` exactly for everything else. -/
theorem C08_invalid_iff (t : Target) (s : Str) (h : s.text.length < 2 ^ 31) :
    parse t s = .ok .invalidSyntax ↔ ¬ ∃ n, Numeral s.text n := by
  rw [parse_eq t s h]
  constructor
  · rintro he ⟨n, hn⟩
    have he : specParse s.text = .invalidSyntax := by simpa using he
    rw [specParse_numeral hn] at he
    split at he <;> cases he
  · intro hn
    rw [specParse_not_numeral hn]

/-- C08: parsing always returns a result: no out-of-bounds access, no abort, and both targets
agree. -/
theorem C08_total (s : Str) (h : s.text.length < 2 ^ 31) :
    ∃ r, ∀ t, parse t s = .ok r := ⟨_, fun t => parse_eq t s h⟩

/-- "-2147483648" and "+2147483648". -/
example : Numeral [45, 50, 49, 52, 55, 52, 56, 51, 54, 52, 56] (-2147483648) ∧
    InRange (-2147483648) ∧
    Numeral [43, 50, 49, 52, 55, 52, 56, 51, 54, 52, 56] 2147483648 ∧
    ¬ InRange 2147483648 := by
  refine ⟨?_, by decide, ?_, by decide⟩
  · have := Numeral.minus [50, 49, 52, 55, 52, 56, 51, 54, 52, 56] (by simp) (by decide)
    exact this
  · have := Numeral.plus [50, 49, 52, 55, 52, 56, 51, 54, 52, 56] (by simp) (by decide)
    exact this

/-- "", "-", "12a", and "٣" (bytes above 127) are not numerals. -/
example : (∀ t, parse t (.leaf []) = .ok .invalidSyntax) ∧ (∀ t, parse t (.leaf [45]) = .ok .invalidSyntax)
    ∧ (∀ t, parse t (.leaf [49, 50, 97]) = .ok .invalidSyntax)
    ∧ (∀ t, parse t (.leaf [217, 163]) = .ok .invalidSyntax)
    ∧ (∀ t, parse t ((Str.leaf [48, 48]).concat (.leaf [55])) = .ok (.ok 7)) := by
  refine ⟨?_, ?_, ?_, ?_, ?_⟩ <;> intro t <;> rw [parse_eq t _ (by decide)] <;> decide

/-- C09: the text of a 32-bit integer is its usual decimal notation (Lean's `Int.repr`: no leading
zeros, `-` only for negative numbers). -/
theorem C09_canonical (n : Int) (_h : InRange n) : (toStr n).text = ascii n.repr := toStr_text n

/-- C09: parsing the text of an integer gives the integer back. -/
theorem C09_round_trip (t : Target) (n : Int) (h : InRange n) :
    parse t (toStr n) = .ok (.ok n) := by
  have hl : (toStr n).text.length < 2 ^ 31 := by
    rw [toStr_text]; have := ascii_repr_length h; omega
  rw [C08_ok_iff t _ hl, toStr_text]
  exact ⟨ascii_repr_numeral n, h⟩

/-- C09: different integers have different texts. -/
theorem C09_injective {m n : Int} (hm : InRange m) (hn : InRange n)
    (h : (toStr m).text = (toStr n).text) : m = n := by
  have hl : ∀ {k : Int}, InRange k → (toStr k).text.length < 2 ^ 31 := by
    intro k hk; rw [toStr_text]; have := ascii_repr_length hk; omega
  have h1 := C09_round_trip .native m hm
  have h2 := C09_round_trip .native n hn
  rw [parse_eq _ _ (hl hm)] at h1
  rw [parse_eq _ _ (hl hn), ← h, h1] at h2
  simpa using h2

/-- C09: the text is a well-formed string value (its cached lengths are right). -/
theorem C09_built (n : Int) : Verif.Rope.Built (toStr n) := by
  have hp : ∀ v : Int, Verif.Rope.Built (formatPositive v) := by
    intro v
    fun_induction formatPositive v with
    | case1 v q d h => exact .leaf _
    | case2 v q d h ih => exact .concat ih (.leaf _)
  have hn : ∀ v : Int, Verif.Rope.Built (formatNegative v) := by
    intro v
    fun_induction formatNegative v with
    | case1 v q d h => exact .leaf _
    | case2 v q d h ih => exact .concat ih (.leaf _)
  rw [toStr]
  split
  · exact .leaf _
  · split
    · exact .concat (.leaf _) (hn n)
    · exact hp n

example : InRange (-2147483648) ∧ InRange 2147483647 ∧
    (toStr (-2147483648)).text = [45, 50, 49, 52, 55, 52, 56, 51, 54, 52, 56] := by
  refine ⟨by decide, by decide, ?_⟩
  rw [toStr_text]; decide

end Verif.IntText
