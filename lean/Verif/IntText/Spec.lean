import Verif.IntText.Model
/-!
# Specification of decimal numerals
-/
namespace Verif.IntText

open Verif.Bytes (Byte)

/-- An ASCII digit. -/
def IsDigit (b : Byte) : Prop := 48 ≤ b.toNat ∧ b.toNat ≤ 57

instance (b : Byte) : Decidable (IsDigit b) := by unfold IsDigit; infer_instance

/-- The value of a digit sequence, most significant first. -/
def decVal (ds : List Byte) : Nat := ds.foldl (fun acc b => acc * 10 + (b.toNat - 48)) 0

/-- An optional sign and at least one digit, with its mathematical value. -/
inductive Numeral : List Byte → Int → Prop
  | plain (ds : List Byte) : ds ≠ [] → (∀ b ∈ ds, IsDigit b) → Numeral ds (decVal ds)
  | plus (ds : List Byte) : ds ≠ [] → (∀ b ∈ ds, IsDigit b) → Numeral (43 :: ds) (decVal ds)
  | minus (ds : List Byte) : ds ≠ [] → (∀ b ∈ ds, IsDigit b) → Numeral (45 :: ds) (-(decVal ds))

/-- The values of `Int`. -/
def InRange (n : Int) : Prop := -2 ^ 31 ≤ n ∧ n < 2 ^ 31

instance (n : Int) : Decidable (InRange n) := by unfold InRange; infer_instance

/-- The ASCII bytes of a text. -/
def ascii (s : String) : List Byte := s.toList.map fun c => UInt8.ofNat c.toNat

end Verif.IntText
