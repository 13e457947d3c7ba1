import Verif.IrText.Model
/-!
# What it means that printed text reads back
-/
namespace Verif.IrText

/-- Text that may follow an attribute or a type: it does not continue a word, a number or a type. In
particular a separator, a closing bracket or the end of the text. -/
def Stop (rest : List Char) : Prop :=
  (∀ c, rest.head? = some c → isWordChar c = false ∧ c ≠ '.' ∧ c ≠ '(') ∧
  (∀ c, (rest.dropWhile isSpace).head? = some c → c ≠ '{')

/-- A word: a letter or `_`, then letters, digits and `_`. -/
def Word : List Char → Prop
  | [] => False
  | c :: r => isWordStart c = true ∧ ∀ x ∈ r, isWordChar x = true

/-- An attribute name: words with dots between them. -/
inductive Key : List Char → Prop
  | word {w : List Char} : Word w → Key w
  | dot {w k : List Char} : Word w → Key k → Key (w ++ '.' :: k)

/-- A name for a type alias: anything but a text of letters, digits and `_` that starts with a digit. -/
def AliasName (s : List Char) : Prop :=
  (∀ x ∈ s, isWordChar x = true) → ∀ c, s.head? = some c → isWordStart c = true

/-- What is assumed of the standard library: a finite number is displayed as digits, with an optional
sign and an optional fraction, and reads back, also with `.0` appended. -/
structure F64Ok (f : F64) : Prop where
  shape : ∀ bits, isFinite bits = true → ∃ (sign whole frac : List Char),
    (sign = [] ∨ sign = ['-']) ∧ whole ≠ [] ∧ (∀ c ∈ whole, c.isDigit = true) ∧ frac ≠ [] ∧
    (∀ c ∈ frac, c.isDigit = true) ∧
    (f.display bits = sign ++ whole ∧ frac = ['0'] ∨ f.display bits = sign ++ whole ++ '.' :: frac) ∧
    f.parse (sign ++ whole ++ '.' :: frac) = some bits

mutual
/-- Types that can be written: aliased ones whose alias is known to the reader; others made of words. -/
def WritableTy (al : Ty → Option (List Char)) (env : List Char → Option Ty) (t : Ty) : Prop :=
  match al t with
  | some name => env name = some t ∧ AliasName name
  | none =>
    match t with
    | .aref _ => False
    | .mk d n params attrs => Word d ∧ Word n ∧ WritableTys al env params ∧ WritableEntries al env attrs
def WritableTys (al : Ty → Option (List Char)) (env : List Char → Option Ty) : List Ty → Prop
  | [] => True
  | t :: ts => WritableTy al env t ∧ WritableTys al env ts
/-- Attributes that can be written: integers of 128 bits, finite floats, locations of 64 bits, and
types whose dialect is not mistaken for a keyword. -/
def WritableAttr (al : Ty → Option (List Char)) (env : List Char → Option Ty) : Attr → Prop
  | .int v => -2 ^ 127 ≤ v ∧ v < 2 ^ 127
  | .float bits => isFinite bits = true
  | .type t => WritableTy al env t ∧ (al t = none → ∀ d n ps as, t = .mk d n ps as →
      ¬ "true".toList <+: d ∧ ¬ "false".toList <+: d ∧ ¬ "unit".toList <+: d)
  | .list l => WritableAttrs al env l
  | .location _ start stop => start < 2 ^ 64 ∧ stop < 2 ^ 64
  | _ => True
def WritableAttrs (al : Ty → Option (List Char)) (env : List Char → Option Ty) : List Attr → Prop
  | [] => True
  | a :: l => WritableAttr al env a ∧ WritableAttrs al env l
def WritableEntries (al : Ty → Option (List Char)) (env : List Char → Option Ty) :
    List (List Char × Attr) → Prop
  | [] => True
  | (k, a) :: l => Key k ∧ WritableAttr al env a ∧ WritableEntries al env l
end

end Verif.IrText
