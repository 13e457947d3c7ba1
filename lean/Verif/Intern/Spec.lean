import Verif.Intern.Model

/-!
What the record of answers says about symbols.
-/

namespace Verif.Intern

variable {Text : Type}

/-- Some thread was given symbol `k` for text `t`, by interning or by looking it up. -/
def Gave (log : List (Event Text)) (t : Text) (k : Nat) : Prop :=
  .interned t k ∈ log ∨ .lookedUp t (some k) ∈ log

/-- The most steps a thread still takes before it is idle. -/
def Phase.stepsLeft : Phase Text → Nat
  | .idle => 0
  | .held _ => 3
  | .absent _ => 2
  | .writing _ => 1
  | .reading _ => 1

end Verif.Intern
