import Verif.EffectRow.Model
import Mathlib.Data.Set.Insert
/-!
# What an effect row means

A row lists effects and may end in a variable. Once the variables are given meanings (sets of
effects), the row means a set of effects.
-/
namespace Verif.EffectRow
variable {E V : Type}

/-- The effects written in the row. -/
def listed (r : Row E V) : Set E := {e | e ∈ r.effects}

/-- The set of effects a row stands for when the variables stand for `σ`. -/
def meaning (σ : V → Set E) (r : Row E V) : Set E :=
  {e | e ∈ r.effects ∨ ∃ v, r.rest = some v ∧ e ∈ σ v}

/-- Two assignments differ at most at `v`. -/
def AgreeExcept (σ τ : V → Set E) (v : V) : Prop := ∀ w, w ≠ v → σ w = τ w

end Verif.EffectRow
