import Verif.Analyses.Model

/-! What a cache of analyses has to do, in terms of the history of a phase. -/

namespace Verif.Analyses

variable {Ir An : Type} [DecidableEq An] {Res : An → Type}

/-- Does the event make the cache forget analysis `a` of `t`? -/
def Event.drops (a : An) (t : OpRef) : Event Ir An → Prop
  | .edit _ => False
  | .get _ _ => False
  | .invalidate a' t' => a' = a ∧ t' = t
  | .invalidateAll t' => t' = t
  | .clear => True

instance (a : An) (t : OpRef) (e : Event Ir An) : Decidable (e.drops a t) :=
  match e with
  | .edit _ => .isFalse (fun h => h)
  | .get _ _ => .isFalse (fun h => h)
  | .invalidate a' t' => inferInstanceAs (Decidable (a' = a ∧ t' = t))
  | .invalidateAll t' => inferInstanceAs (Decidable (t' = t))
  | .clear => .isTrue trivial

/-- The program after a history. -/
def irAfter (ir : Ir) : List (Event Ir An) → Ir
  | [] => ir
  | .edit f :: h => irAfter (f ir) h
  | _ :: h => irAfter ir h

/-- After the history `h`, analysis `a` of `t` is remembered since the request right after `h₁`:
nothing has dropped it since, and all requests before that one had been dropped. -/
def Since (h : List (Event Ir An)) (a : An) (t : OpRef) (h₁ : List (Event Ir An)) : Prop :=
  (∃ h₂, h = h₁ ++ .get a t :: h₂ ∧ ∀ e ∈ h₂, ¬ e.drops a t) ∧
  ∀ h' h'', h₁ = h' ++ .get a t :: h'' → ∃ e ∈ h'', e.drops a t

/-- Every change of the program that matters to analysis `a` of `t` is followed by something that
drops it. -/
def Diligent (compute : Compute Ir Res) (ir : Ir) (h : List (Event Ir An)) (a : An) (t : OpRef) :
    Prop :=
  ∀ h₁ f h₂, h = h₁ ++ .edit f :: h₂ →
    compute a (f (irAfter ir h₁)) t = compute a (irAfter ir h₁) t ∨ ∃ e ∈ h₂, e.drops a t

/-- Inlining with the call graph computed anew in every round. -/
inductive FreshRounds (graphOf : Ir → G) (round : G → Ir → Ir × Nat) : Ir → Ir → Nat → Prop
  | done {ir} : (round (graphOf ir) ir).2 = 0 →
      FreshRounds graphOf round ir (round (graphOf ir) ir).1 0
  | more {ir ir' n} : (round (graphOf ir) ir).2 ≠ 0 →
      FreshRounds graphOf round (round (graphOf ir) ir).1 ir' n →
      FreshRounds graphOf round ir ir' ((round (graphOf ir) ir).2 + n)

end Verif.Analyses
