import Verif.Evidence.Model
/-!
Specification for C01: the call history itself.  The `i`-th call creates handle `i`.
-/
namespace Verif.Evidence

/-- Markers on the chain of calls that created handle `h`, innermost first. -/
inductive Installed (ops : List Op) : Nat → List Marker → Prop
  | empty {h} : ops[h]? = some .empty → Installed ops h []
  | extend {h ev m ms} : ops[h]? = some (.extend ev m) → ev < h → Installed ops ev ms →
      Installed ops h (m :: ms)

/-- Every call extends a handle that an earlier call returned (memory-safe use of the API). -/
def ValidHistory (ops : List Op) : Prop :=
  ∀ (i ev : Nat) (m : Marker), ops[i]? = some (Op.extend ev m) → ev < i

end Verif.Evidence
