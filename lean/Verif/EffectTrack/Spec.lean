import Verif.EffectTrack.Model
import Verif.Solver.Spec

/-!
# Operations that no handler takes, and the programs for which the checker is right
-/

namespace Verif.EffectTrack
open Verif.Types

/-- Evaluating the expression may perform an operation of the ability `a` for which the expression
itself has no handler.  A handler is for the abilities of its arms, and only while its body is
evaluated. -/
inductive Escapes (P : Prog) (a : Ab) : X → Prop
  | op : Escapes P a (.op a)
  | call {f fn} : P.fns[f]? = some fn → Escapes P a fn.body → Escapes P a (.call f)
  | meth {f fn} : P.fns[f]? = some fn → Escapes P a fn.body → Escapes P a (.meth f)
  | seqL {x y} : Escapes P a x → Escapes P a (.seq x y)
  | seqR {x y} : Escapes P a y → Escapes P a (.seq x y)
  | bindL {x y} : Escapes P a x → Escapes P a (.bind x y)
  | bindR {x y} : Escapes P a y → Escapes P a (.bind x y)
  | blind {x} : Escapes P a x → Escapes P a (.blind x)
  | body {b hs d} : Escapes P a b → (∀ h ∈ hs, h.1 ≠ a) → Escapes P a (.handle b hs d)
  | arm {b hs d h} : h ∈ hs → Escapes P a h.2 → Escapes P a (.handle b hs d)
  | done {b hs d} : Escapes P a d → Escapes P a (.handle b hs d)

/-- The handler has an arm for every ability whose operations may leave its body. -/
def Complete (P : Prog) (b : X) (hs : List (Ab × X)) : Prop :=
  ∀ a, Escapes P a b → ∃ h ∈ hs, h.1 = a

/-- Only operations, calls by name, sequences and `let`. -/
def Plain : X → Prop
  | .nop | .op _ | .call _ => True
  | .seq x y | .bind x y => Plain x ∧ Plain y
  | .meth _ | .blind _ | .handle _ _ _ => False

mutual
/-- The effects of the expression are tracked.  `strict` says that the expression is checked against
a closed row that is not empty (see `Strict`).  Methods called perform nothing; a handler handles
everything its body performs, or else it stands in a strict place and its body is `Plain`.  The
value of a `let` is not in a strict place. -/
def Tracked (P : Prog) (strict : Bool) : X → Prop
  | .nop | .op _ | .call _ => True
  | .meth f => ∀ a, ¬ Escapes P a (.meth f)
  | .seq x y => Tracked P strict x ∧ Tracked P strict y
  | .bind x y => Tracked P false x ∧ Tracked P strict y
  | .blind x => Tracked P strict x
  | .handle b hs d => (Complete P b hs ∨ (strict = true ∧ Plain b)) ∧ TrackedArms P strict hs ∧
      Tracked P strict d
def TrackedArms (P : Prog) (strict : Bool) : List (Ab × X) → Prop
  | [] => True
  | (_, x) :: hs => Tracked P strict x ∧ TrackedArms P strict hs
end

mutual
/-- All functions called by name satisfy `q`. -/
def Calls (q : Nat → Prop) : X → Prop
  | .nop | .op _ | .meth _ => True
  | .call f => q f
  | .seq x y | .bind x y => Calls q x ∧ Calls q y
  | .blind x => Calls q x
  | .handle b hs d => Calls q b ∧ CallsArms q hs ∧ Calls q d
def CallsArms (q : Nat → Prop) : List (Ab × X) → Prop
  | [] => True
  | (_, x) :: hs => Calls q x ∧ CallsArms q hs
end

/-- The function has an explicit closed annotation. -/
def Closed (P : Prog) (f : Nat) : Prop :=
  ∃ fn es, P.fns[f]? = some fn ∧ fn.ann = some ⟨es, none⟩

/-- The function has an explicit closed annotation that is not empty, and calls by name only
functions with closed annotations. -/
def Strict (P : Prog) (fn : Fn) : Prop :=
  (∃ e es, fn.ann = some ⟨e :: es, none⟩) ∧ Calls (Closed P) fn.body

/-- What the checker needs of a program to be right about effects: annotations are closed; a
function called by name has an annotation, or comes before its caller, or is its own caller; and
bodies are tracked. -/
def Orderly (P : Prog) : Prop :=
  ∀ i fn, P.fns[i]? = some fn →
    (∀ r, fn.ann = some r → r.rest = none ∧ ∀ e ∈ r.effects, e.args = []) ∧
    Calls (fun f => ∃ g, P.fns[f]? = some g ∧ (Closed P f ∨ f ≤ i)) fn.body ∧
    ∃ strict, (strict = true → Strict P fn) ∧ Tracked P strict fn.body

end Verif.EffectTrack
