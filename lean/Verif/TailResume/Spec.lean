import Verif.TailResume.Model

/-!
What operations do, and which arms may go without a continuation.
-/

namespace Verif.TailResume

/-- What can be seen of a run. -/
inductive Event where
  /-- a continuation is resumed with a value -/
  | resumed (cont value : Nat)
  /-- the block ends with these values -/
  | ended (values : List Nat)
  /-- another operation is given these values -/
  | used (values : List Nat)

/-- The event hands the value to something. -/
def Event.mentions (v : Nat) : Event → Prop
  | .resumed c w => v = c ∨ v = w
  | .ended ws => v ∈ ws
  | .used ws => v ∈ ws

mutual
/-- Runs of a list of operations.  What is inside an operation, an arm too, may run any number of
times. -/
inductive Run : List Op → List Event → Prop
  | nil : Run [] []
  | resume {c v r : Nat} {os : List Op} {tr : List Event} (h : Run os tr) :
      Run (.resume c v r :: os) (.resumed c v :: tr)
  | done {ws : List Nat} {os : List Op} {tr : List Event} (h : Run os tr) :
      Run (.done ws :: os) (.ended ws :: tr)
  | suspend {a n : Nat} {args : List Nat} {body os : List Op} {t tr : List Event} (hb : Runs body t)
      (h : Run os tr) : Run (.suspend a n args body :: os) (t ++ tr)
  | arm {a n : Nat} {args : List Nat} {body os : List Op} {t tr : List Event} (hb : Runs body t)
      (h : Run os tr) : Run (.arm a n args body :: os) (t ++ tr)
  | other {ws : List Nat} {inner os : List Op} {t tr : List Event} (hb : Runs inner t)
      (h : Run os tr) : Run (.other ws inner :: os) (.used ws :: (t ++ tr))
/-- Any number of runs, one after the other. -/
inductive Runs : List Op → List Event → Prop
  | zero (os : List Op) : Runs os []
  | more {os : List Op} {t tr : List Event} (h : Run os t) (hr : Runs os tr) : Runs os (t ++ tr)
end

/-- Every run of the body hands its continuation to nothing until, as the last thing, it resumes it
once and ends with what came back. -/
def ResumesLast (args : List Nat) (body : List Op) : Prop :=
  ∃ k rest, args = k :: rest ∧ ∃ v r ws, r ∈ ws ∧ v ≠ k ∧ k ∉ ws ∧
    ∀ tr, Run body tr → ∃ before, tr = before ++ [.resumed k v, .ended ws] ∧
      ∀ e ∈ before, ¬ e.mentions k ∧ ¬ e.mentions r

/-- What is directly inside an operation. -/
def Op.inside : Op → List Op
  | .suspend _ _ _ body => body
  | .arm _ _ _ body => body
  | .other _ inner => inner
  | _ => []

/-- The operation is in the list or inside one of its operations, at any depth. -/
inductive Within (o : Op) : List Op → Prop
  | here {os : List Op} (h : o ∈ os) : Within o os
  | deeper {os : List Op} {x : Op} (hx : x ∈ os) (h : Within o x.inside) : Within o os

mutual
/-- All arms without a continuation, at any depth, may do without. -/
def ArmsFit : Op → Prop
  | .arm _ _ args body => ResumesLast args body ∧ AllArmsFit body
  | .suspend _ _ _ body => AllArmsFit body
  | .other _ inner => AllArmsFit inner
  | .resume _ _ _ => True
  | .done _ => True
def AllArmsFit : List Op → Prop
  | [] => True
  | o :: os => ArmsFit o ∧ AllArmsFit os
end

end Verif.TailResume
