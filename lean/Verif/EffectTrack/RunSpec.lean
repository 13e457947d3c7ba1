import Verif.EffectTrack.Spec
import Verif.Effects.Spec

/-!
# The effects of a source program that runs on the machine of area `Effects`

`skel` forgets everything about an expression but its effects, so that a program for that machine can
be given to the checker.
-/

namespace Verif.EffectTrack
open Effects (Exp Arm)

mutual
/-- The effect-relevant part of a source expression: a `let` is a `let` statement, the branches of a
condition are the arms of a `case`. -/
def skel : Exp → X
  | .op a _ _ => .op a
  | .fnop a _ _ => .op a
  | .call f _ => .call f
  | .letE _ a b => .bind (skel a) (skel b)
  | .ite _ a b => .seq (skel a) (skel b)
  | .handle b hs _ d => .handle (skel b) (skelArms hs) (skel d)
  | .var _ | .prim _ _ | .resume _ _ | .lam _ _ | .lamD _ _ | .app _ _ | .appD _ _ => .nop
def skelArms : List Arm → List (Ab × X)
  | [] => []
  | .mk _ a _ _ _ b :: hs => (a, skel b) :: skelArms hs
end

mutual
/-- No closures; a name that a `resume` refers to (those in `R`) is used for nothing else. -/
def FirstOrder (R : List Effects.Var) : Exp → Prop
  | .var x => x ∉ R
  | .prim _ _ => True
  | .call _ xs | .op _ _ xs | .fnop _ _ xs => ∀ x ∈ xs, x ∉ R
  | .resume _ x => x ∉ R
  | .letE _ a b => FirstOrder R a ∧ FirstOrder R b
  | .ite _ a b => FirstOrder R a ∧ FirstOrder R b
  | .handle b hs _ d => FirstOrder R b ∧ FirstOrderArms R hs ∧ FirstOrder R d
  | .lam _ _ | .lamD _ _ | .app _ _ | .appD _ _ => False
def FirstOrderArms (R : List Effects.Var) : List Arm → Prop
  | [] => True
  | .mk _ _ _ _ rk b :: hs => FirstOrder (rk :: R) b ∧ FirstOrderArms R hs
end

/-- `P` is what the checker sees of the first-order program `Q`: functions are named by their
place, and all have bodies of `Q`. -/
structure Sees (P : Prog) (Q : Effects.Prog) : Prop where
  main : ∃ fn, P.fns[P.main]? = some fn ∧ fn.body = skel Q.main
  funs : ∀ f ps b, Q.funs.lookup f = some (ps, b) → ∃ fn, P.fns[f]? = some fn ∧ fn.body = skel b
  first : FirstOrder [] Q.main ∧ ∀ f ps b, Q.funs.lookup f = some (ps, b) → FirstOrder [] b

/-- Some `handle` that waits has an arm for the ability. -/
def Handled (a : Ab) (C : List Effects.Frame) : Prop :=
  ∃ hs dx d ρ, Effects.Frame.hdl hs dx d ρ ∈ C ∧ ∃ h ∈ hs, h.ab = a

/-- The next step performs an operation of the ability. -/
def Performs {W : Type} (a : Ab) : Effects.SState W → Prop
  | (.ev _ (.op b _ _), _, _) => a = b
  | (.ev _ (.fnop b _ _), _, _) => a = b
  | _ => False

end Verif.EffectTrack
