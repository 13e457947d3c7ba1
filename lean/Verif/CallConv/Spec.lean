import Verif.CallConv.Model
/-!
# What a calling convention provides

`direct` passes the source parameters only, `evidenceDirect` also passes evidence, `cps` also passes
evidence and a continuation. A convention is at least as strong as another if it provides everything
the other one does.
-/
namespace Verif.CallConv

/-- The hidden things a convention passes. -/
inductive Hidden where
  | evidence
  | continuation
deriving DecidableEq

def provides : Conv → Hidden → Prop
  | .direct, _ => False
  | .evidenceDirect, .evidence => True
  | .evidenceDirect, .continuation => False
  | .cps, _ => True

/-- `c` provides all that `d` does. -/
def AtLeast (c d : Conv) : Prop := ∀ h, provides d h → provides c h

/-- What one ability asks for: its entry in the table, everything if it has none. -/
inductive Demands {A : Type} (t : Table A) (a : A) : Hidden → Prop
  | known {c : Conv} {h : Hidden} (e : t a = some c) (hp : provides c h) : Demands t a h
  | unknown {h : Hidden} (e : t a = none) : Demands t a h

/-- What a row asks for: what its abilities ask for, and everything if it is open. -/
inductive RowDemands {A : Type} (t : Table A) (r : Row A) : Hidden → Prop
  | ability {a : A} {h : Hidden} (ha : a ∈ r.abilities) (hd : Demands t a h) : RowDemands t r h
  | isOpen {h : Hidden} (ho : r.isOpen = true) : RowDemands t r h

end Verif.CallConv
