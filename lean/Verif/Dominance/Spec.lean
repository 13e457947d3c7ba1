import Verif.Dominance.Model
/-!
# Specification of reachability and dominance
-/
namespace Verif.Dominance
variable {n : Nat}

/-- `PathTo g b p`: `p` lists, last block first, the blocks of a control-flow path from the first
block of the region to `b`. -/
inductive PathTo (g : Cfg n) : Fin n → List (Fin n) → Prop
  | start (b : Fin n) : b.val = 0 → PathTo g b [b]
  | step {b c : Fin n} {p : List (Fin n)} : PathTo g b p → some c ∈ g.succs b → PathTo g c (c :: p)

/-- Some path from the entry leads to `b`. -/
def Reachable (g : Cfg n) (b : Fin n) : Prop := ∃ p, PathTo g b p

/-- `b` is reachable and every path from the entry to `b` passes through `a`. -/
def Dominates (g : Cfg n) (a b : Fin n) : Prop := Reachable g b ∧ ∀ p, PathTo g b p → a ∈ p

end Verif.Dominance
