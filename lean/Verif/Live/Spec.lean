import Verif.Live.Model
import Mathlib.Logic.Relation

/-!
# What liveness means
-/

namespace Verif.Live

/-- Value `w` borrows from `o` (one step). -/
def BorrowsFrom (inp : Input) (w o : Nat) : Prop := inp.deps.lookup w = some o

/-- The operation uses pointer `p`: it has an operand that is `p`, or a cast of `p`, or that borrows
from `p`, directly or through other borrowed values. -/
def Uses (inp : Input) (op : Op) (p : Nat) : Prop :=
  ∃ v ∈ op.operands, v = p ∨ inp.alias_.lookup v = some p ∨ Relation.TransGen (BorrowsFrom inp) v p

/-- From operation `i` of block `b`, some path reaches a use of `p` before a definition of `p`. -/
inductive ReachesUse (inp : Input) (p : Nat) : Nat → Nat → Prop where
  | use {b i blk op} : inp.body[b]? = some blk → blk.ops[i]? = some op → Uses inp op p → ReachesUse inp p b i
  | next {b i blk op} : inp.body[b]? = some blk → blk.ops[i]? = some op → p ∉ op.results →
      ReachesUse inp p b (i + 1) → ReachesUse inp p b i
  | edge {b s blk op next} : inp.body[b]? = some blk → blk.ops.getLast? = some op → s ∈ op.succs →
      inp.body[s]? = some next → p ∉ next.args → ReachesUse inp p s 0 → ReachesUse inp p b blk.ops.length

/-- `p` is live at the start of block `b`. -/
def LiveIn (inp : Input) (p b : Nat) : Prop :=
  ∃ blk, inp.body[b]? = some blk ∧ p ∉ blk.args ∧ ReachesUse inp p b 0

/-- `p` is live at the end of block `b`: live at the start of a successor. -/
def LiveOut (inp : Input) (p b : Nat) : Prop :=
  ∃ blk op s, inp.body[b]? = some blk ∧ blk.ops.getLast? = some op ∧ s ∈ op.succs ∧ LiveIn inp p s

/-- `out` is the result of a cast of `inp`, and not an integer. -/
def CastStep (I : Info) (ops : List Op) (inp out : Nat) : Prop :=
  ∃ op ∈ ops, op.kind = .cast ∧ op.operands.head? = some inp ∧ op.results.head? = some out ∧ I.integer out = false

/-- Casts come after the casts that define what they convert, and no value is the result of two. -/
def CastsInOrder (ops : List Op) : Prop :=
  ∀ pre op post, ops = pre ++ op :: post → op.kind = .cast →
    (∀ v, op.operands.head? = some v → ∀ o ∈ op :: post, o.kind = .cast → o.results.head? ≠ some v) ∧
    (∀ v, op.results.head? = some v → ∀ o ∈ pre, o.kind = .cast → o.results.head? ≠ some v)

end Verif.Live
