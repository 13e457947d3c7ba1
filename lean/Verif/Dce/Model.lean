/-!
# Dead-code elimination

Model of `crates/trunk-ir/src/transforms/dce.rs` 44-164 and of the part of
`crates/trunk-ir/src/context.rs` it calls (`has_uses` 681-683, `remove_op_from_block` 605-610,
`remove_op` 399-441).

Simplifications:
* the arena is a tree of operations, blocks and regions; attributes, types and locations are
  abstracted to the operation's name;
* the use chain of a value is represented by its length, a number per value (`Uses`); `remove_op`
  shortens it by the operands of the whole removed subtree (420-431);
* `PureOps::is_pure` (op_interface.rs 77-80) is an arbitrary predicate on operation names.
-/
namespace Verif.Dce

abbrev Value := Nat
abbrev OpName := Nat

/-- The part of `OperationData` that is not a region. -/
structure Head where
  name : OpName
  operands : List Value
  successors : List Nat
  results : List Value
deriving DecidableEq, Repr

mutual
/-- An operation with its regions. -/
inductive Op where
  | mk (head : Head) (regions : Regions)
/-- The operations of a block. -/
inductive Ops where
  | nil
  | cons (op : Op) (rest : Ops)
/-- The blocks of a region, with their parameters. -/
inductive Blocks where
  | nil
  | cons (params : List Value) (ops : Ops) (rest : Blocks)
/-- The regions of an operation (or of a rewrite scope). -/
inductive Regions where
  | nil
  | cons (blocks : Blocks) (rest : Regions)
end

/-- Length of the use chain of every value (`IrContext::uses`). -/
abbrev Uses := Value → Nat

mutual
/-- Number of operands equal to `v` in an operation and everything below it; the walk of
context.rs 424-431. -/
def Op.count (v : Value) : Op → Nat
  | .mk h rs => h.operands.count v + rs.count v
/-- See `Op.count`. -/
def Ops.count (v : Value) : Ops → Nat
  | .nil => 0
  | .cons o os => o.count v + os.count v
/-- See `Op.count`. -/
def Blocks.count (v : Value) : Blocks → Nat
  | .nil => 0
  | .cons _ os bs => os.count v + bs.count v
/-- See `Op.count`. -/
def Regions.count (v : Value) : Regions → Nat
  | .nil => 0
  | .cons bs rs => bs.count v + rs.count v
end

/-- `remove_op`, context.rs 399-441: forget the uses contributed by the removed subtree. -/
def removeOp (u : Uses) (o : Op) : Uses := fun v => u v - o.count v

/-- `is_dead`, dce.rs 144-164. -/
def isDead (pure : OpName → Bool) (u : Uses) : Op → Bool
  | .mk h _ =>
    if !pure h.name then false
    else if h.results.isEmpty then true
    else h.results.all fun r => !(decide (0 < u r))

/-- Outcome of sweeping a part of the tree: what is left of it, the use chains, and the number of
operations removed. -/
structure Swept (α : Type) where
  tree : α
  uses : Uses
  removed : Nat

/-- Second half of `sweep_block`, dce.rs 131-138: the operations of the block, last first. -/
def sweepRev (pure : OpName → Bool) (u : Uses) : Ops → Swept Ops
  | .nil => ⟨.nil, u, 0⟩
  | .cons o os =>
    let r := sweepRev pure u os
    if isDead pure r.uses o then ⟨r.tree, removeOp r.uses o, r.removed + 1⟩
    else ⟨.cons o r.tree, r.uses, r.removed⟩

mutual
/-- `sweep_scope` (dce.rs 95-100) and the region loop of `sweep_block` (124-127). -/
def sweepRegions (pure : OpName → Bool) (rec : Bool) (u : Uses) : Regions → Swept Regions
  | .nil => ⟨.nil, u, 0⟩
  | .cons bs rs =>
    let r1 := sweepBlocks pure rec u bs
    let r2 := sweepRegions pure rec r1.uses rs
    ⟨.cons r1.tree r2.tree, r2.uses, r1.removed + r2.removed⟩
/-- `sweep_region` (dce.rs 103-110) and `sweep_block` (116-141). -/
def sweepBlocks (pure : OpName → Bool) (rec : Bool) (u : Uses) : Blocks → Swept Blocks
  | .nil => ⟨.nil, u, 0⟩
  | .cons ps os bs =>
    let r1 := sweepNested pure rec u os
    let r2 := sweepRev pure r1.uses r1.tree
    let r3 := sweepBlocks pure rec r2.uses bs
    ⟨.cons ps r2.tree r3.tree, r3.uses, r1.removed + r2.removed + r3.removed⟩
/-- First half of `sweep_block`, dce.rs 119-129: the nested regions of every operation. -/
def sweepNested (pure : OpName → Bool) (rec : Bool) (u : Uses) : Ops → Swept Ops
  | .nil => ⟨.nil, u, 0⟩
  | .cons (.mk h rs) os =>
    if rec then
      let r1 := sweepRegions pure rec u rs
      let r2 := sweepNested pure rec r1.uses os
      ⟨.cons (.mk h r1.tree) r2.tree, r2.uses, r1.removed + r2.removed⟩
    else
      let r2 := sweepNested pure rec u os
      ⟨.cons (.mk h rs) r2.tree, r2.uses, r2.removed⟩
end

/-- `DceResult`, dce.rs 34-41, with the rewritten scope. -/
structure Result where
  scope : Regions
  uses : Uses
  removed : Nat
  iterations : Nat
  reachedFixpoint : Bool

/-- The loop of `eliminate_dead_code`, dce.rs 57-75; `left` iterations remain of `max`. -/
def loop (pure : OpName → Bool) (rec : Bool) (max : Nat) :
    Nat → Regions → Uses → Nat → Result
  | 0, rs, u, total => ⟨rs, u, total, max, false⟩
  | left + 1, rs, u, total =>
    let r := sweepRegions pure rec u rs
    if r.removed = 0 then ⟨r.tree, r.uses, total, max - left, true⟩
    else loop pure rec max left r.tree r.uses (total + r.removed)

/-- `eliminate_dead_code`, dce.rs 44-76. -/
def eliminateDeadCode (pure : OpName → Bool) (maxIterations : Nat) (rec : Bool) (rs : Regions)
    (u : Uses) : Result :=
  let max := if maxIterations = 0 then 100 else maxIterations
  loop pure rec max max rs u 0

end Verif.Dce
