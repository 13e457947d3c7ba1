import Verif.IrStore.Model
import Mathlib.Data.List.Forall2

/-
What the storage promises, in terms of what its queries return.
-/
namespace Verif.IrStore

/-- A field of an entry, or a default if there is no such entry. -/
def look {α β : Type} (dflt : β) (f : α → β) (l : List α) (i : Nat) : β := ((l[i]?).map f).getD dflt

/-- Operands of an operation (`op_operands`); none if there is no such operation. -/
def Store.operandsOf (c : Store) : OpRef → List Value := look [] OpData.operands c.ops
/-- Types of the results of an operation (`op_result_types`). -/
def Store.tysOf (c : Store) : OpRef → List Ty := look [] OpData.resultTys c.ops
/-- The block an operation is in (`op(o).parent_block`). -/
def Store.parentOf (c : Store) : OpRef → Option BlockRef := look none OpData.parent c.ops
/-- The regions of an operation (`op(o).regions`). -/
def Store.regionsOf (c : Store) : OpRef → List RegionRef := look [] OpData.regions c.ops
/-- The operations of a block (`block(b).ops`). -/
def Store.opsOf (c : Store) : BlockRef → List OpRef := look [] BlockData.ops c.blocks
/-- Types of the arguments of a block (`block(b).args`). -/
def Store.argTysOf (c : Store) : BlockRef → List Ty := look [] BlockData.args c.blocks
/-- The region a block is in (`block(b).parent_region`). -/
def Store.regionOf (c : Store) : BlockRef → Option RegionRef := look none BlockData.parent c.blocks
/-- The blocks of a region (`region(r).blocks`). -/
def Store.blocksOf (c : Store) : RegionRef → List BlockRef := look [] RegionData.blocks c.regions
/-- The operation a region belongs to (`region(r).parent_op`). -/
def Store.ownerOf (c : Store) : RegionRef → Option OpRef := look none RegionData.parent c.regions

/-- Dialect, name, attributes and location of an operation. -/
def Store.infoOf (c : Store) : OpRef → Nat := look 0 OpData.info c.ops
/-- The successors of an operation (`op(o).successors`). -/
def Store.succsOf (c : Store) : OpRef → List BlockRef := look [] OpData.succs c.ops

/-- Operation `o` is `op` or is nested in it. -/
inductive Within (c : Store) (op : OpRef) : OpRef → Prop
  | self : Within c op op
  | nested {o o' : OpRef} {r : RegionRef} {b : BlockRef} : Within c op o → r ∈ c.regionsOf o →
      b ∈ c.blocksOf r → o' ∈ c.opsOf b → Within c op o'

/-- The operations that have been removed, after one more call. -/
def goneAfter (c : Store) (gone : OpRef → Prop) : Cmd → OpRef → Prop
  | .removeOp _ op => fun o => gone o ∨ Within c op o
  | _ => gone

/-- The rules for callers: the operands of a removed operation are not edited; a new block is created
empty and without region, a new region without owner. -/
def Fair (gone : OpRef → Prop) : Cmd → Prop
  | .setOperand op _ _ => ¬ gone op
  | .pushOperand op _ => ¬ gone op
  | .removeOperand op _ => ¬ gone op
  | .createBlock d => d.ops = [] ∧ d.parent = none
  | .createRegion d => d.parent = none
  | _ => True

/-- The store `c` is reached from an empty one by calls that keep the rules and do not panic, and
`gone` are the operations removed on the way. -/
inductive History : Store → (OpRef → Prop) → Prop
  | start : History .empty (fun _ => False)
  | call {c c' : Store} {gone : OpRef → Prop} (cmd : Cmd) : History c gone → Fair gone cmd →
      exec c cmd = some c' → History c' (goneAfter c gone cmd)

/-- `value_ty` (context.rs 456-463); `none` is a panic. -/
def Store.valueTy (c : Store) (v : Value) : Option Ty :=
  match c.vals[v]? with
  | none => none
  | some (.opResult op i) => (c.tysOf op)[i]?
  | some (.blockArg b i) => (c.argTysOf b)[i]?

/-! ## Copies -/

/-- Operation `op` exists, as do the regions, blocks and operations nested in it, and nothing is nested
more than `n` deep. -/
def Nested (c : Store) : Nat → OpRef → Prop
  | 0, _ => False
  | n + 1, op => op < c.ops.length ∧ ∀ r ∈ c.regionsOf op, r < c.regions.length ∧
      ∀ b ∈ c.blocksOf r, b < c.blocks.length ∧ ∀ o ∈ c.opsOf b, Nested c n o

/-- Value `v` is defined in `op`: it is a result of an operation, or an argument of a block, in it. -/
def Defines (c : Store) (op : OpRef) (v : Value) : Prop :=
  ∃ o, Within c op o ∧
    (v ∈ c.results o ∨ ∃ r ∈ c.regionsOf o, ∃ b ∈ c.blocksOf r, v ∈ c.args b)

/-- Block `b` is in `op`. -/
def HasBlock (c : Store) (op : OpRef) (b : BlockRef) : Prop :=
  ∃ o, Within c op o ∧ ∃ r ∈ c.regionsOf o, b ∈ c.blocksOf r

/-- Block `b'` of `c'` is a new block, the image of `b`, with the types of its arguments, the images of
its arguments and copies of its operations. -/
def BlockCopy (c c' : Store) (ρ : Mapping) (opCopy : OpRef → OpRef → Prop) (b b' : BlockRef) : Prop :=
  c.blocks.length ≤ b' ∧ b' < c'.blocks.length ∧ ρ.block b = b' ∧ c'.argTysOf b' = c.argTysOf b ∧
    (c.args b).map ρ.value = c'.args b' ∧ List.Forall₂ opCopy (c.opsOf b) (c'.opsOf b')

/-- Region `r'` of `c'` is a new region with copies of the blocks of `r`, in their order. -/
def RegionCopy (c c' : Store) (ρ : Mapping) (opCopy : OpRef → OpRef → Prop) (r r' : RegionRef) : Prop :=
  c.regions.length ≤ r' ∧ r' < c'.regions.length ∧
    List.Forall₂ (BlockCopy c c' ρ opCopy) (c.blocksOf r) (c'.blocksOf r')

/-- Operation `o'` of `c'` is a new operation like `o` of `c`: the images of its operands, successors
and results, and copies of its regions, in their order. -/
def OpCopy (c c' : Store) (ρ : Mapping) : Nat → OpRef → OpRef → Prop
  | 0, _, _ => False
  | n + 1, o, o' => c.ops.length ≤ o' ∧ o' < c'.ops.length ∧ c'.infoOf o' = c.infoOf o ∧
      c'.tysOf o' = c.tysOf o ∧ c'.operandsOf o' = (c.operandsOf o).map ρ.value ∧
      c'.succsOf o' = (c.succsOf o).map ρ.block ∧ (c.results o).map ρ.value = c'.results o' ∧
      List.Forall₂ (RegionCopy c c' ρ (OpCopy c c' ρ n)) (c.regionsOf o) (c'.regionsOf o')

/-- What a reader of an operation comes across. -/
inductive Ev where
  | use (v : Value)
  | jump (b : BlockRef)
  | val (v : Value)
  | block (b : BlockRef)
deriving DecidableEq

/-- A region, read: the blocks with their arguments, then the operations, block after block. -/
def readRegion (c : Store) (f : OpRef → List Ev) (r : RegionRef) : List Ev :=
  ((c.blocksOf r).flatMap fun b => .block b :: (c.args b).map .val) ++
    (c.blocksOf r).flatMap fun b => (c.opsOf b).flatMap f

/-- An operation, read: operands, regions, successors, results. -/
def readOp (c : Store) : Nat → OpRef → List Ev
  | 0, _ => []
  | n + 1, o => (c.operandsOf o).map .use ++ (c.regionsOf o).flatMap (readRegion c (readOp c n)) ++
      (c.succsOf o).map .jump ++ (c.results o).map .val

/-- No value is used, and no block jumped to, before the reader comes to it. -/
def InOrder (evs : List Ev) : Prop :=
  evs.Pairwise fun a b => (∀ v, b = .val v → a ≠ .use v) ∧ ∀ l, b = .block l → a ≠ .jump l

/-- Everything that was there is still there and as it was, but for use chains. -/
structure Kept (c c' : Store) : Prop where
  ops : c.ops.length ≤ c'.ops.length ∧ ∀ o < c.ops.length, c'.ops[o]? = c.ops[o]?
  blocks : c.blocks.length ≤ c'.blocks.length ∧ ∀ b < c.blocks.length, c'.blocks[b]? = c.blocks[b]?
  regions : c.regions.length ≤ c'.regions.length ∧ ∀ r < c.regions.length, c'.regions[r]? = c.regions[r]?
  vals : c.vals.length ≤ c'.vals.length ∧ ∀ v < c.vals.length, c'.vals[v]? = c.vals[v]?
  results : ∀ o < c.ops.length, c'.results o = c.results o
  args : ∀ b < c.blocks.length, c'.args b = c.args b

end Verif.IrStore
