/-
Model of the IR storage, `IrContext` of `crates/trunk-ir/src/context.rs`, with `IrMapping`
(`crates/trunk-ir/src/ir_mapping.rs`) and the walk of `crates/trunk-ir/src/walk.rs`.

Simplifications, for the whole file:
* references are numbers; `PrimaryMap` is a list, indexing outside of it panics; `SecondaryMap` is a
  total function with an empty list as default;
* `EntityList`s in `ListPool`s are lists; operand indices do not overflow `u32`;
* dialect, name, attributes and location of an operation are one number (`info`), a type is a number,
  attributes of block arguments and locations of blocks and regions are left out;
* a panic is the result `none`. Recursion over nested regions takes an allowance; that it is used up
  stands for the stack overflow of a cyclic structure;
* direct changes through `op_mut`, `block_mut`, `region_mut` are not modelled.
-/
namespace Verif.IrStore

abbrev Value := Nat
abbrev OpRef := Nat
abbrev BlockRef := Nat
abbrev RegionRef := Nat
abbrev Ty := Nat

/-- `Use` (context.rs 25-29). -/
structure Use where
  user : OpRef
  idx : Nat
deriving DecidableEq

/-- `OperationData` (context.rs 36-47). -/
structure OpData where
  info : Nat
  operands : List Value
  resultTys : List Ty
  regions : List RegionRef
  succs : List BlockRef
  parent : Option BlockRef
deriving DecidableEq

/-- `ValueDef` (refs.rs), the content of `ValueData` (context.rs 50-58). -/
inductive Def where
  | opResult (op : OpRef) (idx : Nat)
  | blockArg (b : BlockRef) (idx : Nat)
deriving DecidableEq

/-- `BlockData` (context.rs 68-73). -/
structure BlockData where
  args : List Ty
  ops : List OpRef
  parent : Option RegionRef
deriving DecidableEq

/-- `RegionData` (context.rs 76-80). -/
structure RegionData where
  blocks : List BlockRef
  parent : Option OpRef
deriving DecidableEq

/-- `IrContext` (context.rs 90-120), without interners, aliases and diagnostics. -/
structure Store where
  ops : List OpData
  vals : List Def
  blocks : List BlockData
  regions : List RegionData
  uses : Value → List Use
  results : OpRef → List Value
  args : BlockRef → List Value

/-- `IrContext::new` (context.rs 123-144). -/
def Store.empty : Store := ⟨[], [], [], [], fun _ => [], fun _ => [], fun _ => []⟩

/-- Change the entry of one key. -/
def put {α : Type} (f : Nat → α) (k : Nat) (a : α) : Nat → α := fun x => if x = k then a else f x

/-- The loop that registers operand uses (context.rs 265-271). -/
def addUses (op : OpRef) : Nat → List Value → (Value → List Use) → Value → List Use
  | _, [], u => u
  | i, v :: vs, u => addUses op (i + 1) vs (put u v (u v ++ [⟨op, i⟩]))

/-- The loop that links regions to their operation (context.rs 254-263); a region with an owner
panics. -/
def linkRegions (op : OpRef) : List RegionRef → List RegionData → Option (List RegionData)
  | [], rs => some rs
  | r :: more, rs =>
    match rs[r]? with
    | none => none
    | some d =>
      if d.parent.isSome then none
      else linkRegions op more (rs.set r { d with parent := some op })

/-- `create_op` (context.rs 237-284). -/
def createOp (c : Store) (d : OpData) : Option (Store × OpRef) :=
  if d.parent.isSome then none else
  let op := c.ops.length
  match linkRegions op d.regions c.regions with
  | none => none
  | some rs =>
    let n := d.resultTys.length
    some ({ c with
      ops := c.ops ++ [d]
      regions := rs
      uses := addUses op 0 d.operands c.uses
      vals := c.vals ++ (List.range n).map (Def.opResult op)
      results := put c.results op ((List.range n).map (c.vals.length + ·)) }, op)

/-- `set_op_result_type` (context.rs 310-312). -/
def setResultType (c : Store) (op : OpRef) (i : Nat) (ty : Ty) : Option Store :=
  match c.ops[op]? with
  | none => none
  | some d =>
    if i < d.resultTys.length then
      some { c with ops := c.ops.set op { d with resultTys := d.resultTys.set i ty } }
    else none

/-- Take the use of operand `i` of `op` out of a chain: `retain` (context.rs 315-366, 435-441). -/
def dropUse (op : OpRef) (i : Nat) (us : List Use) : List Use :=
  us.filter fun u => !(u.user = op ∧ u.idx = i)

/-- `set_op_operand` (context.rs 315-326). -/
def setOperand (c : Store) (op : OpRef) (i : Nat) (new : Value) : Option Store :=
  match c.ops[op]? with
  | none => none
  | some d =>
    match d.operands[i]? with
    | none => none
    | some old =>
      if old = new then some c else
      let uses := put c.uses old (dropUse op i (c.uses old))
      some { c with
        ops := c.ops.set op { d with operands := d.operands.set i new }
        uses := put uses new (uses new ++ [⟨op, i⟩]) }

/-- `push_op_operand` (context.rs 329-337). -/
def pushOperand (c : Store) (op : OpRef) (v : Value) : Option Store :=
  match c.ops[op]? with
  | none => none
  | some d =>
    some { c with
      ops := c.ops.set op { d with operands := d.operands ++ [v] }
      uses := put c.uses v (c.uses v ++ [⟨op, d.operands.length⟩]) }

/-- The inner loop at context.rs 355-360: the first use of operand `i` of `op` moves down by one. -/
def lowerUse (op : OpRef) (i : Nat) : List Use → List Use
  | [] => []
  | u :: us => if u.user = op ∧ u.idx = i then ⟨op, i - 1⟩ :: us else u :: lowerUse op i us

/-- The outer loop at context.rs 354-361. -/
def lowerUses (op : OpRef) : Nat → List Value → (Value → List Use) → Value → List Use
  | _, [], u => u
  | i, v :: vs, u => lowerUses op (i + 1) vs (put u v (lowerUse op i (u v)))

/-- `remove_op_operand` (context.rs 339-370). -/
def removeOperand (c : Store) (op : OpRef) (i : Nat) : Option Store :=
  match c.ops[op]? with
  | none => none
  | some d =>
    match d.operands[i]? with
    | none => none
    | some v =>
      some { c with
        ops := c.ops.set op { d with operands := d.operands.eraseIdx i }
        uses := lowerUses op (i + 1) (d.operands.drop (i + 1))
          (put c.uses v (dropUse op i (c.uses v))) }

/-- `clear_operand_uses_of` (context.rs 435-441). -/
def clearUses (op : OpRef) : Nat → List Value → (Value → List Use) → Value → List Use
  | _, [], u => u
  | i, v :: vs, u => clearUses op (i + 1) vs (put u v (dropUse op i (u v)))

/-- Walk a list, collecting what is found for each entry. -/
def collect {α β : Type} (f : α → Option (List β)) : List α → Option (List β)
  | [] => some []
  | a :: as =>
    match f a, collect f as with
    | some x, some y => some (x ++ y)
    | _, _ => none

/-- `walk_block` and `walk_region` (walk.rs 22-43) for a walk of operations. -/
def walkBlock (walk : OpRef → Option (List OpRef)) (c : Store) (b : BlockRef) :
    Option (List OpRef) :=
  match c.blocks[b]? with
  | none => none
  | some d => collect walk d.ops

def walkRegion (walk : OpRef → Option (List OpRef)) (c : Store) (r : RegionRef) :
    Option (List OpRef) :=
  match c.regions[r]? with
  | none => none
  | some d => collect (walkBlock walk c) d.blocks

/-- `walk_op` (walk.rs 46-60) with a visitor that collects: the operation and everything within it. -/
def walkOp (c : Store) : Nat → OpRef → Option (List OpRef)
  | 0, _ => none
  | n + 1, op =>
    match c.ops[op]? with
    | none => none
    | some d => (collect (walkRegion (walkOp c n) c) d.regions).map (op :: ·)

/-- Clear the uses of a list of operations (context.rs 429-431). -/
def clearAll (c : Store) : List OpRef → (Value → List Use) → Option (Value → List Use)
  | [], u => some u
  | o :: os, u =>
    match c.ops[o]? with
    | none => none
    | some d => clearAll c os (clearUses o 0 d.operands u)

/-- `remove_op` (context.rs 399-432). -/
def removeOp (n : Nat) (c : Store) (op : OpRef) : Option Store :=
  match c.ops[op]? with
  | none => none
  | some d =>
    if d.parent.isSome then none else
    if (c.results op).any (fun v => !(c.uses v).isEmpty) then none else
    match walkOp c n op with
    | none => none
    | some sub => (clearAll c sub c.uses).map fun u => { c with uses := u }

/-- `create_block` (context.rs 475-490). -/
def createBlock (c : Store) (d : BlockData) : Store × BlockRef :=
  let b := c.blocks.length
  let n := d.args.length
  ({ c with
    blocks := c.blocks ++ [d]
    vals := c.vals ++ (List.range n).map (Def.blockArg b)
    args := put c.args b ((List.range n).map (c.vals.length + ·)) }, b)

/-- `add_block_arg` (context.rs 513-521). -/
def addBlockArg (c : Store) (b : BlockRef) (ty : Ty) : Option Store :=
  match c.blocks[b]? with
  | none => none
  | some d =>
    some { c with
      blocks := c.blocks.set b { d with args := d.args ++ [ty] }
      vals := c.vals ++ [.blockArg b d.args.length]
      args := put c.args b (c.args b ++ [c.vals.length]) }

/-- One round of the loop at context.rs 532-537. -/
def shiftDef : Def → Def
  | .blockArg b i => .blockArg b (i + 1)
  | d => d

/-- The loop at context.rs 532-537. -/
def shiftDefs : List Value → List Def → Option (List Def)
  | [], ds => some ds
  | v :: vs, ds =>
    match ds[v]? with
    | none => none
    | some d => shiftDefs vs (ds.set v (shiftDef d))

/-- `prepend_block_arg` (context.rs 529-557). -/
def prependBlockArg (c : Store) (b : BlockRef) (ty : Ty) : Option Store :=
  match shiftDefs (c.args b) c.vals, c.blocks[b]? with
  | some vals, some d =>
    some { c with
      blocks := c.blocks.set b { d with args := ty :: d.args }
      vals := vals ++ [.blockArg b 0]
      args := put c.args b (vals.length :: c.args b) }
  | _, _ => none

/-- `set_block_arg_type` (context.rs 560-562). -/
def setBlockArgType (c : Store) (b : BlockRef) (i : Nat) (ty : Ty) : Option Store :=
  match c.blocks[b]? with
  | none => none
  | some d =>
    if i < d.args.length then some { c with blocks := c.blocks.set b { d with args := d.args.set i ty } }
    else none

/-- `push_op` (context.rs 569-578). -/
def pushOp (c : Store) (b : BlockRef) (op : OpRef) : Option Store :=
  match c.ops[op]?, c.blocks[b]? with
  | some d, some bd =>
    if d.parent.isSome then none else
    some { c with
      ops := c.ops.set op { d with parent := some b }
      blocks := c.blocks.set b { bd with ops := bd.ops ++ [op] } }
  | _, _ => none

/-- Insert before the first occurrence (`position`, `insert`; context.rs 593-598). -/
def insertBefore (before op : OpRef) : List OpRef → Option (List OpRef)
  | [] => none
  | o :: os => if o = before then some (op :: o :: os) else (insertBefore before op os).map (o :: ·)

/-- `insert_op_before` (context.rs 586-600). -/
def insertOpBefore (c : Store) (b : BlockRef) (before op : OpRef) : Option Store :=
  match c.ops[op]?, c.blocks[b]? with
  | some d, some bd =>
    if d.parent.isSome then none else
    match insertBefore before op bd.ops with
    | none => none
    | some os =>
      some { c with
        ops := c.ops.set op { d with parent := some b }
        blocks := c.blocks.set b { bd with ops := os } }
  | _, _ => none

/-- `remove_op_from_block` (context.rs 605-610). -/
def removeOpFromBlock (c : Store) (b : BlockRef) (op : OpRef) : Option Store :=
  match c.ops[op]?, c.blocks[b]? with
  | some d, some bd =>
    some { c with
      blocks := c.blocks.set b { bd with ops := bd.ops.filter (fun o => o != op) }
      ops := if d.parent = some b then c.ops.set op { d with parent := none } else c.ops }
  | _, _ => none

/-- `detach_op` (context.rs 617-621). -/
def detachOp (c : Store) (op : OpRef) : Option Store :=
  match c.ops[op]? with
  | none => none
  | some d =>
    match d.parent with
    | none => some c
    | some b => removeOpFromBlock c b op

/-- The loop that links blocks to their region (context.rs 636-645). -/
def linkBlocks (r : RegionRef) : List BlockRef → List BlockData → Option (List BlockData)
  | [], bs => some bs
  | b :: more, bs =>
    match bs[b]? with
    | none => none
    | some d =>
      if d.parent.isSome then none else linkBlocks r more (bs.set b { d with parent := some r })

/-- `create_region` (context.rs 632-648). -/
def createRegion (c : Store) (d : RegionData) : Option (Store × RegionRef) :=
  let r := c.regions.length
  match linkBlocks r d.blocks c.blocks with
  | none => none
  | some bs => some ({ c with regions := c.regions ++ [d], blocks := bs }, r)

/-- `detach_region` (context.rs 655-659). -/
def detachRegion (c : Store) (r : RegionRef) : Option Store :=
  match c.regions[r]? with
  | none => none
  | some rd =>
    match rd.parent with
    | none => some c
    | some op =>
      match c.ops[op]? with
      | none => none
      | some d =>
        some { c with
          regions := c.regions.set r { rd with parent := none }
          ops := c.ops.set op { d with regions := d.regions.filter (fun x => x != r) } }

/-- The loop of `replace_all_uses` (context.rs 838-850). The check `debug_assert_eq` of line 842 is
left out, as in a release build. -/
def redirect (new : Value) : List Use → List OpData × (Value → List Use) →
    Option (List OpData × (Value → List Use))
  | [], st => some st
  | u :: us, (ops, uses) =>
    match ops[u.user]? with
    | none => none
    | some d =>
      if u.idx < d.operands.length then
        redirect new us (ops.set u.user { d with operands := d.operands.set u.idx new },
          put uses new (uses new ++ [u]))
      else none

/-- `replace_all_uses` (context.rs 831-851). -/
def replaceAllUses (c : Store) (old new : Value) : Option Store :=
  if old = new then some c else
  match redirect new (c.uses old) (c.ops, put c.uses old []) with
  | none => none
  | some (ops, uses) => some { c with ops := ops, uses := uses }

/-! ## Cloning -/

/-- `IrMapping` (ir_mapping.rs 16-19). -/
structure Mapping where
  value? : Value → Option Value
  block? : BlockRef → Option BlockRef

def Mapping.empty : Mapping := ⟨fun _ => none, fun _ => none⟩

/-- `lookup_value_or_default` (ir_mapping.rs 59-61). -/
def Mapping.value (m : Mapping) (v : Value) : Value := (m.value? v).getD v

/-- `lookup_block_or_default` (ir_mapping.rs 69-71). -/
def Mapping.block (m : Mapping) (b : BlockRef) : BlockRef := (m.block? b).getD b

/-- `map_value` for each pair of a zip (context.rs 738-740, 790-792). -/
def Mapping.mapValues (m : Mapping) : List Value → List Value → Mapping
  | o :: os, n :: ns => Mapping.mapValues { m with value? := put m.value? o (some n) } os ns
  | _, _ => m

/-- `map_block` (ir_mapping.rs 43-45). -/
def Mapping.mapBlock (m : Mapping) (o n : BlockRef) : Mapping :=
  { m with block? := put m.block? o (some n) }

/-- What `clone_op` does to the store and the mapping, and the new operation. -/
abbrev Cloner := Store → OpRef → Mapping → Option (Store × OpRef × Mapping)

/-- Pass 1 of `clone_region` (context.rs 764-795): the headers of the blocks. -/
def cloneHeaders : List BlockRef → Store → Mapping → Option (Store × List BlockRef × Mapping)
  | [], c, m => some (c, [], m)
  | b :: bs, c, m =>
    match c.blocks[b]? with
    | none => none
    | some d =>
      let (c1, nb) := createBlock c ⟨d.args, [], none⟩
      match cloneHeaders bs c1 ((m.mapBlock b nb).mapValues (c.args b) (c1.args nb)) with
      | none => none
      | some (c2, nbs, m2) => some (c2, nb :: nbs, m2)

/-- The inner loop of pass 2 (context.rs 800-803). -/
def cloneOps (clone : Cloner) (nb : BlockRef) : List OpRef → Store → Mapping →
    Option (Store × Mapping)
  | [], c, m => some (c, m)
  | o :: os, c, m =>
    match clone c o m with
    | none => none
    | some (c1, no, m1) =>
      match pushOp c1 nb no with
      | none => none
      | some c2 => cloneOps clone nb os c2 m1

/-- Pass 2 of `clone_region` (context.rs 798-804). -/
def cloneBodies (clone : Cloner) : List BlockRef → List BlockRef → Store → Mapping →
    Option (Store × Mapping)
  | b :: bs, nb :: nbs, c, m =>
    match c.blocks[b]? with
    | none => none
    | some d =>
      match cloneOps clone nb d.ops c m with
      | none => none
      | some (c1, m1) => cloneBodies clone bs nbs c1 m1
  | _, _, c, m => some (c, m)

/-- `clone_region` (context.rs 758-811). -/
def cloneRegion (clone : Cloner) (c : Store) (r : RegionRef) (m : Mapping) :
    Option (Store × RegionRef × Mapping) :=
  match c.regions[r]? with
  | none => none
  | some d =>
    match cloneHeaders d.blocks c m with
    | none => none
    | some (c1, nbs, m1) =>
      match cloneBodies clone d.blocks nbs c1 m1 with
      | none => none
      | some (c2, m2) =>
        match createRegion c2 ⟨nbs, none⟩ with
        | none => none
        | some (c3, nr) => some (c3, nr, m2)

/-- The loop over the regions of an operation (context.rs 725-728). -/
def cloneRegions (clone : Cloner) : List RegionRef → Store → Mapping →
    Option (Store × List RegionRef × Mapping)
  | [], c, m => some (c, [], m)
  | r :: rs, c, m =>
    match cloneRegion clone c r m with
    | none => none
    | some (c1, nr, m1) =>
      match cloneRegions clone rs c1 m1 with
      | none => none
      | some (c2, nrs, m2) => some (c2, nr :: nrs, m2)

/-- `clone_op` (context.rs 703-743). Operands are looked up before the regions are cloned, successors
after. -/
def cloneOp : Nat → Cloner
  | 0, _, _, _ => none
  | n + 1, c, op, m =>
    match c.ops[op]? with
    | none => none
    | some d =>
      match cloneRegions (cloneOp n) d.regions c m with
      | none => none
      | some (c1, nrs, m1) =>
        match createOp c1 ⟨d.info, d.operands.map m.value, d.resultTys, nrs, d.succs.map m1.block, none⟩ with
        | none => none
        | some (c2, no) => some (c2, no, m1.mapValues (c2.results op) (c2.results no))

/-! ## Histories -/

/-- A call of the interface. The first argument of the recursive ones is their allowance. -/
inductive Cmd where
  | createOp (d : OpData)
  | setResultType (op : OpRef) (i : Nat) (ty : Ty)
  | setOperand (op : OpRef) (i : Nat) (v : Value)
  | pushOperand (op : OpRef) (v : Value)
  | removeOperand (op : OpRef) (i : Nat)
  | removeOp (n : Nat) (op : OpRef)
  | createBlock (d : BlockData)
  | addBlockArg (b : BlockRef) (ty : Ty)
  | prependBlockArg (b : BlockRef) (ty : Ty)
  | setBlockArgType (b : BlockRef) (i : Nat) (ty : Ty)
  | pushOp (b : BlockRef) (op : OpRef)
  | insertOpBefore (b : BlockRef) (before op : OpRef)
  | removeOpFromBlock (b : BlockRef) (op : OpRef)
  | detachOp (op : OpRef)
  | createRegion (d : RegionData)
  | detachRegion (r : RegionRef)
  | replaceAllUses (old new : Value)
  | cloneOp (n : Nat) (op : OpRef) (m : Mapping)
  | cloneRegion (n : Nat) (r : RegionRef) (m : Mapping)

/-- The store after a call; `none`: it panicked. -/
def exec (c : Store) : Cmd → Option Store
  | .createOp d => (IrStore.createOp c d).map Prod.fst
  | .setResultType op i ty => IrStore.setResultType c op i ty
  | .setOperand op i v => IrStore.setOperand c op i v
  | .pushOperand op v => IrStore.pushOperand c op v
  | .removeOperand op i => IrStore.removeOperand c op i
  | .removeOp n op => IrStore.removeOp n c op
  | .createBlock d => some (IrStore.createBlock c d).1
  | .addBlockArg b ty => IrStore.addBlockArg c b ty
  | .prependBlockArg b ty => IrStore.prependBlockArg c b ty
  | .setBlockArgType b i ty => IrStore.setBlockArgType c b i ty
  | .pushOp b op => IrStore.pushOp c b op
  | .insertOpBefore b before op => IrStore.insertOpBefore c b before op
  | .removeOpFromBlock b op => IrStore.removeOpFromBlock c b op
  | .detachOp op => IrStore.detachOp c op
  | .createRegion d => (IrStore.createRegion c d).map Prod.fst
  | .detachRegion r => IrStore.detachRegion c r
  | .replaceAllUses old new => IrStore.replaceAllUses c old new
  | .cloneOp n op m => (IrStore.cloneOp n c op m).map Prod.fst
  | .cloneRegion n r m => (IrStore.cloneRegion (IrStore.cloneOp n) c r m).map Prod.fst

end Verif.IrStore
