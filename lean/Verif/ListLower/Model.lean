import Verif.ScfToCf.Model

/-!
# Lowering of list operations to native nodes

Models `crates/tribute-passes/src/native/list.rs`: `lower` (20-29), `lower_observations` (55-71),
`lower_observation` (73-151) and the patterns `EmptyPattern`, `PrependPattern`, `IsEmptyPattern` (153-216), with
`split_block` of `crates/trunk-ir/src/rewrite/helpers.rs` 40-90 and `replace_all_uses`.

The function bodies are those of `Verif.ScfToCf` (the pass runs just before that lowering, `src/pipeline.rs` 1045-1057).

Simplifications, besides those stated there:
* one function body at a time; a walk over the module visits its functions one after the other, and lowering an observation
  changes only the function it stands in;
* what an operation is, with its element type, is coded in the name of `plain`: `Names` says which names are which;
* an operation is known by its result (`OpRef` in the code);
* the operations that take the place of `list.empty`, `list.prepend`, `list.is_empty` keep the name of the result; the code
  makes a new one and replaces all uses (`PatternRewriter::replace_op`).
-/

namespace Verif.ListLower

open Verif.ScfToCf

/-- The operations of the `list` dialect, with the element type (`crates/tribute-ir/src/dialect/list.rs`). `observe` is
`list.head` (field 0) and `list.tail` (field 1). -/
inductive ListOp where
  | empty (ty : Nat)
  | prepend (ty : Nat)
  | isEmpty (ty : Nat)
  | observe (ty : Nat) (tail : Bool)
  deriving DecidableEq, Repr

/-- The names of operations: which are list operations, and the names of `adt.ref_null`, `adt.struct_new`,
`adt.struct_get` (with the node type for an element type, `node_type` 31-53), `adt.ref_is_null`, and
`func.unreachable`. -/
structure Names where
  kind : Nat → Option ListOp
  null : Nat → Nat
  node : Nat → Nat
  field : Nat → Bool → Nat
  isNull : Nat
  unreachable : Nat

/-- An entry of `observations` (56-64): the result and the list operand of the operation, the element type, the field. -/
structure Obs where
  res : Value
  list : Value
  ty : Nat
  tail : Bool
  deriving DecidableEq, Repr

/-- The two `from_op` tests, 58-62. -/
def obsPlain (N : Names) (n : Nat) (as rs : List Value) : List Obs :=
  match N.kind n, as, rs with
  | some (.observe ty tail), [l], [r] => [⟨r, l, ty, tail⟩]
  | _, _, _ => []

mutual
/-- The walk of `lower_observations`, 57-64: an operation, then the regions within it. -/
def Op.obs (N : Names) : Op → List Obs
  | .plain n as rs => obsPlain N n as rs
  | .ite _ _ t e => obsB N t ++ obsB N e
  | .loop _ _ b => obsB N b
  | .switch _ _ cs => obsC N cs
  | _ => []
def obsO (N : Names) : List Op → List Obs
  | [] => []
  | o :: os => Op.obs N o ++ obsO N os
def obsB (N : Names) : List Block → List Obs
  | [] => []
  | .mk _ _ os :: bs => obsO N os ++ obsB N bs
def obsC (N : Names) : List Case → List Obs
  | [] => []
  | .mk _ b :: cs => obsB N b ++ obsC N cs
end

/-- Whether the operation has the result, and is not control flow. -/
def Op.isAt (r : Value) : Op → Bool
  | .plain _ _ rs => rs.contains r
  | _ => false

/-- The operations before the one with the given result and those after it: what `split_block` (helpers.rs 40-69)
leaves in the block and what it moves, without the operation itself, which is removed (97-98). -/
def splitObs (r : Value) : List Op → Option (List Op × List Op)
  | [] => none
  | o :: os => if Op.isAt r o then some ([], os) else (splitObs r os).map (fun (b, a) => (o :: b, a))

/-- What an operation is lowered with: the entry, and the next numbers of the context. -/
structure Site where
  N : Names
  obs : Obs
  nextLabel : Label
  nextValue : Value

/-- The argument of the continuation block (89-95). -/
def Site.arg (S : Site) : Value := S.nextValue
/-- The result of `adt.ref_is_null` (125). -/
def Site.cond (S : Site) : Value := S.nextValue + 1
/-- The result of `adt.struct_get` (140). -/
def Site.proj (S : Site) : Value := S.nextValue + 2
/-- The continuation block (88). -/
def Site.contL (S : Site) : Label := S.nextLabel
/-- The block that traps (100). -/
def Site.trapL (S : Site) : Label := S.nextLabel + 1
/-- The block that reads the field (106). -/
def Site.projL (S : Site) : Label := S.nextLabel + 2

/-- What reads of a value become (`replace_all_uses`, 96). -/
def Site.ren (S : Site) (v : Value) : Value := if v = S.obs.res then S.arg else v

/-- The four blocks that a block becomes, 82-151; `before` and `after` are already rewritten. The list operand is the
one that was noted down, whatever has become of it since. -/
def Site.blocks (S : Site) (b : Label) (ps : List Value) (before after : List Op) : List Block :=
  [.mk b ps (before ++ [.plain S.N.isNull [S.obs.list] [S.cond], .condBr S.cond S.trapL S.projL]),
   .mk S.trapL [] [.exit S.N.unreachable []],
   .mk S.projL [] [.plain (S.N.field S.obs.ty S.obs.tail) [S.obs.list] [S.proj], .br [S.proj] S.contL],
   .mk S.contL [S.arg] after]

mutual
/-- `lower_observation` (73-151) in an operation and all within it: uses of the result are replaced, and the block with
the operation is split. -/
def Op.low (S : Site) : Op → Op
  | .plain n as rs => .plain n (as.map S.ren) rs
  | .const a v => .const a v
  | .cmpEq x y v => .cmpEq (S.ren x) (S.ren y) v
  | .ite c rs t e => .ite (S.ren c) rs (lowB S t) (lowB S e)
  | .loop i rs b => .loop (i.map S.ren) rs (lowB S b)
  | .switch d rs cs => .switch (S.ren d) rs (lowC S cs)
  | .yield vs => .yield (vs.map S.ren)
  | .cont vs => .cont (vs.map S.ren)
  | .brk v => .brk (S.ren v)
  | .br as l => .br (as.map S.ren) l
  | .condBr c t e => .condBr (S.ren c) t e
  | .exit n as => .exit n (as.map S.ren)
def lowO (S : Site) : List Op → List Op
  | [] => []
  | o :: os => Op.low S o :: lowO S os
def lowB (S : Site) : List Block → List Block
  | [] => []
  | .mk l ps os :: bs =>
    (match splitObs S.obs.res (lowO S os) with
      | some (before, after) => S.blocks l ps before after
      | none => [.mk l ps (lowO S os)]) ++ lowB S bs
def lowC (S : Site) : List Case → List Case
  | [] => []
  | .mk v b :: cs => .mk v (lowB S b) :: lowC S cs
end

/-- `lower_observation` in a function. -/
def lowerObs (N : Names) (c : Ctx) (o : Obs) : Ctx :=
  ⟨lowB ⟨N, o, c.nextLabel, c.nextValue⟩ c.blocks, c.nextLabel + 3, c.nextValue + 3⟩

/-- The loop of `lower_observations`, 66-70: from the last to the first. -/
def lowerAll (N : Names) (c : Ctx) : Ctx := (obsB N c.blocks).reverse.foldl (lowerObs N) c

mutual
/-- The patterns, 153-216. -/
def Op.sub (N : Names) : Op → Op
  | .plain n as rs =>
    match N.kind n with
    | some (.empty ty) => .plain (N.null ty) as rs
    | some (.prepend ty) => .plain (N.node ty) as rs
    | some (.isEmpty _) => .plain N.isNull as rs
    | _ => .plain n as rs
  | .ite c rs t e => .ite c rs (subB N t) (subB N e)
  | .loop i rs b => .loop i rs (subB N b)
  | .switch d rs cs => .switch d rs (subC N cs)
  | o => o
def subO (N : Names) : List Op → List Op
  | [] => []
  | o :: os => Op.sub N o :: subO N os
def subB (N : Names) : List Block → List Block
  | [] => []
  | .mk l ps os :: bs => .mk l ps (subO N os) :: subB N bs
def subC (N : Names) : List Case → List Case
  | [] => []
  | .mk v b :: cs => .mk v (subB N b) :: subC N cs
end

/-- `lower`, 20-29. -/
def lower (N : Names) (c : Ctx) : Ctx :=
  let c' := lowerAll N c
  { c' with blocks := subB N c'.blocks }

end Verif.ListLower
