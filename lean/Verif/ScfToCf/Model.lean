/-
Model of the lowering of structured control flow to branches,
`crates/trunk-ir/src/transforms/scf_to_cf.rs`, with the helpers `split_block` and
`inline_region_blocks` of `crates/trunk-ir/src/rewrite/helpers.rs`.

Simplifications, for the whole file:
* one function body at a time (`lower_scf_to_cf_func`, lines 54-59); operations other than the
  structured ones have no regions (the pass runs after closures and handlers are lowered,
  src/pipeline.rs 1048-1057), so the loop at lines 91-99 over regions of other operations is absent;
* a block, an operation and a value carry no location and no type;
* values and blocks are numbers; creating one takes the next number of the context, as the arenas
  do;
* the use chain of a value (`has_uses`, `replace_all_uses`) is what can be read off the operands;
* a panic (index 0 of an empty list of blocks) is the result `none`.
-/
namespace Verif.ScfToCf

abbrev Value := Nat
abbrev Label := Nat

mutual
/-- Operations of a function body. `ite`, `loop`, `switch`, `yield`, `cont`, `brk` are `scf.if`,
`scf.loop`, `scf.switch`, `scf.yield`, `scf.continue`, `scf.break` (dialect/scf.rs 3-37); `br` and
`condBr` are `cf.br` and `cf.cond_br` (dialect/cf.rs 3-16); `const` and `cmpEq` are `arith.const`
and `arith.cmpi eq`, which the lowering of switches makes; `plain` is any other operation that
goes on to the next one and `exit` any other one that leaves the function (return, tail call,
unreachable). -/
inductive Op where
  | plain (name : Nat) (args res : List Value)
  | const (attr : Int) (res : Value)
  | cmpEq (x y res : Value)
  | ite (c : Value) (res : List Value) (thenR elseR : List Block)
  | loop (init res : List Value) (body : List Block)
  | switch (d : Value) (res : List Value) (cases : List Case)
  | yield (vs : List Value)
  | cont (vs : List Value)
  | brk (v : Value)
  | br (args : List Value) (dest : Label)
  | condBr (c : Value) (t e : Label)
  | exit (name : Nat) (args : List Value)

/-- A block: its number, its arguments, its operations (`BlockData`, context.rs). -/
inductive Block where
  | mk (label : Label) (params : List Value) (ops : List Op)

/-- An operation in the body of `scf.switch`: `scf.case` with its value, or `scf.default` (`none`)
(dialect/scf.rs 17-27). The body of a switch is taken as the list of these. -/
inductive Case where
  | mk (value : Option Int) (body : List Block)
end

/-- The number of a block. -/
def Block.label : Block → Label
  | .mk l _ _ => l

/-- The operations of a block. -/
def Block.ops : Block → List Op
  | .mk _ _ os => os

/-- The body of a case. -/
def Case.body : Case → List Block
  | .mk _ b => b

mutual
/-- The operands of an operation and of the operations within it: the users recorded in the use
chains (`uses`, context.rs 660-683). -/
def Op.uses : Op → List Value
  | .plain _ as _ => as
  | .const _ _ => []
  | .cmpEq x y _ => [x, y]
  | .ite c _ t e => c :: (usesB t ++ usesB e)
  | .loop i _ b => i ++ usesB b
  | .switch d _ cs => d :: usesC cs
  | .yield vs => vs
  | .cont vs => vs
  | .brk v => [v]
  | .br as _ => as
  | .condBr c _ _ => [c]
  | .exit _ as => as
def usesO : List Op → List Value
  | [] => []
  | o :: os => o.uses ++ usesO os
def usesB : List Block → List Value
  | [] => []
  | .mk _ _ os :: bs => usesO os ++ usesB bs
def usesC : List Case → List Value
  | [] => []
  | .mk _ b :: cs => usesB b ++ usesC cs
end

mutual
/-- `replace_all_uses(r, x)` (context.rs 831-851), in one operation and all within it: every operand
`r` becomes `x`; results and block arguments stay. -/
def Op.rauw (r x : Value) : Op → Op
  | .plain n as rs => .plain n (as.map fun v => if v = r then x else v) rs
  | .const a v => .const a v
  | .cmpEq a b v => .cmpEq (if a = r then x else a) (if b = r then x else b) v
  | .ite c rs t e => .ite (if c = r then x else c) rs (rauwB r x t) (rauwB r x e)
  | .loop i rs b => .loop (i.map fun v => if v = r then x else v) rs (rauwB r x b)
  | .switch d rs cs => .switch (if d = r then x else d) rs (rauwC r x cs)
  | .yield vs => .yield (vs.map fun v => if v = r then x else v)
  | .cont vs => .cont (vs.map fun v => if v = r then x else v)
  | .brk v => .brk (if v = r then x else v)
  | .br as l => .br (as.map fun v => if v = r then x else v) l
  | .condBr c t e => .condBr (if c = r then x else c) t e
  | .exit n as => .exit n (as.map fun v => if v = r then x else v)
def rauwO (r x : Value) : List Op → List Op
  | [] => []
  | o :: os => o.rauw r x :: rauwO r x os
def rauwB (r x : Value) : List Block → List Block
  | [] => []
  | .mk l ps os :: bs => .mk l ps (rauwO r x os) :: rauwB r x bs
def rauwC (r x : Value) : List Case → List Case
  | [] => []
  | .mk v b :: cs => .mk v (rauwB r x b) :: rauwC r x cs
end

/-- The state of the pass: the blocks of the function's body region in order, and the next number of
a block and of a value (`IrContext`'s arenas). -/
structure Ctx where
  blocks : List Block
  nextLabel : Label
  nextValue : Value

/-- `is_scf_control_flow` (scf_to_cf.rs 121-128). -/
def Op.isScf : Op → Bool
  | .ite .. => true
  | .loop .. => true
  | .switch .. => true
  | _ => false

/-- The operations before the first structured operation of a block, that operation, and those after
it: lines 102-106 together with the split of `split_block` (helpers.rs 40-69), after
`detach_op` (lines 161, 206, 268). -/
def splitScf : List Op → Option (List Op × Op × List Op)
  | [] => none
  | o :: os =>
    if o.isScf then some ([], o, os)
    else (splitScf os).map fun (b, s, a) => (o :: b, s, a)

/-- Whether an operation is `scf.yield`. -/
def Op.isYield : Op → Bool
  | .yield _ => true
  | _ => false

/-- The branch put in place of a yield: it passes as many values as the target has arguments
(lines 403-409). -/
def yieldBr (m : Label) (k : Nat) : Op → Option Op
  | .yield vs => some (.br (vs.take k) m)
  | _ => none

/-- `replace_yield_with_br` (lines 391-417): in each of the blocks every yield is erased and a branch
is pushed at the end of the block. -/
def replaceYield (m : Label) (k : Nat) (bs : List Block) : List Block :=
  bs.map fun
    | .mk l ps os => .mk l ps (os.filter (fun o => !o.isYield) ++ os.filterMap (yieldBr m k))

mutual
/-- The regions of an operation under `replace_continue_break`, lines 475-482: a nested loop is left
alone, every other region is searched. -/
def Op.replaceCB (h x : Label) (k : Nat) : Op → Op
  | .ite c rs t e => .ite c rs (replaceCBB h x k t) (replaceCBB h x k e)
  | .switch d rs cs => .switch d rs (replaceCBC h x k cs)
  | o => o
/-- The loop over the operations of a block (lines 433-483): the operations that stay, with the
replacements made within them, and the branches pushed at the end of the block. A `break` passes its
value exactly if the exit block has an argument (line 449). -/
def replaceCBO (h x : Label) (k : Nat) : List Op → List Op × List Op
  | [] => ([], [])
  | o :: os =>
    let rest := replaceCBO h x k os
    match o with
    | .cont vs => (rest.1, .br vs h :: rest.2)
    | .brk v => (rest.1, .br (if k ≠ 0 then [v] else []) x :: rest.2)
    | .plain .. | .const .. | .cmpEq .. | .ite .. | .loop .. | .switch .. | .yield .. | .br ..
    | .condBr .. | .exit .. => (o.replaceCB h x k :: rest.1, rest.2)
/-- `replace_continue_break` (lines 423-486) on a list of blocks. -/
def replaceCBB (h x : Label) (k : Nat) : List Block → List Block
  | [] => []
  | .mk l ps os :: bs =>
    .mk l ps ((replaceCBO h x k os).1 ++ (replaceCBO h x k os).2) :: replaceCBB h x k bs
/-- `replace_continue_break` on the regions of the cases of a switch. -/
def replaceCBC (h x : Label) (k : Nat) : List Case → List Case
  | [] => []
  | .mk v b :: cs => .mk v (replaceCBB h x k b) :: replaceCBC h x k cs
end

/-- Put blocks in place of the block with number `b`: the insertions of `split_block` (after the
block, helpers.rs 72-84) and `inline_region_blocks` (before the merge block, helpers.rs 116-129). -/
def replaceBlock (b : Label) (new : List Block) : List Block → List Block
  | [] => []
  | blk :: bs => if blk.label = b then new ++ bs else blk :: replaceBlock b new bs

/-- What became of the structured operation: left alone (malformed), a panic, or lowered, with the
blocks that were inlined. -/
inductive Lowered where
  | untouched
  | panic
  | done (c : Ctx) (inlined : List Label)

/-- The number of the first block, `blocks[0]`. -/
def firstLabel : List Block → Option Label
  | [] => none
  | b :: _ => some b.label

/-- The blocks of the function after `replace_all_uses`, if a result is replaced. -/
def replaceUses (s : Option (Value × Value)) (bs : List Block) : List Block :=
  match s with
  | none => bs
  | some (r, x) => rauwB r x bs

/-- The same for operations. -/
def replaceUsesO (s : Option (Value × Value)) (os : List Op) : List Op :=
  match s with
  | none => os
  | some (r, x) => rauwO r x os

/-- The arguments of the merge block. -/
def mergeParams : Option (Value × Value) → List Value
  | none => []
  | some (_, x) => [x]

/-- The replacement made for the results of `scf.if`: only a used result gets an argument of the merge
block (lines 138-143); more than one result: the operation is left alone. -/
def ifResult (c : Ctx) : List Value → Option (Option (Value × Value))
  | [] => some none
  | [r] => if r ∈ usesB c.blocks then some (some (r, c.nextValue)) else some none
  | _ => none

/-- `lower_scf_if` (lines 131-186) up to the recursive calls. -/
def lowerIf (c : Ctx) (b : Label) (ps : List Value) (before after : List Op) (cond : Value)
    (res : List Value) (t e : List Block) : Lowered :=
  match ifResult c res with
  | none => .untouched
  | some s =>
    let m := c.nextLabel
    let k := (mergeParams s).length
    match firstLabel t, firstLabel e with
    | some te, some ee =>
      let t' := replaceYield m k (replaceUses s t)
      let e' := replaceYield m k (replaceUses s e)
      let new := [.mk b ps (replaceUsesO s before ++ [.condBr cond te ee])] ++ t' ++ e' ++
        [.mk m (mergeParams s) (replaceUsesO s after)]
      .done ⟨replaceBlock b new (replaceUses s c.blocks), m + 1,
        c.nextValue + (mergeParams s).length⟩ (t.map Block.label ++ e.map Block.label)
    | _, _ => .panic

/-- The replacement made for the results of `scf.loop`: a result always gets an argument of the exit
block (lines 195-199, 208-219). -/
def loopResult (c : Ctx) : List Value → Option (Option (Value × Value))
  | [] => some none
  | [r] => some (some (r, c.nextValue))
  | _ => none

/-- `lower_scf_loop` (lines 189-238) up to the recursive calls. -/
def lowerLoop (c : Ctx) (b : Label) (ps : List Value) (before after : List Op)
    (init res : List Value) (body : List Block) : Lowered :=
  match loopResult c res with
  | none => .untouched
  | some s =>
    let x := c.nextLabel
    let k := (mergeParams s).length
    match firstLabel body with
    | some h =>
      let body' := replaceCBB h x k (replaceUses s body)
      let new := [.mk b ps (replaceUsesO s before ++ [.br init h])] ++ body' ++
        [.mk x (mergeParams s) (replaceUsesO s after)]
      .done ⟨replaceBlock b new (replaceUses s c.blocks), x + 1,
        c.nextValue + (mergeParams s).length⟩ (body.map Block.label)
    | none => .panic

/-- The cases of a switch in order (lines 258-265). -/
def casesOf : List Case → List (Int × List Block)
  | [] => []
  | .mk (some v) b :: cs => (v, b) :: casesOf cs
  | .mk none _ :: cs => casesOf cs

/-- The default of a switch; the last one wins (lines 262-264). -/
def defaultOf : List Case → Option (List Block)
  | [] => none
  | .mk (some _) _ :: cs => defaultOf cs
  | .mk none b :: cs => (defaultOf cs).or (some b)

/-- The chain of comparisons (lines 327-375). `cur` is the block being filled, with its arguments and
operations so far; `l` and `v` are the next numbers. The result is the finished blocks: the first is
`cur`, the others were inserted before the merge block one after the other. -/
def chain (d : Value) (dflt : Label) :
    List (Int × Label) → Label → List Value → List Op → Label → Value → List Block
  | [], cur, ps, os, _, _ => [.mk cur ps (os ++ [.br [] dflt])]
  | [(a, entry)], cur, ps, os, _, v =>
    [.mk cur ps (os ++ [.const a v, .cmpEq d v (v + 1), .condBr (v + 1) entry dflt])]
  | (a, entry) :: rest, cur, ps, os, l, v =>
    .mk cur ps (os ++ [.const a v, .cmpEq d v (v + 1), .condBr (v + 1) entry l]) ::
      chain d dflt rest l [] [] (l + 1) (v + 2)

/-- The first blocks of the cases (`case_entries`, line 281). -/
def entries : List (Int × List Block) → Option (List (Int × Label))
  | [] => some []
  | (a, b) :: cs =>
    match firstLabel b, entries cs with
    | some l, some ls => some ((a, l) :: ls)
    | _, _ => none

/-- `lower_scf_switch` (lines 241-385) up to the recursive calls. The numbers of the new blocks are
taken in the order of the code: the merge block, the block of a missing default, the blocks of the
chain. -/
def lowerSwitch (c : Ctx) (b : Label) (ps : List Value) (before after : List Op) (d : Value)
    (res : List Value) (cases : List Case) : Lowered :=
  if res ≠ [] then .untouched else
  let m := c.nextLabel
  let cs := casesOf cases
  match entries cs with
  | none => .panic
  | some es =>
    let inlined := cs.flatMap fun p => replaceYield m 0 p.2
    match defaultOf cases with
    | some db =>
      match firstLabel db with
      | none => .panic
      | some de =>
        let ch := chain d de es b ps before (m + 1) c.nextValue
        let new := ch.take 1 ++ (inlined ++ replaceYield m 0 db) ++ ch.drop 1 ++ [.mk m [] after]
        .done ⟨replaceBlock b new c.blocks, m + 1 + (es.length - 1),
          c.nextValue + 2 * es.length⟩
          ((cs.flatMap fun p => p.2.map Block.label) ++ db.map Block.label)
    | none =>
      let ch := chain d (m + 1) es b ps before (m + 2) c.nextValue
      let new := ch.take 1 ++ (inlined ++ [.mk (m + 1) [] [.br [] m]]) ++ ch.drop 1 ++
        [.mk m [] after]
      .done ⟨replaceBlock b new c.blocks, m + 2 + (es.length - 1),
        c.nextValue + 2 * es.length⟩ (cs.flatMap fun p => p.2.map Block.label)

/-- The choice at lines 110-116. -/
def lowerOp (c : Ctx) (b : Label) (ps : List Value) (before : List Op) (op : Op)
    (after : List Op) : Lowered :=
  match op with
  | .ite cond res t e => lowerIf c b ps before after cond res t e
  | .loop init res body => lowerLoop c b ps before after init res body
  | .switch d res cases => lowerSwitch c b ps before after d res cases
  | _ => .untouched

/-- The block with a number. -/
def findBlock (b : Label) : List Block → Option Block
  | [] => none
  | blk :: bs => if blk.label = b then some blk else findBlock b bs

/-- `transform_block` (lines 88-117), with the recursive calls at the end of the three lowerings
(lines 180-185, 234-237, 379-384). `none` is a panic, or the end of the recursion allowance. -/
def transformBlock : Nat → Label → Ctx → Option Ctx
  | 0, _, _ => none
  | n + 1, b, c =>
    match findBlock b c.blocks with
    | none => none
    | some (.mk _ ps ops) =>
      match splitScf ops with
      | none => some c
      | some (before, op, after) =>
        match lowerOp c b ps before op after with
        | .untouched => some c
        | .panic => none
        | .done c' inlined => inlined.foldlM (fun c l => transformBlock n l c) c'

/-- `transform_region` (lines 69-82): the blocks by index, while there are any. -/
def transformRegion (fuel : Nat) : Nat → Nat → Ctx → Option Ctx
  | 0, _, _ => none
  | n + 1, i, c =>
    match c.blocks[i]? with
    | none => some c
    | some blk =>
      match transformBlock fuel blk.label c with
      | none => none
      | some c' => transformRegion fuel n (i + 1) c'

mutual
/-- How many blocks the lowering of an operation adds to the function. -/
def Op.weight : Op → Nat
  | .ite _ _ t e => 1 + weightB t + weightB e
  | .loop _ _ b => 1 + weightB b
  | .switch _ _ cs => 2 + weightC cs
  | _ => 0
def weightO : List Op → Nat
  | [] => 0
  | o :: os => o.weight + weightO os
def weightB : List Block → Nat
  | [] => 0
  | .mk _ _ os :: bs => 1 + weightO os + weightB bs
def weightC : List Case → Nat
  | [] => 0
  | .mk _ b :: cs => 1 + weightB b + weightC cs
end

/-- `lower_scf_to_cf_func` (lines 54-59). The code has no limit on rounds and recursion; the model
allows one more than the blocks of the result, and `C57_ends` shows that this is enough. -/
def lowerFunc (c : Ctx) : Option Ctx :=
  transformRegion (weightB c.blocks + 1) (weightB c.blocks + 1) 0 c

end Verif.ScfToCf
