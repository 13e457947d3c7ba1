import Verif.CallGraph.Model
/-!
# Inlining of function calls

Model of `crates/trunk-ir/src/transforms/inline.rs` 32-435, of the cloning of operations in
`crates/trunk-ir/src/context.rs` 703-860 with `crates/trunk-ir/src/ir_mapping.rs` 16-82, and of the part of
`crates/trunk-ir/src/rewrite/{applicator,rewriter}.rs` that drives the pass.

Simplifications:
* the arena is a tree of functions, operations and regions in which every operation and every value has a
  number; the next free number of each kind is part of the module (`Arena`);
* attributes, types and locations are part of the operation's kind; only the kinds the pass looks at are
  told apart;
* a nested region has exactly one block (the pass runs before structured control flow is lowered to
  blocks); the body of a function is a list of blocks, since the pass checks its length;
* functions of nested modules appear under their qualified names in one flat list;
* use chains are not represented: `replace_all_uses` renames the operands of all operations.
-/
namespace Verif.Inline

abbrev Value := Nat
abbrev OpId := Nat
abbrev Sym := CallGraph.Sym

/-- The kinds of operation the pass, the call graph and the semantics tell apart. -/
inductive Kind where
  /-- `func.call`; the symbol attribute may be missing -/
  | call (callee : Option Sym)
  /-- `func.tail_call` -/
  | tailCall (callee : Option Sym)
  /-- `func.tail_call_indirect` -/
  | tailCallIndirect
  /-- `func.return` -/
  | ret
  /-- a terminator of a nested region, such as `scf.yield` or `scf.break` -/
  | leave (name : Nat)
  /-- `func.constant` -/
  | constant (funcRef : Option Sym)
  /-- any other operation, with its attributes -/
  | other (name : Nat)
deriving DecidableEq, Repr

/-- `OperationData` without the regions. -/
structure Head where
  id : OpId
  kind : Kind
  operands : List Value
  results : List Value
deriving DecidableEq, Repr

mutual
/-- The operations of a block. -/
inductive Ops where
  | nil
  | cons (head : Head) (regions : Regions) (rest : Ops)
/-- The regions of an operation: the parameters and the operations of their block. -/
inductive Regions where
  | nil
  | cons (params : List Value) (body : Ops) (rest : Regions)
end

/-- A block of a function body. -/
structure Block where
  params : List Value
  ops : Ops

/-- `func.func`: its name, whether it has the `abi` attribute, the number of results of its type, and its
body region, if any. -/
structure Func where
  name : Sym
  abi : Bool
  results : Nat
  body : Option (List Block)

/-- Sizes of the value and the operation arena. -/
structure Arena where
  value : Nat
  op : Nat

/-- A module with its arena. -/
structure Module where
  funcs : List Func
  arena : Arena

/-- Appending operations to those of a block. -/
def Ops.append : Ops → Ops → Ops
  | .nil, b => b
  | .cons h rs a, b => .cons h rs (a.append b)

/-- The operations of a block without the last one, and the last one (`split_last`). -/
def Ops.splitLast : Ops → Option (Ops × Head)
  | .nil => none
  | .cons h _ .nil => some (.nil, h)
  | .cons h rs rest => do
    let (body, last) ← rest.splitLast
    some (.cons h rs body, last)

/-! ## Cloning -/

/-- `IrMapping`, ir_mapping.rs 16-21: the values; the latest entry for a value counts. -/
abbrev Mapping := List (Value × Value)

/-- `lookup_value_or_default`, ir_mapping.rs 57-59. -/
def Mapping.find (m : Mapping) (v : Value) : Value := (m.lookup v).getD v

/-- The state of a clone: the mapping and the arena. -/
structure Cloning where
  mapping : Mapping
  arena : Arena

/-- Creation of as many values as there are in `olds`, and registration of the correspondence;
context.rs 737-744 for results, 769-793 for block arguments. -/
def Cloning.freshen (s : Cloning) (olds : List Value) : List Value × Cloning :=
  let news := List.range' s.arena.value olds.length
  (news, { mapping := olds.zip news ++ s.mapping
           arena := { s.arena with value := s.arena.value + olds.length } })

/-- Creation of an operation. -/
def Cloning.newOp (s : Cloning) : OpId × Cloning :=
  (s.arena.op, { s with arena := { s.arena with op := s.arena.op + 1 } })

mutual
/-- `clone_op`, context.rs 703-747, for the operations of a block in order: operands are looked up first,
then the regions are cloned, then the results are created and registered. -/
def cloneOps (s : Cloning) : Ops → Ops × Cloning
  | .nil => (.nil, s)
  | .cons h rs rest =>
    let operands := h.operands.map s.mapping.find
    let (rs', s1) := cloneRegions s rs
    let (id, s2) := s1.newOp
    let (results, s3) := s2.freshen h.results
    let (rest', s4) := cloneOps s3 rest
    (.cons ⟨id, h.kind, operands, results⟩ rs' rest', s4)
/-- `clone_region`, context.rs 758-812. -/
def cloneRegions (s : Cloning) : Regions → Regions × Cloning
  | .nil => (.nil, s)
  | .cons ps body rest =>
    let (ps', s1) := s.freshen ps
    let (body', s2) := cloneOps s1 body
    let (rest', s3) := cloneRegions s2 rest
    (.cons ps' body' rest', s3)
end

/-! ## One call site -/

/-- `InlineError`, inline.rs 32-53, without the errors about malformed references. -/
inductive InlineError where
  | calleeHasNoBody
  | calleeHasEmptyBody
  | multiBlockCallee
  | calleeHasNoReturn
  | arityMismatch
  | notACall
  /-- the operation is not attached to any block -/
  | callOpDetached
deriving DecidableEq, Repr

/-- `func::Call::matches` or `func::TailCall::matches`, inline.rs 71-75. -/
def Kind.isCall : Kind → Bool
  | .call _ => true
  | .tailCall _ => true
  | _ => false

/-- `func::TailCall::matches`, inline.rs 71. -/
def Kind.isTail : Kind → Bool
  | .tailCall _ => true
  | _ => false

/-- What `splice_callee_body_before` produces: the clones, the mapped return values, the arena. -/
structure Spliced where
  clones : Ops
  values : List Value
  arena : Arena

/-- `splice_callee_body_before`, inline.rs 115-184. -/
def spliceCalleeBody (arena : Arena) (call : Head) (callee : Func) : Except InlineError Spliced :=
  if !call.kind.isCall then .error .notACall
  else match callee.body with
    | none => .error .calleeHasNoBody
    | some (_ :: _ :: _) => .error .multiBlockCallee
    | some [] => .error .calleeHasEmptyBody
    | some [entry] =>
      if entry.params.length ≠ call.operands.length then .error .arityMismatch
      else match entry.ops.splitLast with
        | none => .error .calleeHasEmptyBody
        | some (body, last) =>
          if last.kind ≠ .ret then .error .calleeHasNoReturn
          else
            let r := cloneOps ⟨(entry.params.zip call.operands).reverse, arena⟩ body
            .ok ⟨r.1, last.operands.map r.2.mapping.find, r.2.arena⟩

/-- Renaming of one operand, `replace_all_uses`, context.rs 831-850. -/
def renameUse (old new v : Value) : Value := if v = old then new else v

mutual
/-- `replace_all_uses`, context.rs 831-850, on the operations of a block. -/
def Ops.replaceUses (old new : Value) : Ops → Ops
  | .nil => .nil
  | .cons h rs rest =>
    .cons { h with operands := h.operands.map (renameUse old new) } (rs.replaceUses old new)
      (rest.replaceUses old new)
/-- See `Ops.replaceUses`. -/
def Regions.replaceUses (old new : Value) : Regions → Regions
  | .nil => .nil
  | .cons ps body rest => .cons ps (body.replaceUses old new) (rest.replaceUses old new)
end

mutual
/-- Insertion of operations before the operation `target`, and removal of that operation: `insert_op_before`
(context.rs 586-600) with `erase_op`. -/
def Ops.splice (target : OpId) (new : Ops) : Ops → Ops
  | .nil => .nil
  | .cons h rs rest =>
    if h.id = target then new.append (Ops.splice target new rest)
    else .cons h (Regions.splice target new rs) (Ops.splice target new rest)
/-- See `Ops.splice`. -/
def Regions.splice (target : OpId) (new : Ops) : Regions → Regions
  | .nil => .nil
  | .cons ps body rest => .cons ps (Ops.splice target new body) (Regions.splice target new rest)
end

mutual
/-- The operation with a given number. -/
def Ops.find (target : OpId) : Ops → Option Head
  | .nil => none
  | .cons h rs rest =>
    if h.id = target then some h else (rs.find target).or (rest.find target)
/-- See `Ops.find`. -/
def Regions.find (target : OpId) : Regions → Option Head
  | .nil => none
  | .cons _ body rest => (body.find target).or (rest.find target)
end

/-- The operation with a given number in a module. -/
def Module.find (m : Module) (target : OpId) : Option Head :=
  m.funcs.findSome? fun f => (f.body.getD []).findSome? fun b => b.ops.find target

/-- Applying a change to the operations of all blocks. -/
def Func.mapOps (t : Ops → Ops) (f : Func) : Func :=
  { f with body := f.body.map fun bs => bs.map fun b => { b with ops := t b.ops } }

/-- The loop over the results of the call, inline.rs 95-97. -/
def replaceAll : List (Value × Value) → Ops → Ops
  | [], o => o
  | (old, new) :: rest, o => replaceAll rest (o.replaceUses old new)

/-- `inline_single_call`, inline.rs 66-103, and the same steps taken by the pattern, 427-435. -/
def inlineSingle (m : Module) (target : OpId) (callee : Func) : Except InlineError Module :=
  match m.find target with
  | none => .error .callOpDetached
  | some call =>
    match spliceCalleeBody m.arena call callee with
    | .error e => .error e
    | .ok sp =>
      if call.kind.isTail then
        let ret : Head := ⟨sp.arena.op, .ret, sp.values, []⟩
        .ok { funcs := m.funcs.map (Func.mapOps (Ops.splice target (sp.clones.append (.cons ret .nil .nil))))
              arena := { sp.arena with op := sp.arena.op + 1 } }
      else
        .ok { funcs := m.funcs.map (Func.mapOps fun o =>
                replaceAll (call.results.zip sp.values) (Ops.splice target sp.clones o))
              arena := sp.arena }

/-! ## Policy -/

/-- `InlineConfig`, inline.rs 194-205. -/
structure Config where
  sizeThreshold : Nat
  alwaysInlineSingleCallSite : Bool
  inlineAcrossFuncConstant : Bool

/-- `InlineConfig::default`, inline.rs 207-215. -/
def Config.default : Config := ⟨16, true, false⟩

mutual
/-- `region_op_count`, inline.rs 223-238. -/
def Ops.count : Ops → Nat
  | .nil => 0
  | .cons _ rs rest => 1 + rs.count + rest.count
/-- See `Ops.count`. -/
def Regions.count : Regions → Nat
  | .nil => 0
  | .cons _ body rest => body.count + rest.count
end

/-- `op_count`, inline.rs 218-221. -/
def Func.opCount (f : Func) : Nat := ((f.body.getD []).map fun b => b.ops.count).sum

/-- What the call graph sees of an operation, call_graph.rs 157-178. -/
def Kind.bodyOp : Kind → CallGraph.BodyOp
  | .call c => .call c
  | .tailCall c => .tailCall c
  | .constant c => .constant c
  | _ => .other

mutual
/-- The walk of `collect_calls_from_region`, call_graph.rs 157-178. -/
def Ops.walk : Ops → List CallGraph.BodyOp
  | .nil => []
  | .cons h rs rest => h.kind.bodyOp :: (rs.walk ++ rest.walk)
/-- See `Ops.walk`. -/
def Regions.walk : Regions → List CallGraph.BodyOp
  | .nil => []
  | .cons _ body rest => body.walk ++ rest.walk
end

/-- The operations of a function as the call graph sees them. -/
def Func.walk (f : Func) : List CallGraph.BodyOp := (f.body.getD []).flatMap fun b => b.ops.walk

/-- The module as the call graph sees it. -/
def items : List Func → CallGraph.Items
  | [] => .nil
  | f :: fs => .func (some f.name) f.walk (items fs)

/-- The analysis the pattern captures: the call graph and the recursive functions; `none` stands for a panic of
the analysis. inline.rs 337-340. -/
structure Analysis where
  built : CallGraph.Built
  recursive : List Sym
  /-- `func_ops`: the function operation of every name, the last one with the name -/
  funcOp : Sym → Option Func

/-- The function operation `func_ops` holds for a name: the last with that name. -/
def lastNamed (fs : List Func) (name : Sym) : Option Func := fs.reverse.find? fun f => f.name = name

/-- `am.get::<CallGraph>` and `recursive_functions`, inline.rs 337-340. -/
def analyse (m : Module) : Option Analysis := do
  let built := CallGraph.buildCallGraph (items m.funcs)
  let recursive ← CallGraph.recursiveFunctions built.graph
  some ⟨built, recursive, lastNamed m.funcs⟩

/-- `should_inline`, inline.rs 246-288; the operation `func_ops` points to is looked at in the current
module `m`, the rest comes from the captured analysis. -/
def shouldInline (a : Analysis) (c : Config) (m : Module) (callee : Sym) : Bool :=
  if (a.funcOp callee).isNone then false
  else match lastNamed m.funcs callee with
    | none => false
    | some f =>
      if f.body.isNone then false
      else if f.abi then false
      else if callee ∈ a.recursive then false
      else
        let escapes := decide (callee ∈ a.built.constantRefs)
        if c.alwaysInlineSingleCallSite && !escapes && a.built.callSites.count callee == 1 then true
        else if !escapes || c.inlineAcrossFuncConstant then decide (f.opCount ≤ c.sizeThreshold)
        else false

/-- `get_symbol("callee")`, inline.rs 414-416. -/
def Kind.callee : Kind → Option Sym
  | .call c => c
  | .tailCall c => c
  | _ => none

/-- `match_and_rewrite`, inline.rs 402-435, on the operation `target`; the second component tells whether the
pattern matched. -/
def tryInline (a : Analysis) (c : Config) (m : Module) (target : OpId) : Module × Bool :=
  match m.find target with
  | none => (m, false)
  | some call =>
    if !call.kind.isCall then (m, false)
    else match call.kind.callee with
      | none => (m, false)
      | some g =>
        if !shouldInline a c m g then (m, false)
        else match lastNamed m.funcs g with
          | none => (m, false)
          | some f =>
            match inlineSingle m target f with
            | .error _ => (m, false)
            | .ok m' => (m', true)

/-! ## The pass -/

mutual
/-- The operations in the order the applicator visits them: nested regions first, then the operation
(applicator.rs 284-355). Only operations that were visited are removed, and new ones are inserted before the
visited one, so the snapshots taken along the way hold the operations present when the iteration starts. -/
def Ops.visit : Ops → List OpId
  | .nil => []
  | .cons h rs rest => rs.visit ++ h.id :: rest.visit
/-- See `Ops.visit`. -/
def Regions.visit : Regions → List OpId
  | .nil => []
  | .cons _ body rest => body.visit ++ rest.visit
end

/-- All operations of the module in visiting order. -/
def Module.visit (m : Module) : List OpId :=
  m.funcs.flatMap fun f => (f.body.getD []).flatMap fun b => b.ops.visit

/-- The loop over the visited operations, counting the changes. -/
def sweep (a : Analysis) (c : Config) : List OpId → Module → Module × Nat
  | [], m => (m, 0)
  | t :: ts, m =>
    let (m1, hit) := tryInline a c m t
    let (m2, n) := sweep a c ts m1
    (m2, (if hit then 1 else 0) + n)

/-- One iteration of the applicator, applicator.rs 188-212 with `max_iterations` 1: `run_one_iteration`. -/
def iteration (c : Config) (m : Module) : Option (Module × Nat) := do
  let a ← analyse m
  some (sweep a c m.visit m)

/-- `inline_functions_with_config`, inline.rs 332-361: the module and the number of inlined calls. `fuel` bounds
the number of iterations; `none` when it runs out (and for a panic of the analysis). -/
def inlineFunctions (c : Config) : Nat → Module → Option (Module × Nat)
  | 0, _ => none
  | fuel + 1, m => do
    let (m1, n) ← iteration c m
    if n = 0 then some (m1, 0)
    else do
      let (m2, n2) ← inlineFunctions c fuel m1
      some (m2, n + n2)

end Verif.Inline
