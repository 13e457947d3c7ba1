/-
Model of the lowering of structured control flow to WebAssembly:
`crates/trunk-ir-wasm-backend/src/passes/scf_to_wasm.rs` (the rewriting of `scf` operations to `wasm`
operations) and the part of `crates/trunk-ir-wasm-backend/src/emit.rs` and
`emit/handlers/control_flow_handlers.rs` that turns a function body into WebAssembly instructions.

Simplifications, for the whole file:
* one function at a time, whose regions have one block each (`emit_region_ops_nested` refuses any
  other region, emit.rs 853-856);
* `scf.switch` is absent: no pattern lowers it and the emitter refuses it (emit.rs 938-942);
* every operation that is not control flow is `plain` (goes on) or `exit` (leaves the function: return,
  tail call, unreachable). `plain` pushes its operands, is one instruction and stores its result
  (`emit_operands`, `set_result_local`); whether operands are pushed in a different order for some
  instruction is part of the meaning of its name;
* types are numbers, and 0 is `core.nil`; the pass converts no types here, and the types of operands
  of a `plain` or `exit` instruction are taken as the ones it wants;
* values are numbers.
-/
namespace Verif.WasmCf

abbrev Value := Nat
abbrev Ty := Nat

/-- Operations of a function body before the pass: `scf.if`, `scf.loop` (with the arguments of the
block of its body), `scf.yield`, `scf.continue`, `scf.break` (trunk-ir/src/dialect/scf.rs 3-37). -/
inductive Op where
  | plain (name : Nat) (args : List Value) (res : Option Value)
  | ite (c : Value) (res : List Value) (t e : List Op)
  | loop (init res params : List Value) (body : List Op)
  | yield (vs : List Value)
  | cont (vs : List Value)
  | brk (v : Value)
  | exit (name : Nat) (args : List Value)

/-- Values after the pass: those of the function, and the results of operations the pass made. The pass
makes a `wasm.block` and a `wasm.loop` for a loop (scf_to_wasm.rs 109-130); the block takes over the
result `v` and the loop gets a new value, here `inner v`. An operation without result gets a result of
type nil (lines 56-59). No value of type nil is ever stored to its local, so that all of these are
alike, here `anon`. -/
inductive Name where
  | src (v : Value)
  | inner (v : Value)
  | anon
  deriving DecidableEq

/-- Operations after the pass: `wasm.if`, `wasm.block`, `wasm.loop`, `wasm.yield`, `wasm.br`; `left` is
an operation that no pattern changed. -/
inductive WOp where
  | plain (name : Nat) (args : List Name) (res : Option Name)
  | ite (c : Name) (res : Name) (t e : List WOp)
  | block (res : Name) (body : List WOp)
  | loop (init : List Name) (res : Name) (params : List Name) (body : List WOp)
  | yield (v : Name)
  | br (target : Nat)
  | exit (name : Nat) (args : List Name)
  | left

mutual
/-- `lower` (scf_to_wasm.rs 26-34) on one operation: `ScfIfPattern` (lines 37-74), `ScfLoopPattern`
(76-134), `ScfYieldPattern` (136-178), `ScfContinuePattern` (180-227), `ScfBreakPattern` (229-265). -/
def lowerOp : Op → List WOp
  | .plain n as r => [.plain n (as.map .src) (r.map .src)]
  | .ite c res t e =>
    match res with
    | [] => [.ite (.src c) .anon (lowerOps t) (lowerOps e)]
    | [r] => [.ite (.src c) (.src r) (lowerOps t) (lowerOps e)]
    | _ => [.left]
  | .loop init res ps body =>
    match res with
    | [] => [.block .anon [.loop (init.map .src) .anon (ps.map .src) (lowerOps body)]]
    | [r] =>
      [.block (.src r) [.loop (init.map .src) (.inner r) (ps.map .src) (lowerOps body)]]
    | _ => [.left]
  | .yield vs =>
    match vs with
    | [] => []
    | [v] => [.yield (.src v)]
    | _ => [.left]
  | .cont vs =>
    match vs with
    | [] => [.br 1]
    | [v] => [.yield (.src v), .br 1]
    | _ => [.left]
  | .brk v => [.yield (.src v), .br 2]
  | .exit n as => [.exit n (as.map .src)]
/-- The operations of a block in order. -/
def lowerOps : List Op → List WOp
  | [] => []
  | o :: os => lowerOp o ++ lowerOps os
end

/-- `value_locals` (emit.rs 738): which local holds a value. -/
abbrev Locals := List (Name × Nat)

/-- Block arguments: one local each, unless the value has one already (emit.rs 778-797). `k` is
`param_count + locals.len()`. -/
def assignArgs : List Name → Locals × Nat → Locals × Nat
  | [], m => m
  | a :: as, (l, k) => assignArgs as (if (l.lookup a).isSome then (l, k) else ((a, k) :: l, k + 1))

/-- The result of an operation: one local (emit.rs 810-832). -/
def assignRes (r : Option Name) : Locals × Nat → Locals × Nat
  | (l, k) =>
    match r with
    | some v => ((v, k) :: l, k + 1)
    | none => (l, k)

mutual
/-- The loop over the operations of a region in `assign_locals_in_region` (emit.rs 799-833): first the
regions within an operation, then its result. -/
def assignOp : WOp → Locals × Nat → Locals × Nat
  | .plain _ _ r, m => assignRes r m
  | .ite _ r t e, m => assignRes (some r) (assignOps e (assignOps t m))
  | .block r b, m => assignRes (some r) (assignOps b m)
  | .loop _ r ps b, m => assignRes (some r) (assignOps b (assignArgs ps m))
  | _, m => m
def assignOps : List WOp → Locals × Nat → Locals × Nat
  | [], m => m
  | o :: os, m => assignOps os (assignOp o m)
end

/-- WebAssembly instructions. `op` and `exit` take operands of the given types from the stack; `op` may
push a result. A block, loop or conditional has a block type: no result or one result. -/
inductive Instr where
  | get (i : Nat)
  | set (i : Nat)
  | op (name : Nat) (args : List Ty) (r : Option Ty)
  | exit (name : Nat) (args : List Ty)
  | ite (r : Option Ty) (t e : List Instr)
  | block (r : Option Ty) (b : List Instr)
  | loop (r : Option Ty) (b : List Instr)
  | br (d : Nat)

/-- `NestingKind` (emit.rs 838-844). The nesting is kept innermost first. -/
inductive Kind where
  | block
  | loop (args : List Nat)
  | ite

/-- `region_result_value` (emit.rs 899-915). -/
def regionResult (ops : List WOp) : Option Name :=
  match ops.getLast? with
  | some (.yield v) => some v
  | some (.plain _ _ r) => r
  | some (.ite _ r _ _) => some r
  | some (.block r _) => some r
  | some (.loop _ r _ _) => some r
  | _ => none

/-- `has_result` together with `compute_block_type` (control_flow_handlers.rs 151-173, 189): the block
type has the type of the result, unless that is nil. -/
def blockType (ty : Name → Ty) (r : Name) : Option Ty :=
  if ty r = 0 then none else some (ty r)

/-- `emit_operands` (value_emission.rs 22-75) and `emit_value_get` (control_flow_handlers.rs 30-59): a
`local.get` for each value. A value without local is refused here (`none`); the code refuses it or
falls back on other rules for nil and for stale arguments (value_emission.rs 36-71), which a function
whose values are all defined in it never meets. -/
def gets (loc : Locals) : List Name → Option (List Instr)
  | [] => some []
  | v :: vs => do
    let i ← loc.lookup v
    let is ← gets loc vs
    return .get i :: is

/-- `set_result_local` (emit.rs 1116-1132): nothing for a result of type nil. -/
def setResult (ty : Name → Ty) (loc : Locals) (r : Option Name) : Option (List Instr) :=
  match r with
  | none => some []
  | some v => if ty v = 0 then some [] else (loc.lookup v).map fun i => [.set i]

/-- After the end of a conditional, block or loop with a block type that has a result
(control_flow_handlers.rs 146-148, 211-213, 282-284). -/
def storeResult (ty : Name → Ty) (loc : Locals) (bt : Option Ty) (r : Name) :
    Option (List Instr) :=
  if bt.isSome then setResult ty loc (some r) else some []

/-- The `local.get` of the result of a region, if the operation has a result
(control_flow_handlers.rs 123-125, 138-140, 205-207, 276-278). -/
def resultGet (loc : Locals) (bt : Option Ty) (ops : List WOp) : Option (List Instr) :=
  if bt.isSome then
    match regionResult ops with
    | some v => gets loc [v]
    | none => some []
  else some []

/-- Before the loop: copy each initial value to the local of the argument
(control_flow_handlers.rs 250-260). Different numbers of them: a panic (`assert_eq`, line 252). -/
def initCopies (loc : Locals) : List Name → List Nat → Option (List Instr)
  | [], [] => some []
  | v :: vs, a :: as => do
    let i ← loc.lookup v
    let is ← initCopies loc vs as
    return .get i :: .set a :: is
  | _, _ => none

/-- The locals of the arguments of a loop (control_flow_handlers.rs 235-248). -/
def argLocals (loc : Locals) : List Name → Option (List Nat)
  | [] => some []
  | p :: ps => do
    let i ← loc.lookup p
    let is ← argLocals loc ps
    return i :: is

/-- What `wasm.yield v` becomes when `wasm.br d` follows (emit.rs 866-887): if the branch goes to a loop
every argument of the loop is set to the value, otherwise the value is pushed. -/
def yieldCode (nest : List Kind) (i : Nat) (d : Nat) : List Instr :=
  match nest[d]? with
  | some (.loop as) => as.flatMap fun a => [.get i, .set a]
  | _ => [.get i]

/-- The branch that follows a `wasm.yield`, if there is one (`followed_by_br`, emit.rs 862-865). -/
def nextBr : List WOp → Option Nat
  | .br d :: _ => some d
  | _ => none

mutual
/-- `emit_op_nested` (emit.rs 917-1114) with `handle_if` (control_flow_handlers.rs 66-149),
`handle_block` (175-215), `handle_loop` (217-286) and `handle_br` (288-296). -/
def emitOp (ty : Name → Ty) (loc : Locals) (nest : List Kind) : WOp → Option (List Instr)
  | .plain n as r => do
    let a ← gets loc as
    let s ← setResult ty loc r
    return a ++ [.op n (as.map ty) (r.bind (blockType ty))] ++ s
  | .ite c r t e => do
    let bt := if (regionResult t).isSome then blockType ty r else none
    let a ← gets loc [c]
    let ti ← emitOps ty loc (.ite :: nest) t
    let tr ← resultGet loc bt t
    let ei ← emitOps ty loc (.ite :: nest) e
    let er ← resultGet loc bt e
    let s ← storeResult ty loc bt r
    return a ++ [.ite bt (ti ++ tr) (ei ++ er)] ++ s
  | .block r b => do
    let bi ← emitOps ty loc (.block :: nest) b
    let br ← resultGet loc (blockType ty r) b
    let s ← storeResult ty loc (blockType ty r) r
    return [.block (blockType ty r) (bi ++ br)] ++ s
  | .loop init r ps b => do
    let as ← argLocals loc ps
    let c ← initCopies loc init as
    let bi ← emitOps ty loc (.loop as :: nest) b
    let br ← resultGet loc (blockType ty r) b
    let s ← storeResult ty loc (blockType ty r) r
    return c ++ [.loop (blockType ty r) (bi ++ br)] ++ s
  | .yield _ => some []
  | .br d => some [.br d]
  | .exit n as => do
    let a ← gets loc as
    return a ++ [.exit n (as.map ty)]
  | .left => none
/-- `emit_region_ops_nested` (emit.rs 846-897). -/
def emitOps (ty : Name → Ty) (loc : Locals) (nest : List Kind) : List WOp → Option (List Instr)
  | [] => some []
  | o :: os => do
    let i ← match o with
      | .yield v =>
        match nextBr os with
        | some d => (loc.lookup v).map fun i => yieldCode nest i d
        | none => some []
      | o => emitOp ty loc nest o
    let is ← emitOps ty loc nest os
    return i ++ is
end

/-- A function: the arguments of its entry block, its body, and the types of its values. -/
structure Func where
  params : List Value
  body : List Op
  ty : Value → Ty

/-- Types of values after the pass: the result of the loop made for a loop has the type of the result
of that loop (scf_to_wasm.rs 112, 129). -/
def tyName (ty : Value → Ty) : Name → Ty
  | .src v => ty v
  | .inner v => ty v
  | .anon => 0

/-- The locals of a function: its parameters first (emit.rs 743-747), then `assign_locals_in_region`. -/
def localsOf (f : Func) : Locals :=
  (assignOps (lowerOps f.body) (assignArgs (f.params.map .src) ([], 0))).1

/-- The pass, then `emit_function` (emit.rs 710-766). `none`: the code is refused. -/
def compile (f : Func) : Option (List Instr) :=
  emitOps (tyName f.ty) (localsOf f) [] (lowerOps f.body)

/-- The types of the locals of the function (`locals`, emit.rs 741, and its parameters). -/
def localTypes (f : Func) : List (Nat × Ty) :=
  (localsOf f).map fun p => (p.2, tyName f.ty p.1)

end Verif.WasmCf
