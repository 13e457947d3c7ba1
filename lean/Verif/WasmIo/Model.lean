import Verif.Io.Model
/-!
# Standard output on WebAssembly

Model of the function that the compiler adds to a WebAssembly module to write to standard output:
`crates/tribute-passes/src/wasm/io.rs` (the operations of `__tribute_wasi_write`), their emission as
WebAssembly instructions (`crates/trunk-ir-wasm-backend/src/emit.rs` and `emit/handlers/`), and a
machine for these instructions together with the host function `fd_write`.

Simplifications, for the whole file:
* the function is built and emitted directly; the passes in between leave its operations as they are
  (they are operations of the `wasm` dialect already, except for `func.return`, which becomes
  `wasm.return`);
* types are left out: the operations that produce a result of type `core.nil` are `wasm.if`,
  `wasm.block` and `wasm.loop`, whose result is never stored;
* alignment hints have no effect on the meaning of WebAssembly.
-/
namespace Verif.WasmIo

abbrev Byte := Io.Byte

/-- SSA values of the function. -/
abbrev Val := Nat

/-- `IoAnalysis`, wasm/io.rs 28-34, without `needs_fd_write`. -/
structure Layout where
  iovec : Nat
  nwritten : Nat
  scratch : Nat
  total : Nat
deriving DecidableEq, Repr

/-- `IoAnalysis::analyze`, wasm/io.rs 37-66, for a module that writes. -/
def layout (base : Nat) : Layout :=
  let iovec := (base + 3) / 4 * 4
  let nwritten := iovec + 8
  let scratch := nwritten + 4
  ⟨iovec, nwritten, scratch, scratch - base⟩

/-- `required_pages`, wasm/lower.rs 372-374: the size of the memory in the module
(lower.rs 515-527; there is no maximum, emit/definitions.rs 193). -/
def requiredPages (endOffset : Nat) : Nat := max 1 ((endOffset + 0xffff) / 0x10000)

/-- Instructions without regions, and their immediate operands. -/
inductive Prim where
  | const (c : Nat)
  | add | sub | divU | eq | ltU | gtU | geU
  | structGet (field : Nat)
  | arrayGetU
  | load (off : Nat)
  | store (off : Nat)
  | store8 (off : Nat)
  | memSize
  | memGrow
  | fdWrite
  | unreachable
  | ret
deriving DecidableEq, Repr

/-- Operations of the `wasm` dialect. -/
inductive WOp where
  | prim (p : Prim) (args : List Val) (res : Option Val)
  | ite (c : Val) (res : Val) (t e : List WOp)
  | block (res : Val) (b : List WOp)
  | loop (init : List Val) (res : Val) (params : List Val) (b : List WOp)
  | yield (v : Val)
  | br (d : Nat)
  | brIf (c : Val) (d : Nat)

/-! ## Building the function -/

/-- The next value, and the operations pushed to the current block. -/
abbrev Build := StateM (Nat × List WOp)

/-- A new value. -/
def fresh : Build Val := fun s => (s.1, (s.1 + 1, s.2))

/-- `ctx.push_op`. -/
def push (o : WOp) : Build Unit := fun s => ((), (s.1, s.2 ++ [o]))

/-- An operation with a result, pushed. -/
def value (p : Prim) (args : List Val) : Build Val := do
  let r ← fresh
  push (.prim p args (some r))
  return r

/-- An operation without result, pushed. -/
def effect (p : Prim) (args : List Val) : Build Unit := push (.prim p args none)

/-- `i32_const`, wasm/io.rs 472-483. -/
def i32Const (c : Nat) : Build Val := value (.const c) []

/-- `region`, wasm/io.rs 453-470. -/
def region (b : Build Unit) : Build (List WOp) := fun s =>
  let s' := (b (s.1, [])).2
  (s'.2, (s'.1, s.2))

/-- `wasm.if` with two regions, pushed. -/
def ifOp (c : Val) (t e : List WOp) : Build Unit := do
  let r ← fresh
  push (.ite c r t e)

/-- `trap_if`, wasm/io.rs 437-451. -/
def trapIf (cond : Val) : Build Unit := do
  let trap ← region (effect .unreachable [])
  let ok ← region (pure ())
  ifOp cond trap ok

/-- `trap_if_less`, wasm/io.rs 423-435. -/
def trapIfLess (lhs rhs : Val) : Build Unit := do
  let overflow ← value .ltU [lhs, rhs]
  trapIf overflow

/-- `PAGE_SIZE`, wasm/io.rs 21. -/
def pageSize : Nat := 65536

/-- `WASI_ERRNO_INTR`, wasm/io.rs 20. -/
def errnoIntr : Nat := 27

/-- `ensure_memory`, wasm/io.rs 213-258. The constant -1 is its bit pattern. -/
def ensureMemory (stop : Val) : Build Unit := do
  let one ← i32Const 1
  let stopMinusOne ← value .sub [stop, one]
  let pageSize ← i32Const pageSize
  let quotient ← value .divU [stopMinusOne, pageSize]
  let required ← value .add [quotient, one]
  let current ← value .memSize []
  let needsGrow ← value .gtU [required, current]
  let grow ← region do
    let delta ← value .sub [required, current]
    let grown ← value .memGrow [delta]
    let failed ← i32Const 0xffffffff
    let isFailed ← value .eq [grown, failed]
    trapIf isFailed
  let noGrow ← region (pure ())
  ifOp needsGrow grow noGrow

/-- `loop_in_block`, wasm/io.rs 395-421. -/
def loopInBlock (init arg : Val) (body : List WOp) : Build Unit := do
  let r ← fresh
  let inner := [WOp.loop [init] r [arg] body]
  let r' ← fresh
  push (.block r' inner)

/-- `copy_loop`, wasm/io.rs 271-311. -/
def copyLoop (init data offset len scratch : Val) : Build Unit := do
  let index ← fresh
  let body ← region do
    let done ← value .geU [index, len]
    push (.brIf done 1)
    let source ← value .add [offset, index]
    let byte ← value .arrayGetU [data, source]
    let destination ← value .add [scratch, index]
    effect (.store8 0) [destination, byte]
    let one ← i32Const 1
    let next ← value .add [index, one]
    push (.yield next)
    push (.br 0)
  loopInBlock init index body

/-- `write_loop`, wasm/io.rs 313-393. -/
def writeLoop (init total : Val) (a : Layout) : Build Unit := do
  let written ← fresh
  let body ← region do
    let done ← value .geU [written, total]
    push (.brIf done 1)
    let scratch ← i32Const a.scratch
    let ptr ← value .add [scratch, written]
    let remaining ← value .sub [total, written]
    let iovec ← i32Const a.iovec
    effect (.store 0) [iovec, ptr]
    effect (.store 4) [iovec, remaining]
    let stdout ← i32Const 1
    let oneIovec ← i32Const 1
    let nwritten ← i32Const a.nwritten
    let call ← value .fdWrite [stdout, iovec, oneIovec, nwritten]
    let zero ← i32Const 0
    let succeeded ← value .eq [call, zero]
    let success ← region do
      let count ← value (.load 0) [nwritten]
      let noProgress ← value .eq [count, zero]
      push (.brIf noProgress 2)
      let next ← value .add [written, count]
      push (.yield next)
      push (.br 1)
    let failure ← region do
      let intr ← i32Const errnoIntr
      let interrupted ← value .eq [call, intr]
      push (.brIf interrupted 1)
      push (.br 2)
    ifOp succeeded success failure
  loopInBlock init written body

/-- `build_write_helper`, wasm/io.rs 124-211. Values 0 and 1 are the parameters. -/
def writeHelper (a : Layout) : Build Unit := do
  let bytes ← fresh
  let newline ← fresh
  let data ← value (.structGet 0) [bytes]
  let offset ← value (.structGet 1) [bytes]
  let len ← value (.structGet 2) [bytes]
  let total ← value .add [len, newline]
  trapIfLess total len
  let scratch ← i32Const a.scratch
  let stop ← value .add [scratch, total]
  trapIfLess stop total
  ensureMemory stop
  let zero ← i32Const 0
  copyLoop zero data offset len scratch
  let newlineAddr ← value .add [scratch, len]
  let newlineRegion ← region do
    let lf ← i32Const 10
    effect (.store8 0) [newlineAddr, lf]
  let emptyRegion ← region (pure ())
  ifOp newline newlineRegion emptyRegion
  writeLoop zero total a
  effect .ret []

/-- The operations of the body of the function. -/
def helperOps (a : Layout) : List WOp := (writeHelper a (0, [])).2.2

/-! ## Emission -/

/-- WebAssembly instructions; blocks, loops and conditionals have no parameters and no result. -/
inductive Instr where
  | get (i : Nat)
  | set (i : Nat)
  | prim (p : Prim)
  | ite (t e : List Instr)
  | block (b : List Instr)
  | loop (b : List Instr)
  | br (d : Nat)
  | brIf (d : Nat)

/-- `value_locals`, emit.rs 738. -/
abbrev Locals := List (Val × Nat)

/-- A local for a value, emit.rs 784-787 and 826-830. `k` is `param_count + locals.len()`. -/
def assign (v : Val) (m : Locals × Nat) : Locals × Nat := ((v, m.2) :: m.1, m.2 + 1)

mutual
/-- `assign_locals_in_region`, emit.rs 769-836: the regions of an operation first, then its result.
The result of a conditional, block or loop has type nil and gets a local, too. -/
def assignOp : WOp → Locals × Nat → Locals × Nat
  | .prim _ _ r, m => match r with | some v => assign v m | none => m
  | .ite _ r t e, m => assign r (assignOps e (assignOps t m))
  | .block r b, m => assign r (assignOps b m)
  | .loop _ r ps b, m => assign r (assignOps b (ps.foldl (fun m p => assign p m) m))
  | .yield _, m => m
  | .br _, m => m
  | .brIf _ _, m => m
def assignOps : List WOp → Locals × Nat → Locals × Nat
  | [], m => m
  | o :: os, m => assignOps os (assignOp o m)
end

/-- The locals of the function: its two parameters (emit.rs 743-747), then its operations. -/
def localsOf (ops : List WOp) : Locals := (assignOps ops ([(1, 1), (0, 0)], 2)).1

/-- The local of a value. In the code a value without local is an error; here it is local 10^6. -/
def loc (l : Locals) (v : Val) : Nat := (l.lookup v).getD 1000000

/-- `NestingKind`, emit.rs 838-844, innermost first. -/
inductive Kind where
  | block
  | loop (args : List Nat)
  | ite

/-- `wasm.yield` before `wasm.br`, emit.rs 861-889. -/
def yieldCode (nest : List Kind) (i d : Nat) : List Instr :=
  match nest[d]? with
  | some (.loop as) => as.flatMap fun a => [.get i, .set a]
  | _ => [.get i]

mutual
/-- `emit_op_nested`, emit.rs 917-1114, with `handle_if` (control_flow_handlers.rs 66-149),
`handle_block` (175-215), `handle_loop` (217-286), `handle_br` (288-296), `handle_br_if` (298-317);
the other operations push their operands (`emit_operands`, value_emission.rs 22-75), are one
instruction, and store their result (`set_result_local`, emit.rs 1116-1132). -/
def emitOp (l : Locals) (nest : List Kind) : WOp → List Instr
  | .prim p args r =>
    args.map (fun v => .get (loc l v)) ++ [.prim p] ++
      (match r with | some v => [.set (loc l v)] | none => [])
  | .ite c _ t e =>
    [.get (loc l c), .ite (emitOps l (.ite :: nest) t) (emitOps l (.ite :: nest) e)]
  | .block _ b => [.block (emitOps l (.block :: nest) b)]
  | .loop init _ ps b =>
    let as := ps.map (loc l)
    (List.zip init as).flatMap (fun p => [.get (loc l p.1), .set p.2]) ++
      [.loop (emitOps l (.loop as :: nest) b)]
  | .yield _ => []
  | .br d => [.br d]
  | .brIf c d => [.get (loc l c), .brIf d]
/-- `emit_region_ops_nested`, emit.rs 846-897. -/
def emitOps (l : Locals) (nest : List Kind) : List WOp → List Instr
  | [] => []
  | o :: os =>
    (match o, os with
      | .yield v, .br d :: _ => yieldCode nest (loc l v) d
      | .yield _, _ => []
      | o, _ => emitOp l nest o) ++ emitOps l nest os
end

/-- The instructions of `__tribute_wasi_write`: `emit_function`, emit.rs 710-766. -/
def helper (a : Layout) : List Instr := emitOps (localsOf (helperOps a)) [] (helperOps a)

/-! ## The machine -/

/-- Values of WebAssembly: 32-bit integers (as numbers below 2^32), a reference to the structure of a
`Bytes` value (array of bytes, offset, length), and a reference to an array of bytes. -/
inductive V where
  | i32 (n : Nat)
  | bytes (data : List Byte) (off len : Nat)
  | array (data : List Byte)
deriving DecidableEq, Repr

/-- What the host does with one call of `fd_write`: it takes at most `n` bytes, or it reports an error.
The error numbers of WASI preview 1 are 1 to 76 (`errno`), here `e + 1`. -/
inductive HostRes where
  | wrote (n : Nat)
  | errno (e : Fin 76)
deriving DecidableEq, Repr

/-- One call of `fd_write`: the bytes offered and what the host did. -/
structure Call where
  offered : List Byte
  result : HostRes
deriving DecidableEq, Repr

/-- The memory and the host: contents and size of the memory, the size up to which it may grow, what
the host will do, and the calls made so far. -/
structure World where
  mem : Nat → Byte
  pages : Nat
  limit : Nat
  sched : List HostRes
  calls : List Call

/-- State: the locals and the world. -/
structure St where
  locals : Nat → V
  world : World

/-- How a sequence of instructions ends: at its end with a stack, by a branch, by returning, by a trap,
waiting for the host, or by doing what no valid module does. -/
inductive Out where
  | next (stack : List V) (s : St)
  | branch (d : Nat) (s : St)
  | ret (s : St)
  | trap (s : St)
  | waiting (s : St)
  | invalid

/-- A local changed. -/
def upd (l : Nat → V) (i : Nat) (v : V) : Nat → V := fun j => if j = i then v else l j

/-- 2^32. -/
def two32 : Nat := 4294967296

/-- Addition of 32-bit integers. -/
def wadd (a b : Nat) : Nat := (a + b) % two32

/-- Subtraction of 32-bit integers. -/
def wsub (a b : Nat) : Nat := (a + two32 - b) % two32

/-- The integer for a condition. -/
def ofBool (b : Bool) : Nat := if b then 1 else 0

/-- Whether `n` bytes from `addr` are in the memory. -/
def World.has (w : World) (addr n : Nat) : Bool := decide (addr + n ≤ w.pages * 65536)

/-- A byte of the memory changed. -/
def setByte (m : Nat → Byte) (addr : Nat) (b : Byte) : Nat → Byte :=
  fun x => if x = addr then b else m x

/-- The four bytes of an integer, least significant first. -/
def setWord (m : Nat → Byte) (addr n : Nat) : Nat → Byte :=
  setByte (setByte (setByte (setByte m addr (UInt8.ofNat n)) (addr + 1) (UInt8.ofNat (n / 256)))
    (addr + 2) (UInt8.ofNat (n / 65536))) (addr + 3) (UInt8.ofNat (n / 16777216))

/-- The integer of four bytes, least significant first. -/
def getWord (m : Nat → Byte) (addr : Nat) : Nat :=
  (m addr).toNat + 256 * (m (addr + 1)).toNat + 65536 * (m (addr + 2)).toNat +
    16777216 * (m (addr + 3)).toNat

/-- The bytes of the memory from `addr`. -/
def readBytes (m : Nat → Byte) (addr : Nat) : Nat → List Byte
  | 0 => []
  | n + 1 => m addr :: readBytes m (addr + 1) n

/-- `fd_write` of WASI preview 1 with one buffer: it reads the address and the length of the buffer,
offers the bytes to the host, and stores how many were taken. The result is the error number; `none`
stands for the wrong descriptor, another number of buffers, or addresses outside the memory; the inner
`none` for a host that does not answer. -/
def fdWrite (w : World) (fd iovs n nwritten : Nat) : Option (Option Nat × World) :=
  if fd = 1 ∧ n = 1 ∧ w.has iovs 8 ∧ w.has nwritten 4 then
    let ptr := getWord w.mem iovs
    let len := getWord w.mem (iovs + 4)
    if w.has ptr len then
      let offered := readBytes w.mem ptr len
      match w.sched with
      | [] => some (none, w)
      | .wrote k :: rest =>
        some (some 0, { w with
          mem := setWord w.mem nwritten (min k len)
          sched := rest
          calls := w.calls ++ [⟨offered, .wrote k⟩] })
      | .errno e :: rest =>
        some (some (e.val + 1), { w with
          sched := rest
          calls := w.calls ++ [⟨offered, .errno e⟩] })
    else none
  else none

/-- One instruction without regions. Operands are on the stack, the last one on top. -/
def step (p : Prim) (st : List V) (s : St) : Out :=
  match p, st with
  | .const c, st => .next (.i32 c :: st) s
  | .add, .i32 b :: .i32 a :: st => .next (.i32 (wadd a b) :: st) s
  | .sub, .i32 b :: .i32 a :: st => .next (.i32 (wsub a b) :: st) s
  | .divU, .i32 b :: .i32 a :: st => if b = 0 then .trap s else .next (.i32 (a / b) :: st) s
  | .eq, .i32 b :: .i32 a :: st => .next (.i32 (ofBool (a = b)) :: st) s
  | .ltU, .i32 b :: .i32 a :: st => .next (.i32 (ofBool (a < b)) :: st) s
  | .gtU, .i32 b :: .i32 a :: st => .next (.i32 (ofBool (a > b)) :: st) s
  | .geU, .i32 b :: .i32 a :: st => .next (.i32 (ofBool (a ≥ b)) :: st) s
  | .structGet f, .bytes d o n :: st =>
    match f with
    | 0 => .next (.array d :: st) s
    | 1 => .next (.i32 o :: st) s
    | 2 => .next (.i32 n :: st) s
    | _ => .invalid
  | .arrayGetU, .i32 i :: .array d :: st =>
    match d[i]? with
    | some b => .next (.i32 b.toNat :: st) s
    | none => .trap s
  | .load off, .i32 a :: st =>
    if s.world.has (a + off) 4 then .next (.i32 (getWord s.world.mem (a + off)) :: st) s else .trap s
  | .store off, .i32 n :: .i32 a :: st =>
    if s.world.has (a + off) 4 then
      .next st { s with world := { s.world with mem := setWord s.world.mem (a + off) n } }
    else .trap s
  | .store8 off, .i32 n :: .i32 a :: st =>
    if s.world.has (a + off) 1 then
      .next st { s with world := { s.world with mem := setByte s.world.mem (a + off) (UInt8.ofNat n) } }
    else .trap s
  | .memSize, st => .next (.i32 s.world.pages :: st) s
  | .memGrow, .i32 d :: st =>
    if s.world.pages + d ≤ min s.world.limit 65536 then
      .next (.i32 s.world.pages :: st)
        { s with world := { s.world with pages := s.world.pages + d } }
    else .next (.i32 0xffffffff :: st) s
  | .fdWrite, .i32 nw :: .i32 n :: .i32 iovs :: .i32 fd :: st =>
    match fdWrite s.world fd iovs n nw with
    | some (some r, w) => .next (.i32 r :: st) { s with world := w }
    | some (none, w) => .waiting { s with world := w }
    | none => .invalid
  | .unreachable, _ => .trap s
  | .ret, _ => .ret s
  | _, _ => .invalid

/-- The end of the body of a block or conditional, whose label is the next instruction after it. -/
def leave (st : List V) : Out → Out
  | .next [] s => .next st s
  | .next (_ :: _) _ => .invalid
  | .branch 0 s => .next st s
  | .branch (d + 1) s => .branch d s
  | o => o

/-- Rounds of a loop; `none`: more than `n` rounds. -/
def rounds (body : St → Option Out) (st : List V) : Nat → St → Option Out
  | 0, _ => none
  | n + 1, s =>
    match body s with
    | some (.next [] s) => some (.next st s)
    | some (.next (_ :: _) _) => some .invalid
    | some (.branch 0 s) => rounds body st n s
    | some (.branch (d + 1) s) => some (.branch d s)
    | r => r

mutual
/-- One instruction; `none`: some loop needs more than `n` rounds. -/
def exec (n : Nat) : Instr → List V → St → Option Out
  | .get i, st, s => some (.next (s.locals i :: st) s)
  | .set i, st, s =>
    match st with
    | v :: st => some (.next st { s with locals := upd s.locals i v })
    | [] => some .invalid
  | .prim p, st, s => some (step p st s)
  | .ite t e, st, s =>
    match st with
    | .i32 c :: st => (if c ≠ 0 then execs n t [] s else execs n e [] s).map (leave st)
    | _ => some .invalid
  | .block b, st, s => (execs n b [] s).map (leave st)
  | .loop b, st, s => rounds (fun s => execs n b [] s) st n s
  | .br d, _, s => some (.branch d s)
  | .brIf d, st, s =>
    match st with
    | .i32 c :: st => some (if c ≠ 0 then .branch d s else .next st s)
    | _ => some .invalid
def execs (n : Nat) : List Instr → List V → St → Option Out
  | [], st, s => some (.next st s)
  | i :: is, st, s =>
    match exec n i st s with
    | some (.next st s) => execs n is st s
    | r => r
end

/-- The locals when a function is called: its arguments, and zero. -/
def callLocals (args : List V) : Nat → V := fun i => args[i]?.getD (.i32 0)

/-- A call of `__tribute_wasi_write` with a `Bytes` value and the flag for the newline. -/
def callHelper (n : Nat) (a : Layout) (data : List Byte) (off len newline : Nat) (w : World) :
    Option Out :=
  execs n (helper a) [] ⟨callLocals [.bytes data off len, .i32 newline], w⟩

end Verif.WasmIo
