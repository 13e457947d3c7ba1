import Verif.Inline.Model
/-!
# Specification: what running a function means

A definitional interpreter for modules. Operations other than calls and returns are interpreted by an arbitrary
`Sem`: a state machine that may run the operation's regions, any number of times and with any arguments, and
call functions. The interpreter knows nothing about inlining.
-/
namespace Verif.Inline

/-- What an operation asks for next. -/
inductive Step (V W σ : Type) where
  /-- the operation is finished -/
  | done (vals : List V) (w : W)
  /-- the program stops -/
  | trap (w : W)
  /-- run the `i`-th region -/
  | run (i : Nat) (args : List V) (s : σ) (w : W)
  /-- call a function (`func.call_indirect`) -/
  | call (callee : Sym) (args : List V) (s : σ) (w : W)

/-- What the operation learns from a region or a function. -/
inductive Reply (V : Type) where
  | fell
  | left (name : Nat) (vals : List V)
  | returned (vals : List V)

/-- How a function ends. `stuck`: the program is not well formed. -/
inductive Result (V W : Type) where
  | ret (vals : List V) (w : W)
  | trap (w : W)
  | stuck

/-- Meaning of the operations and of the functions outside the module, over values `V`, a state of the world
`W` (memory, output), and local states `σ` of operations with regions. -/
structure Sem (V W σ : Type) where
  start : Nat → List V → W → Step V W σ
  resume : σ → Reply V → W → Step V W σ
  funcValue : Option Sym → V
  target : V → Option Sym
  extern : Sym → List V → W → Result V W

/-- How a block ends: without terminator, with a terminator of its region, or with the function. -/
inductive Exit (V W : Type) where
  | fell (w : W)
  | leave (name : Nat) (vals : List V) (w : W)
  | ends (r : Result V W)

abbrev Env (V : Type) := Value → Option V

/-- Result of some operations: go on with the next, or leave the block. -/
inductive Res (V W : Type) where
  | next (env : Env V) (w : W)
  | exit (e : Exit V W)

/-- The environment in which the values `vs` stand for `xs`. -/
def Env.bind {V} (env : Env V) (vs : List Value) (xs : List V) : Env V :=
  fun v => ((vs.zip xs).lookup v).or (env v)

/-- The values of operands. -/
def Env.read {V} (env : Env V) : List Value → Option (List V)
  | [] => some []
  | v :: vs => do
    let x ← env v
    let xs ← env.read vs
    some (x :: xs)

/-- Meaning of calls, which may depend on the calling operation. -/
abbrev Oracle (V W : Type) := OpId → Sym → List V → W → Option (Result V W)

section
variable {V W σ : Type}

/-- The results of an operation. -/
def give (env : Env V) (results : List Value) (vals : List V) (w : W) : Res V W :=
  if results.length = vals.length then .next (env.bind results vals) w else .exit (.ends .stuck)

/-- Going on after a call. -/
def afterCall (env : Env V) (results : List Value) : Option (Result V W) → Option (Res V W)
  | none => none
  | some (.ret vals w) => some (give env results vals w)
  | some r => some (.exit (.ends r))

/-- Returning what a tail-called function returns. -/
def afterTail : Option (Result V W) → Option (Res V W)
  | none => none
  | some r => some (.exit (.ends r))

/-- Outcome of an operation with regions. -/
inductive Outcome (V W : Type) where
  | vals (vals : List V) (w : W)
  | ends (r : Result V W)

/-- Runs an operation, given the meanings of functions and of its regions; at most `k` requests. -/
def drive (S : Sem V W σ) (call : Sym → List V → W → Option (Result V W))
    (regs : List (List V → W → Option (Exit V W))) : Nat → Step V W σ → Option (Outcome V W)
  | 0, _ => none
  | _ + 1, .done vals w => some (.vals vals w)
  | _ + 1, .trap w => some (.ends (.trap w))
  | k + 1, .run i args s w =>
    match regs[i]? with
    | none => some (.ends .stuck)
    | some d =>
      match d args w with
      | none => none
      | some (.fell w') => drive S call regs k (S.resume s .fell w')
      | some (.leave n vs w') => drive S call regs k (S.resume s (.left n vs) w')
      | some (.ends r) => some (.ends r)
  | k + 1, .call g args s w =>
    match call g args w with
    | none => none
    | some (.ret vs w') => drive S call regs k (S.resume s (.returned vs) w')
    | some r => some (.ends r)

/-- Going on after an operation. -/
def afterOther (env : Env V) (results : List Value) : Option (Outcome V W) → Option (Res V W)
  | none => none
  | some (.vals vals w) => some (give env results vals w)
  | some (.ends r) => some (.exit (.ends r))

/-- One operation. -/
def stepOp (S : Sem V W σ) (F : Oracle V W) (k : Nat) (h : Head)
    (regs : List (List V → W → Option (Exit V W))) (env : Env V) (w : W) : Option (Res V W) :=
  match env.read h.operands with
  | none => some (.exit (.ends .stuck))
  | some xs =>
    match h.kind with
    | .call (some g) => afterCall env h.results (F h.id g xs w)
    | .tailCall (some g) => afterTail (F h.id g xs w)
    | .call none => some (.exit (.ends .stuck))
    | .tailCall none => some (.exit (.ends .stuck))
    | .tailCallIndirect =>
      match xs with
      | [] => some (.exit (.ends .stuck))
      | x :: xs =>
        match S.target x with
        | none => some (.exit (.ends .stuck))
        | some g => afterTail (F h.id g xs w)
    | .ret => some (.exit (.ends (.ret xs w)))
    | .leave n => some (.exit (.leave n xs w))
    | .constant c => some (give env h.results [S.funcValue c] w)
    | .other n => afterOther env h.results (drive S (F h.id) regs k (S.start n xs w))

/-- The end of a block. -/
def Res.toExit : Res V W → Exit V W
  | .next _ w => .fell w
  | .exit e => e

/-- The end of a function body: it must return. -/
def Exit.toResult : Exit V W → Result V W
  | .ends r => r
  | _ => .stuck

/-- Sequential composition. -/
def andThen (r : Option (Res V W)) (rest : Env V → W → Option (Res V W)) : Option (Res V W) :=
  match r with
  | none => none
  | some (.next env w) => rest env w
  | some (.exit e) => some (.exit e)

mutual
/-- The operations of a block. -/
def Ops.run (S : Sem V W σ) (F : Oracle V W) (k : Nat) : Ops → Env V → W → Option (Res V W)
  | .nil, env, w => some (.next env w)
  | .cons h rs rest, env, w =>
    andThen (stepOp S F k h (rs.run S F k env) env w) (rest.run S F k)
/-- The regions of an operation: functions of their arguments. Values of the surrounding code are visible in
a region; values of the region are not visible outside. -/
def Regions.run (S : Sem V W σ) (F : Oracle V W) (k : Nat) :
    Regions → Env V → List (List V → W → Option (Exit V W))
  | .nil, _ => []
  | .cons ps body rest, env =>
    (fun args w =>
      if ps.length = args.length then (body.run S F k (env.bind ps args) w).map Res.toExit
      else some (.ends .stuck)) :: rest.run S F k env
end

/-- A block as the body of a function. -/
def Block.run (S : Sem V W σ) (F : Oracle V W) (k : Nat) (b : Block) (args : List V) (w : W) :
    Option (Result V W) :=
  if b.params.length = args.length then
    (b.ops.run S F k (Env.bind (fun _ => none) b.params args) w).map fun r => r.toExit.toResult
  else some .stuck

/-- A function. Functions without body are external; bodies of several blocks are given no meaning. -/
def Func.run (S : Sem V W σ) (F : Oracle V W) (k : Nat) (f : Func) (args : List V) (w : W) :
    Option (Result V W) :=
  match f.body with
  | none => some (S.extern f.name args w)
  | some [b] => b.run S F k args w
  | some _ => some .stuck

/-- A call of a function of the module, with bounded recursion. -/
def evalFn (S : Sem V W σ) (m : Module) : Nat → Sym → List V → W → Option (Result V W)
  | 0, _, _, _ => none
  | n + 1, g, args, w =>
    match lastNamed m.funcs g with
    | none => some (S.extern g args w)
    | some f => f.run S (fun _ => evalFn S m n) n args w

/-- Calling `g` with `args` in the world `w` ends with `r`. A call that ends with no `r` runs forever. -/
def Runs (S : Sem V W σ) (m : Module) (g : Sym) (args : List V) (w : W) (r : Result V W) : Prop :=
  ∃ n, evalFn S m n g args w = some r

end

/-! ## Well-formed modules -/

mutual
/-- The values defined by operations, at any depth. -/
def Ops.defs : Ops → List Value
  | .nil => []
  | .cons h rs rest => rs.defs ++ (h.results ++ rest.defs)
/-- See `Ops.defs`. -/
def Regions.defs : Regions → List Value
  | .nil => []
  | .cons ps body rest => ps ++ (body.defs ++ rest.defs)
end

mutual
/-- Every operand is visible: it is in `vis`, a parameter of an enclosing region, or a result of an earlier
operation of an enclosing block. -/
def Ops.Scoped (vis : List Value) : Ops → Prop
  | .nil => True
  | .cons h rs rest => (∀ v ∈ h.operands, v ∈ vis) ∧ rs.Scoped vis ∧ rest.Scoped (h.results ++ vis)
/-- See `Ops.Scoped`. -/
def Regions.Scoped (vis : List Value) : Regions → Prop
  | .nil => True
  | .cons ps body rest => body.Scoped (ps ++ vis) ∧ rest.Scoped vis
end

mutual
/-- Every operation satisfies `P`, at any depth. -/
def Ops.All (P : Head → Prop) : Ops → Prop
  | .nil => True
  | .cons h rs rest => P h ∧ rs.All P ∧ rest.All P
/-- See `Ops.All`. -/
def Regions.All (P : Head → Prop) : Regions → Prop
  | .nil => True
  | .cons _ body rest => body.All P ∧ rest.All P
end

/-- The operation leaves the function. -/
def Kind.returns : Kind → Bool
  | .ret => true
  | .tailCall _ => true
  | .tailCallIndirect => true
  | _ => false

/-- The operation leaves its block. -/
def Kind.terminates : Kind → Bool
  | .leave _ => true
  | k => k.returns

/-- No operation of the block leaves it, and none leaves the function from within a region. -/
def Ops.Straight : Ops → Prop
  | .nil => True
  | .cons h rs rest => h.kind.terminates = false ∧ rs.All (fun h => h.kind.returns = false) ∧ rest.Straight

/-- The values a function defines. -/
def Func.defs (f : Func) : List Value := (f.body.getD []).flatMap fun b => b.params ++ b.ops.defs

/-- The numbers of its operations. -/
def Func.ids (f : Func) : List OpId := (f.body.getD []).flatMap fun b => b.ops.visit

/-- The number of values of returns and calls agrees with the types of the functions of `fs`. -/
def Typed (fs : List Func) (results : Nat) (h : Head) : Prop :=
  match h.kind with
  | .ret => h.operands.length = results
  | .call (some g) => ∀ f, lastNamed fs g = some f → h.results.length = f.results
  | .tailCall (some g) => h.results = [] ∧ ∀ f, lastNamed fs g = some f → f.results = results
  | _ => True

/-- A block that ends in a return or a direct tail call does not leave the function any earlier; and a block
does not end in a regular call. -/
def NoEarlyReturn (o : Ops) : Prop :=
  ∀ body last, o.splitLast = some (body, last) → (∀ c, last.kind ≠ .call c) ∧
    ((last.kind = .ret ∨ last.kind.isTail = true) → body.Straight)

/-- Modules that satisfy the rules of the IR: every body is one block; every function has its own name; every
value is defined once and every operation has its own number, below the size of the arena; operands are visible;
numbers of values agree. -/
structure Formed (m : Module) : Prop where
  single : ∀ f ∈ m.funcs, f.body = none ∨ ∃ b, f.body = some [b]
  names : (m.funcs.map (·.name)).Nodup
  defs : (m.funcs.flatMap Func.defs).Nodup
  values : ∀ v ∈ m.funcs.flatMap Func.defs, v < m.arena.value
  ids : (m.funcs.flatMap Func.ids).Nodup
  ops : ∀ i ∈ m.funcs.flatMap Func.ids, i < m.arena.op
  visible : ∀ f ∈ m.funcs, ∀ b, f.body = some [b] → b.ops.Scoped b.params
  typed : ∀ f ∈ m.funcs, ∀ b, f.body = some [b] → b.ops.All (Typed m.funcs f.results)

/-- Well-formed modules in which functions that end in a return or a tail call do not leave earlier, from within
a region. -/
structure WellFormed (m : Module) : Prop extends Formed m where
  noEarly : ∀ f ∈ m.funcs, ∀ b, f.body = some [b] → NoEarlyReturn b.ops

/-! ## Recursive functions -/

mutual
/-- The kinds of all operations, at any depth. -/
def Ops.kinds : Ops → List Kind
  | .nil => []
  | .cons h rs rest => h.kind :: (rs.kinds ++ rest.kinds)
/-- See `Ops.kinds`. -/
def Regions.kinds : Regions → List Kind
  | .nil => []
  | .cons _ body rest => body.kinds ++ rest.kinds
end

/-- The kinds of all operations of a function. -/
def Func.kinds (f : Func) : List Kind := (f.body.getD []).flatMap fun b => b.ops.kinds

/-- The body of a function named `a` calls, tail-calls or takes a reference to `b`, a function of the module. -/
def Mention (m : Module) (a b : Sym) : Prop :=
  (∃ f ∈ m.funcs, f.name = a ∧ ∃ k ∈ f.kinds, k = .call (some b) ∨ k = .tailCall (some b) ∨ k = .constant (some b)) ∧
  ∃ f ∈ m.funcs, f.name = b

/-- The function leads back to itself. -/
def Recursive (m : Module) (a : Sym) : Prop := Relation.TransGen (Mention m) a a

mutual
/-- Calls have no regions. -/
def Ops.FlatCalls : Ops → Prop
  | .nil => True
  | .cons h rs rest => (h.kind.isCall = true → rs = .nil) ∧ rs.FlatCalls ∧ rest.FlatCalls
/-- See `Ops.FlatCalls`. -/
def Regions.FlatCalls : Regions → Prop
  | .nil => True
  | .cons _ body rest => body.FlatCalls ∧ rest.FlatCalls
end

/-- Every operation has its own number, below the size of the arena, and calls have no regions. -/
structure Numbered (m : Module) : Prop where
  ids : (m.funcs.flatMap Func.ids).Nodup
  ops : ∀ i ∈ m.funcs.flatMap Func.ids, i < m.arena.op
  flat : ∀ f ∈ m.funcs, ∀ b ∈ f.body.getD [], b.ops.FlatCalls

end Verif.Inline
