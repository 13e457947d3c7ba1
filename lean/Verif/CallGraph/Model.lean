import Mathlib.Data.List.Dedup
/-!
# Strongly connected components of the call graph

Model of `crates/trunk-ir/src/transforms/call_graph.rs` 25-280.

Simplifications:
* symbols are strings; a module body is the sequence of its operations, and a `func.func` is its
  name with the list of operations found by walking its regions;
* hash maps are functions to `Option`, hash sets are lists or predicates; the unspecified iteration
  orders (of `func_ops.keys()` and of successor sets) are the orders of the lists, over which the
  theorems quantify;
* the `u32` counters are natural numbers (they would overflow after 2^32 functions);
* recursion is bounded by fuel; `none` stands for running out of it and for every panic
  (`state.lowlink[&w]` on a missing key, popping an empty stack). The theorems show that `none`
  does not occur.
-/
namespace Verif.CallGraph

abbrev Sym := String

/-- `CallGraph`, call_graph.rs 30-43: the defined functions and the edges. -/
structure Graph where
  /-- keys of `func_ops` -/
  funcs : List Sym
  /-- `edges` -/
  edges : Sym → List Sym

/-- An operation in a function body, call_graph.rs 157-178; the symbol attribute may be missing. -/
inductive BodyOp where
  | call (callee : Option Sym)
  | tailCall (callee : Option Sym)
  | constant (funcRef : Option Sym)
  | other
deriving DecidableEq, Repr

/-- The operations of a module body. -/
inductive Items where
  | nil
  | func (symName : Option Sym) (body : List BodyOp) (rest : Items)
  | other (rest : Items)
  | module (symName : Option Sym) (inner : Items) (rest : Items)
deriving DecidableEq, Repr

/-- `CallGraph` while it is built, call_graph.rs 30-43; hash sets and counters are lists with
repetitions. -/
structure Built where
  edges : List (Sym × Sym)
  funcOps : List Sym
  constantRefs : List Sym
  /-- one entry per direct call site -/
  callSites : List Sym

/-- `extract_func_name`, call_graph.rs 187-203. -/
def extractFuncName (symName : Option Sym) (path : List Sym) : Option Sym :=
  match symName with
  | none => none
  | some n => some (if path.isEmpty then n else "::".intercalate (path ++ [n]))

/-- `extend_module_path`, call_graph.rs 205-219. -/
def extendModulePath (symName : Option Sym) (path : List Sym) : List Sym :=
  match symName with
  | some n => path ++ [n]
  | none => path

/-- One step of `collect_calls_from_region`, call_graph.rs 157-178. -/
def collectCall (caller : Sym) (b : Built) : BodyOp → Built
  | .call (some c) => { b with edges := (caller, c) :: b.edges, callSites := c :: b.callSites }
  | .tailCall (some c) => { b with edges := (caller, c) :: b.edges, callSites := c :: b.callSites }
  | .constant (some c) => { b with edges := (caller, c) :: b.edges, constantRefs := c :: b.constantRefs }
  | _ => b

/-- `analyze_region`, call_graph.rs 123-155. -/
def analyzeRegion (path : List Sym) (b : Built) : Items → Built
  | .nil => b
  | .func n body rest =>
    match extractFuncName n path with
    | none => analyzeRegion path b rest
    | some name =>
      analyzeRegion path (body.foldl (collectCall name) { b with funcOps := name :: b.funcOps }) rest
  | .other rest => analyzeRegion path b rest
  | .module n inner rest =>
    analyzeRegion path (analyzeRegion (extendModulePath n path) b inner) rest

/-- `build_call_graph`, call_graph.rs 45-51. -/
def buildCallGraph (m : Items) : Built := analyzeRegion [] ⟨[], [], [], []⟩ m

/-- The finished `CallGraph`: `func_ops` keeps each key once. -/
def Built.graph (b : Built) : Graph :=
  { funcs := b.funcOps.dedup
    edges := fun v => (b.edges.filter fun e => e.1 = v).map Prod.snd }

/-- `TarjanState`, call_graph.rs 226-235. -/
structure State where
  nextIndex : Nat
  stack : List Sym
  onStack : Sym → Bool
  index : Sym → Option Nat
  lowlink : Sym → Option Nat
  sccId : Sym → Option Nat
  nextScc : Nat

/-- `TarjanState::default()`. -/
def State.init : State := ⟨0, [], fun _ => false, fun _ => none, fun _ => none, fun _ => none, 0⟩

/-- Insertion into a map. -/
def upd {α : Type} (f : Sym → α) (k : Sym) (a : α) : Sym → α := fun x => if x = k then a else f x

/-- Entry part of `strongconnect`, call_graph.rs 238-243. -/
def enter (v : Sym) (s : State) : State :=
  { s with
    nextIndex := s.nextIndex + 1
    index := upd s.index v (some s.nextIndex)
    lowlink := upd s.lowlink v (some s.nextIndex)
    stack := v :: s.stack
    onStack := upd s.onStack v true }

/-- `state.lowlink.insert(v, v_low.min(x))`, call_graph.rs 254-256 and 258-260. -/
def lowerTo (v : Sym) (x : Nat) (s : State) : Option State := do
  let vLow ← s.lowlink v
  some { s with lowlink := upd s.lowlink v (some (min vLow x)) }

/-- The pop loop, call_graph.rs 268-278. -/
def popScc (v : Sym) (id : Nat) : List Sym → State → Option State
  | [], _ => none
  | w :: rest, s =>
    let s' := { s with
      stack := rest
      onStack := upd s.onStack w false
      sccId := upd s.sccId w (some id) }
    if w = v then some s' else popScc v id rest s'

/-- Final part of `strongconnect`, call_graph.rs 265-279. -/
def finish (v : Sym) (s : State) : Option State := do
  let low ← s.lowlink v
  let idx ← s.index v
  if low = idx then popScc v s.nextScc s.stack { s with nextScc := s.nextScc + 1 } else some s

/-- The loop over the successors, call_graph.rs 247-262; `recur` is the recursive call. -/
def successors (g : Graph) (recur : Sym → State → Option State) (v : Sym) :
    List Sym → State → Option State
  | [], s => some s
  | w :: ws, s =>
    if w ∉ g.funcs then successors g recur v ws s
    else if (s.index w).isNone then do
      let s ← recur w s
      let wLow ← s.lowlink w
      let s ← lowerTo v wLow s
      successors g recur v ws s
    else if s.onStack w then do
      let wIdx ← s.index w
      let s ← lowerTo v wIdx s
      successors g recur v ws s
    else successors g recur v ws s

/-- `strongconnect`, call_graph.rs 237-280. -/
def strongconnect (g : Graph) : Nat → Sym → State → Option State
  | 0, _, _ => none
  | fuel + 1, v, s => do
    let s ← successors g (strongconnect g fuel) v (g.edges v) (enter v s)
    finish v s

/-- The loop of `tarjan_scc`, call_graph.rs 70-74. -/
def tarjanLoop (g : Graph) : List Sym → State → Option State
  | [], s => some s
  | v :: vs, s =>
    if (s.index v).isNone then do
      let s ← strongconnect g g.funcs.length v s
      tarjanLoop g vs s
    else tarjanLoop g vs s

/-- `tarjan_scc`, call_graph.rs 68-76: the component of every function. -/
def tarjanScc (g : Graph) : Option (Sym → Option Nat) := do
  let s ← tarjanLoop g g.funcs State.init
  some s.sccId

/-- `recursive_functions`, call_graph.rs 82-100: members of a component of two or more functions,
and functions with an edge to themselves. -/
def recursiveFunctions (g : Graph) : Option (List Sym) := do
  let ids ← tarjanScc g
  some (g.funcs.filter fun v =>
    decide (1 < (g.funcs.filter fun w => ids w = ids v).length) || decide (v ∈ g.edges v))

end Verif.CallGraph
