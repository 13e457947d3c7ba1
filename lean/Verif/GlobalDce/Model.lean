/-!
# Unused-function elimination

Model of `crates/trunk-ir/src/transforms/global_dce.rs` 24-393.

Simplifications:
* a module body is the sequence of its operations (all blocks and regions in order);
* a `func.func` is its name, whether it has an `abi` attribute, and the list of operations found by
  walking its regions (`walk_region`), of which only calls, tail calls and function constants matter;
* sets and maps with unspecified iteration order are lists; the theorems determine the result
  independently of any order;
* symbols are strings.
-/
namespace Verif.GlobalDce

abbrev Sym := String

/-- An operation in a function body (global_dce.rs 240-257); the symbol attribute may be missing. -/
inductive BodyOp where
  | call (callee : Option Sym)
  | tailCall (callee : Option Sym)
  | constant (funcRef : Option Sym)
  | other
deriving DecidableEq, Repr

/-- A `func.func` operation. -/
structure Func where
  symName : Option Sym
  abi : Bool
  body : List BodyOp
deriving DecidableEq, Repr

/-- The operations of a module body. -/
inductive Items where
  | nil
  | func (f : Func) (rest : Items)
  | exportFunc (target : Option Sym) (rest : Items)
  | other (id : Nat) (rest : Items)
  | module (name : Option Sym) (inner : Items) (rest : Items)
deriving DecidableEq, Repr

/-- `GlobalDceConfig`, global_dce.rs 24-40. -/
structure Config where
  extraEntryPoints : List Sym
  recursive : Bool
deriving Repr

/-- `GlobalDcePass`, global_dce.rs 108-117 (without `functions`, which is written but not read). -/
structure Pass where
  callGraph : List (Sym × Sym)
  roots : List Sym
deriving Repr

/-- `extract_func_name`, global_dce.rs 269-290. -/
def extractFuncName (f : Func) (path : List Sym) : Option Sym :=
  match f.symName with
  | none => none
  | some n => some (if path.isEmpty then n else "::".intercalate path ++ "::" ++ n)

/-- `extend_module_path`, global_dce.rs 293-307. -/
def extendModulePath (name : Option Sym) (path : List Sym) : List Sym :=
  match name with
  | some n => path ++ [n]
  | none => path

/-- `collect_calls_from_region`, global_dce.rs 234-258: one entry of the walk. -/
def addCall (caller : Sym) (g : List (Sym × Sym)) : BodyOp → List (Sym × Sym)
  | .call (some c) => (caller, c) :: g
  | .tailCall (some c) => (caller, c) :: g
  | .constant (some c) => (caller, c) :: g
  | _ => g

/-- The function part of `analyze_module_region`, global_dce.rs 170-212. -/
def analyzeFunc (cfg : Config) (path : List Sym) (p : Pass) (f : Func) : Pass :=
  match extractFuncName f path with
  | none => p
  | some name =>
    let base := f.symName.getD name
    let roots := if base = "main" ∨ base = "_start" then name :: p.roots else p.roots
    let roots := if f.abi then name :: roots else roots
    let roots := cfg.extraEntryPoints.foldl
      (fun rs extra => if name = extra ∨ base = extra then name :: rs else rs) roots
    { callGraph := f.body.foldl (addCall name) p.callGraph, roots := roots }

/-- `analyze_module_region`, global_dce.rs 145-223. -/
def analyze (cfg : Config) (path : List Sym) (p : Pass) : Items → Pass
  | .nil => p
  | .func f rest => analyze cfg path (analyzeFunc cfg path p f) rest
  | .exportFunc (some t) rest => analyze cfg path { p with roots := t :: p.roots } rest
  | .exportFunc none rest => analyze cfg path p rest
  | .other _ rest => analyze cfg path p rest
  | .module name inner rest =>
    if cfg.recursive then
      analyze cfg path (analyze cfg (extendModulePath name path) p inner) rest
    else analyze cfg path p rest

/-- The callees of a function (`call_graph.get`). -/
def callees (g : List (Sym × Sym)) (f : Sym) : List Sym :=
  (g.filter (fun e => e.1 = f)).map Prod.snd

/-- Number of edges leaving functions not visited yet. -/
def pending (g : List (Sym × Sym)) (reachable : List Sym) : Nat :=
  (g.filter (fun e => e.1 ∉ reachable)).length

theorem pending_cons (g : List (Sym × Sym)) (reachable : List Sym) (f : Sym) (h : f ∉ reachable) :
    pending g (f :: reachable) + (callees g f).length = pending g reachable := by
  unfold pending callees
  rw [List.length_map]
  induction g with
  | nil => rfl
  | cons e g ih =>
    by_cases h1 : e.1 = f
    · have h2 : e.1 ∉ reachable := by rw [h1]; exact h
      simp_all
      omega
    · by_cases h2 : e.1 ∈ reachable <;> simp_all
      omega

/-- `compute_reachable`, global_dce.rs 310-328: the loop over the worklist. -/
def computeReachable (g : List (Sym × Sym)) (reachable : List Sym) (worklist : List Sym) :
    List Sym :=
  match worklist with
  | [] => reachable
  | f :: rest =>
    if f ∈ reachable then computeReachable g reachable rest
    else
      let reachable' := f :: reachable
      computeReachable g reachable' (rest ++ (callees g f).filter (fun c => c ∉ reachable'))
termination_by pending g reachable + worklist.length
decreasing_by
  · simp
  · rename_i h
    have h1 := pending_cons g reachable f (by simpa using h)
    have h2 := List.length_filter_le (fun c => decide (c ∉ f :: reachable)) (callees g f)
    simp only [List.length_append, List.length_cons]
    omega

/-- `filter_region`, global_dce.rs 350-393: the operations kept and the names removed. -/
def filterRegion (cfg : Config) (reachable : List Sym) (path : List Sym) : Items → Items × List Sym
  | .nil => (.nil, [])
  | .func f rest =>
    let r := filterRegion cfg reachable path rest
    match extractFuncName f path with
    | none => (.func f r.1, r.2)
    | some name => if name ∉ reachable then (r.1, name :: r.2) else (.func f r.1, r.2)
  | .exportFunc t rest =>
    let r := filterRegion cfg reachable path rest
    (.exportFunc t r.1, r.2)
  | .other id rest =>
    let r := filterRegion cfg reachable path rest
    (.other id r.1, r.2)
  | .module name inner rest =>
    let r := filterRegion cfg reachable path rest
    if cfg.recursive then
      let i := filterRegion cfg reachable (extendModulePath name path) inner
      (.module name i.1 r.1, i.2 ++ r.2)
    else (.module name inner r.1, r.2)

/-- `run`, global_dce.rs 131-142, with the rewritten module and the names removed. -/
def run (cfg : Config) (module : Items) : Items × List Sym :=
  let p := analyze cfg [] ⟨[], []⟩ module
  filterRegion cfg (computeReachable p.callGraph [] p.roots) [] module

end Verif.GlobalDce
