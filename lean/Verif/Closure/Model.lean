import Verif.CallConv.Model
/-!
# Closure conversion

Model of `crates/tribute-passes/src/lower_closure_lambda.rs` 48-524 (lambdas become functions and
`closure.new`) and `crates/tribute-passes/src/closure_lower.rs` 144-700 (calls of closures pass the
environment; closures become pairs of a function and an environment).

Simplifications.
* A body is one block of operations ending in a return or in a tail call; `scf.if` is the only operation
  with regions besides `closure.lambda`.  Bodies of several blocks (`cf`) are not modelled.
* A value reference is a number.  Rust's references are unique in the whole arena; here they need only be
  unique in what is in scope, and a `next` counter stands for the arena's next reference.
* Types are numbers; only the type of evidence and `anyref` are told apart, and of a closure type what the
  two passes read is kept (`CloTy`).
* Conversion casts, which do not change values, are left out, and so are locations and attributes that
  neither pass reads.
-/
namespace Verif.Closure
open Verif.CallConv (Conv)

/-- A `ValueRef`. -/
abbrev Var := Nat

/-- A `TypeRef`; `evTy` is the type of evidence and `anyTy` is `tribute_rt.anyref`. -/
abbrev Ty := Nat
def evTy : Ty := 0
def anyTy : Ty := 1

/-- A `Symbol` naming a function. -/
abbrev Sym := String

/-- What is read of a `closure.closure` type: its convention (`get_physical_closure_convention`,
calling_convention.rs 291-304), its environment slot (`get_physical_closure_environment_index`, 307-317)
and the parameters of its function type. -/
structure CloTy where
  prov : Option Conv
  index : Option Nat
  params : List Ty
deriving DecidableEq, Repr

/-- What a call knows of its callee (closure_lower.rs 204-224, 393-405): whether it is a closure, and its
type when it carries a convention.  A function pointer is not a closure. -/
structure Site where
  isClosure : Bool
  ty : CloTy
deriving DecidableEq, Repr

/-- Operations without regions. -/
inductive Opr where
  /-- any operation that only touches data without function values -/
  | prim (p : Nat)
  /-- `adt.struct_new` -/
  | pack
  /-- `adt.struct_get` -/
  | get (i : Nat)
  /-- `adt.ref_null` -/
  | null
  /-- `adt.ref_cast` -/
  | cast
  /-- `func.call` -/
  | call (f : Sym)
  /-- `func.call_indirect`; the first operand is the callee -/
  | callInd (conv : Option Conv) (site : Site)
  /-- `closure.new` of the function `f`; the operand is the environment -/
  | closureNew (f : Sym) (conv : Option Conv) (ty : CloTy)
  /-- `func.constant` -/
  | constant (f : Sym)
deriving DecidableEq, Repr

/-- A block, from one of its operations to its end. -/
inductive Code where
  /-- `func.return`, `scf.yield` -/
  | ret (x : Var)
  /-- `func.tail_call_indirect`; the first operand is the callee -/
  | tail (conv : Option Conv) (site : Site) (args : List Var)
  | op (r : Var) (o : Opr) (args : List Var) (k : Code)
  /-- `scf.if` -/
  | cond (r : Var) (c : Var) (t e : Code) (k : Code)
  /-- `closure.lambda`, crates/tribute-ir/src/dialect/closure.rs 12-30 -/
  | lambda (r : Var) (caps : List Var) (conv : Option Conv) (ty : CloTy) (ps : List (Var × Ty))
      (body : Code) (k : Code)
deriving DecidableEq, Repr

/-- `func.func`. -/
structure Func where
  params : List (Var × Ty)
  body : Code
deriving DecidableEq, Repr

/-- A `core.module`: its functions in order, and the arena's next value reference. -/
structure Prog where
  fns : List (Sym × Func)
  next : Var
deriving DecidableEq, Repr

/-- How a closure receives its environment: at a position fixed by its convention and type, or, for the
continuations the frontend leaves untagged, after the evidence. -/
inductive Slot where
  | at (c : Conv) (i : Nat)
  | legacy
deriving DecidableEq, Repr

/-- The choice of the environment's position: for a lambda lower_closure_lambda.rs 148-168, for a call
closure_lower.rs 234-250 and 272-300 (the position standing in the type if it has a convention, which must
be that of the operation; the convention's position otherwise). -/
def slotOf (conv : Option Conv) (ty : CloTy) : Option Slot :=
  match conv, ty.prov with
  | some c, some p => if p = c then ty.index.map (Slot.at c) else none
  | some c, none => some (.at c c.closureEnvironmentIndex)
  | none, none => some .legacy
  | none, some _ => none

/-- `Vec::insert`. -/
def insertAt {α : Type} : Nat → α → List α → List α
  | 0, a, l => a :: l
  | _ + 1, a, [] => [a]
  | i + 1, a, b :: l => b :: insertAt i a l

/-! ## Renaming of values -/

/-- `IrMapping`, as a total function: `lookup_value_or_default`. -/
abbrev Map := Var → Var

def Map.set (m : Map) (x y : Var) : Map := fun v => if v = x then y else m v

/-- Values mapped one by one, later ones overriding earlier ones (`map_value`). -/
def Map.setAll (m : Map) : List Var → List Var → Map
  | x :: xs, y :: ys => (m.set x y).setAll xs ys
  | _, _ => m

/-- `replace_all_uses` (crates/trunk-ir/src/context.rs) on what follows: only uses change.  (A value bound
inside keeps its meaning; in Rust references are unique, so this never matters.) -/
def renameUses (m : Map) : Code → Code
  | .ret x => .ret (m x)
  | .tail conv site args => .tail conv site (args.map m)
  | .op r o args k => .op r o (args.map m) (renameUses (m.set r r) k)
  | .cond r c t e k => .cond r (m c) (renameUses m t) (renameUses m e) (renameUses (m.set r r) k)
  | .lambda r caps conv ty ps body k =>
    .lambda r (caps.map m) conv ty ps
      (renameUses (m.setAll (ps.map Prod.fst) (ps.map Prod.fst)) body) (renameUses (m.set r r) k)

/-- `clone_op_into_block`, context.rs 817-905, on a block: results and block arguments get new references,
operands are mapped.  Also returns the next reference. -/
def clone (m : Map) (n : Nat) : Code → Code × Nat
  | .ret x => (.ret (m x), n)
  | .tail conv site args => (.tail conv site (args.map m), n)
  | .op r o args k =>
    let (k', n') := clone (m.set r n) (n + 1) k
    (.op n o (args.map m) k', n')
  | .cond r c t e k =>
    let (t', n₁) := clone m n t
    let (e', n₂) := clone m n₁ e
    let (k', n₃) := clone (m.set r n₂) (n₂ + 1) k
    (.cond n₂ (m c) t' e' k', n₃)
  | .lambda r caps conv ty ps body k =>
    let ps' := List.range' n ps.length
    let (body', n₁) := clone (m.setAll (ps.map Prod.fst) ps') (n + ps.length) body
    let (k', n₂) := clone (m.set r n₁) (n₁ + 1) k
    (.lambda n₁ (caps.map m) conv ty (ps'.zip (ps.map Prod.snd)) body' k', n₂)

/-! ## Lambdas become functions: lower_closure_lambda.rs -/

/-- The evidence argument of a function: its first argument if that has the type of evidence
(`nearest_physical_evidence_arg`, lower_closure_lambda.rs 441-459, once the function is found; and
`evidence_param_for_func`, closure_lower.rs 571-579). -/
def evArg : List (Var × Ty) → Option Var
  | (v, t) :: _ => if t = evTy then some v else none
  | [] => none

/-- Lines 148-183: whether a lambda is lowered, and where its environment goes. -/
def accept (conv : Option Conv) (ty : CloTy) (ps : List (Var × Ty)) : Option Slot :=
  match slotOf conv ty with
  | none => none
  | some slot =>
    if ty.params ≠ ps.map Prod.snd then none
    else match slot with
      | .at c i => if i > ps.length then none else some (.at c i)
      | .legacy => some .legacy

/-- Lines 185-187: the evidence of the enclosing function, for a lambda of the legacy shape that does not
capture it. -/
def implicitEvidence (slot : Slot) (ev : Option Var) (caps : List Var) : Option Var :=
  match slot with
  | .legacy => ev.filter (fun e => !caps.contains e)
  | .at _ _ => none

/-- Lines 379-386: the reads of the captured values at the start of the function. -/
def loads (env : Var) : Nat → List Var → Code → Code
  | _, [], k => k
  | i, g :: gs, k => .op g (.get i) [env] (loads env (i + 1) gs k)

/-- `build_lifted_body`, lines 306-421, with the parameters of lines 216-224.  New references are taken in
the order: parameters (with evidence and environment in their places), the cast environment, the captured
values, the clone of the body. -/
def lift (n : Nat) (slot : Slot) (implicit : Option Var) (caps : List Var) (ps : List (Var × Ty))
    (body : Code) : Func × Nat :=
  let phys : List (Var × Ty) :=
    match slot with
    | .at _ i => (List.range' n (ps.length + 1)).zip (insertAt i anyTy (ps.map Prod.snd))
    | .legacy => (List.range' n (ps.length + 2)).zip (evTy :: insertAt 0 anyTy (ps.map Prod.snd))
  let envIdx := match slot with
    | .at _ i => i
    | .legacy => 1
  let off := match slot with
    | .at _ _ => 0
    | .legacy => 1
  let env := n + envIdx
  let ps' := (List.range ps.length).map fun i => n + (off + i + if i ≥ envIdx - off then 1 else 0)
  let m₀ := Map.setAll id (ps.map Prod.fst) ps'
  let m₁ := match implicit with
    | some e => m₀.set e n
    | none => m₀
  let n₁ := n + phys.length
  if caps.isEmpty then
    let (body', n₂) := clone m₁ n₁ body
    (⟨phys, body'⟩, n₂)
  else
    let gs := List.range' (n₁ + 1) caps.length
    let (body', n₂) := clone (m₁.setAll caps gs) (n₁ + 1 + caps.length) body
    (⟨phys, .op n₁ .cast [env] (loads n₁ 0 gs body')⟩, n₂)

/-- The pass's state: next reference, the `LambdaNamer`'s counters (lines 461-480), the functions added to
the module. -/
structure St where
  next : Nat
  counters : Sym → Nat
  out : List (Sym × Func)

/-- `next_name`, lines 472-479. -/
def clamName (parent : Sym) (count : Nat) : Sym := parent ++ "::__clam_" ++ toString count

/-- `lower_single_lambda`, lines 122-280, for the lambdas of a function not inside other lambdas, in the
order in which `collect_closure_lambdas` (94-116) finds them.  `m` says what earlier lambdas of the function
were replaced by (line 272). -/
def walk (fname : Sym) (ev : Option Var) (m : Map) : Code → St → Code × St
  | .ret x, st => (.ret (m x), st)
  | .tail conv site args, st => (.tail conv site (args.map m), st)
  | .op r o args k, st =>
    let (k', st') := walk fname ev (m.set r r) k st
    (.op r o (args.map m) k', st')
  | .cond r c t e k, st =>
    let (t', st₁) := walk fname ev m t st
    let (e', st₂) := walk fname ev m e st₁
    let (k', st₃) := walk fname ev (m.set r r) k st₂
    (.cond r (m c) t' e' k', st₃)
  | .lambda r caps conv ty ps body k, st =>
    let caps := caps.map m
    let body := renameUses (m.setAll (ps.map Prod.fst) (ps.map Prod.fst)) body
    match accept conv ty ps with
    | none =>
      let (k', st') := walk fname ev (m.set r r) k st
      (.lambda r caps conv ty ps body k', st')
    | some slot =>
      let name := clamName fname (st.counters fname)
      let (fn, n₁) := lift st.next slot (implicitEvidence slot ev caps) caps ps body
      let st₁ : St :=
        { next := n₁ + 2
          counters := fun f => if f = fname then st.counters fname + 1 else st.counters f
          out := st.out ++ [(name, fn)] }
      let (k', st₂) := walk fname ev (m.set r (n₁ + 1)) k st₁
      (.op n₁ (if caps.isEmpty then .null else .pack) caps
        (.op (n₁ + 1) (.closureNew name conv ty) [n₁] k'), st₂)

/-- One turn of the loop over the functions of the module, lines 62-65. -/
def walkFns : List (Sym × Func) → St → List (Sym × Func) × St
  | [], st => ([], st)
  | (f, fn) :: rest, st =>
    let (b, st₁) := walk f (evArg fn.params) id fn.body st
    let (rest', st₂) := walkFns rest st₁
    ((f, ⟨fn.params, b⟩) :: rest', st₂)

/-- One turn of the loop of lines 60-71 with the namer's counters; new functions go to the end of the
module (line 247). -/
def round (p : Prog) (counters : Sym → Nat) : Prog × (Sym → Nat) :=
  let (fns, st) := walkFns p.fns ⟨p.next, counters, []⟩
  (⟨fns ++ st.out, st.next⟩, st.counters)

/-- The lambdas found by `collect_closure_lambdas` that `lower_single_lambda` lowers. -/
def progress : Code → Bool
  | .ret _ => false
  | .tail _ _ _ => false
  | .op _ _ _ k => progress k
  | .cond _ _ t e k => progress t || progress e || progress k
  | .lambda _ _ conv ty ps _ k => (accept conv ty ps).isSome || progress k

/-- The loop of lines 60-71: it stops when no lambda is left or none was lowered.  `fuel` bounds the turns;
`C71_ends` shows that the number of lambdas in the module is always enough. -/
def lowerLoop : Nat → Prog → (Sym → Nat) → Prog
  | 0, p, _ => p
  | fuel + 1, p, counters =>
    if p.fns.any (fun f => progress f.2.body) then
      let (p', counters') := round p counters
      lowerLoop fuel p' counters'
    else p

/-- The number of `closure.lambda` operations. -/
def lambdas : Code → Nat
  | .ret _ => 0
  | .tail _ _ _ => 0
  | .op _ _ _ k => lambdas k
  | .cond _ _ t e k => lambdas t + lambdas e + lambdas k
  | .lambda _ _ _ _ _ body k => lambdas body + lambdas k + 1

def Prog.lambdas (p : Prog) : Nat := (p.fns.map fun f => Closure.lambdas f.2.body).sum

/-- `lower_closure_lambda`, lines 48-72. -/
def lowerLambdas (p : Prog) : Prog := lowerLoop p.lambdas p (fun _ => 0)

/-! ## Closures become pairs: closure_lower.rs -/

/-- Lines 234-300: the operands of the lowered call (closure.func and closure.env become reads of the two
fields, lines 489-548); `none` if the call is refused.  `ev` is the function's evidence argument. -/
def callArgs (conv : Option Conv) (site : Site) (ev : Var) (env : Var) (args : List Var) :
    Option (List Var) :=
  match slotOf conv site.ty with
  | none => none
  | some .legacy => some (ev :: env :: args)
  | some (.at c i) =>
    if site.ty.prov.isSome then
      if site.ty.params.length ≠ args.length ∨ i > args.length then none
      else some (insertAt i env args)
    else if args.length < (if c.needsEvidence then 1 else 0) + (if c.needsDoneK then 1 else 0) then none
    else some (insertAt i env args)

/-- Lines 581-623, `tagged_closure_transfers_are_legal`: whether the calls in a function of closures whose
type has a convention can be lowered. -/
def legal : Code → Bool
  | .ret _ => true
  | .tail conv site args =>
    match args with
    | [] => false
    | _ :: args => !site.ty.prov.isSome || (conv == some .cps && (callArgs conv site 0 0 args).isSome)
  | .op _ (.callInd conv site) args k =>
    (match args with
    | [] => false
    | _ :: args => !site.ty.prov.isSome || (callArgs conv site 0 0 args).isSome) && legal k
  | .op _ _ _ k => legal k
  | .cond _ _ t e k => legal t && legal e && legal k
  | .lambda _ _ _ _ _ _ k => legal k

/-- What is known of a callee once it is the function of the pair. -/
def pointer : Site := ⟨false, ⟨none, none, []⟩⟩

/-- `LowerClosureCallArena`, lines 187-327, with the reads of the pair's fields (489-548): the operations
that replace a call, and the next reference; `none` if the call is left as it is.  The replacement keeps the
reference of the result.  An untagged call in a function without evidence makes a null one (291-296). -/
def lowerCall (ev : Option Var) (n : Nat) (r : Var) (conv : Option Conv) (site : Site) :
    List Var → Option ((Code → Code) × Nat)
  | [] => none
  | c :: args =>
    if site.isClosure then
      match ev with
      | some e =>
        (callArgs conv site e (n + 1) args).map fun args' =>
          (fun k => .op n (.get 0) [c] (.op (n + 1) (.get 1) [c]
            (.op r (.callInd conv pointer) (n :: args') k)), n + 2)
      | none =>
        if slotOf conv site.ty = some .legacy then
          (callArgs conv site (n + 2) (n + 1) args).map fun args' =>
            (fun k => .op (n + 2) .null [] (.op n (.get 0) [c] (.op (n + 1) (.get 1) [c]
              (.op r (.callInd conv pointer) (n :: args') k))), n + 3)
        else
          (callArgs conv site 0 (n + 1) args).map fun args' =>
            (fun k => .op n (.get 0) [c] (.op (n + 1) (.get 1) [c]
              (.op r (.callInd conv pointer) (n :: args') k)), n + 2)
    else none

/-- `LowerClosureTailCallArena`, lines 331-391. -/
def lowerTail (n : Nat) (conv : Option Conv) (site : Site) : List Var → Option (Code × Nat)
  | [] => none
  | c :: args =>
    if conv = some .cps ∧ site.ty.prov.isSome then
      (callArgs conv site 0 (n + 1) args).map fun args' =>
        (.op n (.get 0) [c] (.op (n + 1) (.get 1) [c] (.tail conv pointer (n :: args'))), n + 2)
    else none

/-- The patterns of closure_lower.rs on a function: calls and tail calls as above, and
`LowerClosureNewArena`, lines 144-184. -/
def lowerCalls (ev : Option Var) (n : Nat) : Code → Code × Nat
  | .ret x => (.ret x, n)
  | .tail conv site args => (lowerTail n conv site args).getD (.tail conv site args, n)
  | .op r o args k =>
    match o with
    | .callInd conv site =>
      match lowerCall ev n r conv site args with
      | some (pre, n₁) => let (k', n') := lowerCalls ev n₁ k; (pre k', n')
      | none => let (k', n') := lowerCalls ev n k; (.op r (.callInd conv site) args k', n')
    | .closureNew f _ _ =>
      let (k', n') := lowerCalls ev (n + 1) k
      (.op n (.constant f) [] (.op r .pack (n :: args) k'), n')
    | o => let (k', n') := lowerCalls ev n k; (.op r o args k', n')
  | .cond r c t e k =>
    let (t', n₁) := lowerCalls ev n t
    let (e', n₂) := lowerCalls ev n₁ e
    let (k', n₃) := lowerCalls ev n₂ k
    (.cond r c t' e' k', n₃)
  | .lambda r caps conv ty ps body k =>
    let (k', n') := lowerCalls ev n k
    (.lambda r caps conv ty ps body k', n')

/-- `lower_closures_in_func`, lines 655-678, on each function of the module (633-642). -/
def lowerFns : List (Sym × Func) → Nat → List (Sym × Func) × Nat
  | [], n => ([], n)
  | (f, fn) :: rest, n =>
    let (b, n₁) := if legal fn.body then lowerCalls (evArg fn.params) n fn.body else (fn.body, n)
    let (rest', n₂) := lowerFns rest n₁
    ((f, ⟨fn.params, b⟩) :: rest', n₂)

/-- `lower_closures`, lines 633-642. -/
def lowerClosures (p : Prog) : Prog :=
  let (fns, n) := lowerFns p.fns p.next
  ⟨fns, n⟩

end Verif.Closure
