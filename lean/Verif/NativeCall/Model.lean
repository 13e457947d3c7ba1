import Mathlib.Data.List.Basic

/-!
Model of `crates/trunk-ir-cranelift-backend/src/passes/func_to_clif.rs` with the automatic conversion
of types of `crates/trunk-ir/src/rewrite/applicator.rs`: functions and calls for the native target.

Simplifications: values are numbers, new ones are taken from a counter, and a rebuilt operation keeps
the number of its result (the code redirects the uses).  Calls have one result.  Operations outside
the dialect are one constructor with operands and results; they have no regions (structured control
flow is gone by then).  The adaptation of closure structs (phase 1) is not modelled.  The applicator
is one round: a second one finds nothing to do (`C108_again`).
-/

namespace Verif.NativeCall

/-- Types: those the pass itself makes, and the others. -/
inductive Ty where
  | nil
  | ptr
  | other (n : Nat)
  deriving DecidableEq, Repr

/-- The `type` attribute of a function: `core.func` with the result as an attribute (layout B) or as
the first parameter (layout A), or something else. -/
inductive FnTy where
  | func (params : List Ty) (result : Option Ty)
  | other (n : Nat)
  deriving DecidableEq, Repr

/-- Operations of the `func` dialect, casts, those of the `clif` dialect, and the others. `cc` is the
attribute of the calling convention, `sig` the recorded signature (parameters and result). -/
inductive Op where
  | call (f : String) (args : List Nat) (r : Nat)
  | callIndirect (c : Nat) (args : List Nat) (r : Nat)
  | tailCall (f : String) (args : List Nat)
  | tailCallIndirect (cc : Option Nat) (sig : Option (List Ty × Ty)) (c : Nat) (args : List Nat)
  | ret (vs : List Nat)
  | unreachable
  | constant (f : String) (r : Nat)
  | cast (v : Nat) (ty : Ty) (r : Nat)
  | clifCall (f : String) (args : List Nat) (r : Nat)
  | clifCallIndirect (sig : List Ty × Ty) (c : Nat) (args : List Nat) (r : Nat)
  | returnCall (f : String) (args : List Nat)
  | returnCallIndirect (sig : List Ty × Ty) (c : Nat) (args : List Nat)
  | clifReturn (vs : List Nat)
  | trap
  | symbolAddr (f : String) (r : Nat)
  | other (k : Nat) (args : List Nat) (rs : List Nat)
  deriving DecidableEq, Repr

structure Block where
  args : List Nat
  ops : List Op
  deriving DecidableEq, Repr

/-- A function; `clif`: of the `clif` dialect. -/
structure Func where
  clif : Bool
  name : String
  ty : FnTy
  blocks : List Block
  deriving DecidableEq, Repr

/-- The types of values and the next free number. -/
structure St where
  ty : Nat → Ty
  next : Nat

def St.set (s : St) (v : Nat) (t : Ty) : St := { s with ty := fun x => if x = v then t else s.ty x }

/-- type_converter.rs 71–73: `convert_type_or_identity`. -/
def orSame (conv : Ty → Option Ty) (t : Ty) : Ty := (conv t).getD t

/-- applicator.rs 292–308: the types of the arguments of a block. -/
def convertArgs (conv : Ty → Option Ty) : List Nat → St → St
  | [], s => s
  | v :: vs, s =>
    convertArgs conv vs (match conv (s.ty v) with
      | some t => if t ≠ s.ty v then s.set v t else s
      | none => s)

/-- applicator.rs 365–390: `insert_conversion_casts`: the casts and the operands. -/
def castArgs (conv : Ty → Option Ty) : List Nat → St → List Op × List Nat × St
  | [], s => ([], [], s)
  | v :: vs, s =>
    match conv (s.ty v) with
    | some t =>
      if t ≠ s.ty v then
        let q := castArgs conv vs { (s.set s.next t) with next := s.next + 1 }
        (.cast v t s.next :: q.1, s.next :: q.2.1, q.2.2)
      else
        let q := castArgs conv vs s
        (q.1, v :: q.2.1, q.2.2)
    | none =>
      let q := castArgs conv vs s
      (q.1, v :: q.2.1, q.2.2)

/-- applicator.rs 310–361 with func_to_clif.rs 176–401: an operation. Legal ones (`clif`) and casts
are left alone. -/
def lowerOp (conv : Ty → Option Ty) (op : Op) (s : St) : List Op × St :=
  match op with
  | .call f args r =>
    let q := castArgs conv args s
    (q.1 ++ [.clifCall f q.2.1 r], q.2.2)
  | .callIndirect c args r =>
    let q := castArgs conv (c :: args) s
    (q.1 ++ [.clifCallIndirect (q.2.1.tail.map q.2.2.ty, orSame conv (q.2.2.ty r)) (q.2.1.headD c)
      q.2.1.tail r], q.2.2)
  | .tailCall f args =>
    let q := castArgs conv args s
    (q.1 ++ [.returnCall f q.2.1], q.2.2)
  | .tailCallIndirect cc sig c args =>
    let q := castArgs conv (c :: args) s
    let keep := (q.1 ++ [.tailCallIndirect cc sig (q.2.1.headD c) q.2.1.tail], q.2.2)
    if cc ≠ some 2 then keep
    else match sig with
      | none => keep
      | some sig =>
        if sig.2 ≠ .nil then keep
        else (q.1 ++ [.returnCallIndirect sig (q.2.1.headD c) q.2.1.tail], q.2.2)
  | .ret vs =>
    let q := castArgs conv vs s
    (q.1 ++ [.clifReturn q.2.1], q.2.2)
  | .unreachable => ([.trap], s)
  | .constant f r => ([.symbolAddr f r], s.set r .ptr)
  | .other k args rs =>
    let q := castArgs conv args s
    (q.1 ++ [.other k q.2.1 rs], q.2.2)
  | op => ([op], s)

def lowerOps (conv : Ty → Option Ty) : List Op → St → List Op × St
  | [], s => ([], s)
  | op :: ops, s =>
    let q := lowerOp conv op s
    let q' := lowerOps conv ops q.2
    (q.1 ++ q'.1, q'.2)

/-- applicator.rs 284–361: `visit_block`. -/
def lowerBlock (conv : Ty → Option Ty) (b : Block) (s : St) : Block × St :=
  let q := lowerOps conv b.ops (convertArgs conv b.args s)
  ({ b with ops := q.1 }, q.2)

/-- applicator.rs 270–282: `visit_region`. -/
def lowerBlocks (conv : Ty → Option Ty) : List Block → St → List Block × St
  | [], s => ([], s)
  | b :: bs, s =>
    let q := lowerBlock conv b s
    let q' := lowerBlocks conv bs q.2
    (q.1 :: q'.1, q'.2)

/-- func_to_clif.rs 126–160: the new type of a function, in layout A. -/
def lowerFnTy (conv : Ty → Option Ty) : FnTy → FnTy
  | .func params (some r) => .func (orSame conv r :: params.map (orSame conv)) none
  | .func (r :: params) none => .func (orSame conv r :: params.map (orSame conv)) none
  | .func [] none => .func [.nil] none
  | .other n => .other n

/-- func_to_clif.rs 112–174: `FuncFuncPattern`, after the body; for functions that are `clif` already
only the body is visited. -/
def lowerFunc (conv : Ty → Option Ty) (f : Func) (s : St) : Func × St :=
  let q := lowerBlocks conv f.blocks s
  if f.clif then ({ f with blocks := q.1 }, q.2)
  else ({ f with clif := true, ty := lowerFnTy conv f.ty, blocks := q.1 }, q.2)

def lowerFuncs (conv : Ty → Option Ty) : List Func → St → List Func × St
  | [], s => ([], s)
  | f :: fs, s =>
    let q := lowerFunc conv f s
    let q' := lowerFuncs conv fs q.2
    (q.1 :: q'.1, q'.2)

/-- func_to_clif.rs 53–57: illegal operations. -/
def Op.illegal : Op → Bool
  | .call .. => true
  | .callIndirect .. => true
  | .tailCall .. => true
  | .tailCallIndirect .. => true
  | .ret .. => true
  | .unreachable => true
  | .constant .. => true
  | _ => false

/-- func_to_clif.rs 30–51: `lower` (phase 2); `none` for the error of the conversion. -/
def lower (conv : Ty → Option Ty) (fs : List Func) (s : St) : Option (List Func × St) :=
  let q := lowerFuncs conv fs s
  if q.1.any (fun f => !f.clif || f.blocks.any (fun b => b.ops.any Op.illegal)) then none else some q

end Verif.NativeCall
