import Mathlib.Data.List.Basic

/-!
Model of `crates/tribute-passes/src/list_intrinsics.rs` and `crates/tribute-passes/src/io_lowering.rs`:
calls of intrinsic functions of the standard library become operations and the declarations go.

Simplifications: values are numbers and their types are given by a function (the passes create no
value: the result of the new operation takes the place and the type of the result of the call).
Of the attributes, symbols, types and the string `abi` are kept; the others are one number.  The
blocks of all regions of an operation are in one list, and blocks have no arguments.
-/

namespace Verif.PreludeOps

/-- An operation but for its regions. -/
structure OpData where
  dialect : String
  name : String
  symbols : List (String × String) := []
  types : List (String × Nat) := []
  abi : Option String := none
  rest : Nat := 0
  operands : List Nat := []
  results : List Nat := []
  deriving DecidableEq, Repr

mutual
/-- Operations with the blocks of their regions. -/
inductive Op where
  | mk (d : OpData) (blocks : List Block)
/-- Blocks. -/
inductive Block where
  | mk (ops : List Op)
end

/-- The data of an operation. -/
def Op.data : Op → OpData
  | .mk d _ => d

/-- What a pattern does with an operation. -/
inductive Action where
  | keep
  | erase
  | replace (d : OpData)
  deriving DecidableEq, Repr

/-- list_intrinsics.rs 17. -/
def prependName : String := "List::__tribute_list_prepend_intrinsic"

/-- list_intrinsics.rs 19–26: `is_prepend_intrinsic`. -/
def isPrepend (n : String) : Bool :=
  n == prependName ||
    (prependName.toList.isPrefixOf n.toList &&
      (n.toList.drop prependName.toList.length).head? == some '$')

/-- list_intrinsics.rs 28–30: `intrinsic_declaration`. -/
def intrinsicDeclaration (n : String) : Option String :=
  if isPrepend n then some prependName else none

/-- `func::Func::from_op` with `sym_name`: the name of a function. -/
def funcName (d : OpData) : Option String :=
  if d.dialect == "func" && d.name == "func" then d.symbols.lookup "sym_name" else none

/-- `func::Call::from_op` with `callee`: the function called. -/
def callee (d : OpData) : Option String :=
  if d.dialect == "func" && d.name == "call" then d.symbols.lookup "callee" else none

/-- list_intrinsics.rs 32–36: `IntrinsicDeclarations`. -/
structure Declarations where
  all : List String := []
  eligible : List String := []
  deriving DecidableEq, Repr

/-- list_intrinsics.rs 49–61: one step of the collection. -/
def collectOne (acc : Declarations) (d : OpData) : Declarations :=
  match funcName d with
  | none => acc
  | some n =>
    let acc := { acc with all := n :: acc.all }
    if isPrepend n && d.abi == some "intrinsic" then { acc with eligible := n :: acc.eligible }
    else acc

/-- list_intrinsics.rs 48–61: over the operations of the module itself. -/
def collect (ops : List Op) : Declarations :=
  ops.foldl (fun acc o => collectOne acc o.data) {}

/-- list_intrinsics.rs 96–105. -/
def eligibleCall (ds : Declarations) (n base : String) : Bool :=
  if ds.all.contains n then ds.eligible.contains n else ds.eligible.contains base

/-- list_intrinsics.rs 79–125: `PrependCallPattern`; `ty` gives the types of values. -/
def prependCall (ds : Declarations) (ty : Nat → Nat) (d : OpData) : Action :=
  match callee d with
  | none => .keep
  | some n =>
    match intrinsicDeclaration n with
    | none => .keep
    | some base =>
      if !eligibleCall ds n base then .keep
      else match d.operands, d.results with
        | [element, tail], [r] =>
          .replace { dialect := "list", name := "prepend", types := [("element_type", ty element)], operands := [element, tail], results := [r] }
        | _, _ => .keep

/-- list_intrinsics.rs 131–151: `PrependDeclarationPattern`. -/
def prependDeclaration (ds : Declarations) (d : OpData) : Action :=
  match funcName d with
  | none => .keep
  | some n => if ds.eligible.contains n then .erase else .keep

/-- applicator.rs 346–360: the first pattern that does something. -/
def firstOf (a b : Action) : Action :=
  match a with
  | .keep => b
  | x => x

/-- list_intrinsics.rs 64–71: the patterns of the pass. -/
def listAction (ds : Declarations) (ty : Nat → Nat) (d : OpData) : Action :=
  firstOf (prependCall ds ty d) (prependDeclaration ds d)

/-- io_lowering.rs 14–15. -/
def writeName : String := "std::io::__tribute_io_write"
def readLineName : String := "std::io::__tribute_io_read_line"

/-- io_lowering.rs 37–68: `IoCallPattern`. The new operation has one result; a call has at most
one. -/
def ioCall (d : OpData) : Action :=
  match callee d with
  | none => .keep
  | some n =>
    if n == writeName then
      match d.results, d.operands with
      | [r], [bytes, newline] =>
        .replace { dialect := "tribute_io", name := "write", operands := [bytes, newline], results := [r] }
      | _, _ => .keep
    else if n == readLineName then
      match d.results, d.operands with
      | [r], [] => .replace { dialect := "tribute_io", name := "read_line", results := [r] }
      | _, _ => .keep
    else .keep

/-- io_lowering.rs 72–92: `IoDeclarationPattern`. -/
def ioDeclaration (d : OpData) : Action :=
  match funcName d with
  | none => .keep
  | some n => if n != writeName && n != readLineName then .keep else .erase

/-- io_lowering.rs 26–31: the patterns of the pass. -/
def ioAction (d : OpData) : Action := firstOf (ioCall d) (ioDeclaration d)

mutual
/-- applicator.rs 313–360: nested regions first, then the patterns; with the number of changes. -/
def visitOp (act : OpData → Action) : Op → List Op × Nat
  | .mk d blocks =>
    let r := visitBlocks act blocks
    match act d with
    | .keep => ([.mk d r.1], r.2)
    | .erase => ([], r.2 + 1)
    | .replace d' => ([.mk d' []], r.2 + 1)
/-- applicator.rs 272–284. -/
def visitBlocks (act : OpData → Action) : List Block → List Block × Nat
  | [] => ([], 0)
  | b :: bs =>
    let r := visitBlock act b
    let rs := visitBlocks act bs
    (r.1 :: rs.1, r.2 + rs.2)
/-- applicator.rs 286–362. -/
def visitBlock (act : OpData → Action) : Block → Block × Nat
  | .mk ops =>
    let r := visitOps act ops
    (.mk r.1, r.2)
/-- applicator.rs 310–361. -/
def visitOps (act : OpData → Action) : List Op → List Op × Nat
  | [] => ([], 0)
  | o :: os =>
    let r := visitOp act o
    let rs := visitOps act os
    (r.1 ++ rs.1, r.2 + rs.2)
end

/-- applicator.rs 195–219: rounds until nothing changes; with whether that was reached. -/
def loop (act : OpData → Action) : Nat → List Op → List Op × Bool
  | 0, ops => (ops, false)
  | n + 1, ops =>
    let r := visitOps act ops
    if r.2 = 0 then (r.1, true) else loop act n r.1

/-- list_intrinsics.rs 46–73: `LowerListIntrinsics::run`, on the operations of the module (ten
rounds: applicator.rs 134). -/
def lowerList (ty : Nat → Nat) (ops : List Op) : List Op × Bool :=
  loop (listAction (collect ops) ty) 10 ops

/-- io_lowering.rs 26–33: `LowerIoIntrinsics::run`. -/
def lowerIo (ops : List Op) : List Op × Bool := loop ioAction 10 ops

end Verif.PreludeOps
