import Verif.Arith.Model

/-!
# Canonicalisation

Model of the pass that folds operations until nothing changes: `crates/trunk-ir/src/transforms/
canonicalize.rs` with its driver `crates/trunk-ir/src/rewrite/applicator.rs` 188-345 and
`rewriter.rs` 145-222, the folds of `dialect/arith.rs` (area Arith), `dialect/core.rs` 54-79 and
`dialect/scf.rs` 64-108.

A function body is a list of operations with nested bodies; every value has a type for good.

Simplifications:
* bodies of one block (the pass runs before there are branches), no `scf.switch`;
* a constant that takes the place of a folded operation keeps the name of its result;
* integer folds are only modelled for results of integer type (`core_int_width` is `Some`);
* replacing all uses is done by a map that is applied to operands when an operation is visited.  Uses
  come after definitions, so at that time it is complete;
* what is known of values of a nested body is forgotten after it, as they cannot be used there.
-/
namespace Verif.Canon

open Verif.Arith (I128 BinOp)

/-- The identity of a value. -/
abbrev Value := Nat

/-- A type: an integer type `core.iN`, or any other. -/
inductive Ty
  | int (w : Nat)
  | other (n : Nat)
  deriving DecidableEq, Repr

/-- An operation: `arith.const` with an integer or with a truth value, the integer operations, `core.unrealized_conversion_cast`,
any operation without bodies, `scf.if`, `scf.loop`, and the ends of bodies (`scf.yield`, `scf.continue`,
`scf.break`; `exit` is any that leaves the function). -/
inductive Op
  | const (r : Value) (v : I128)
  | constBool (r : Value) (b : Bool)
  | bin (o : BinOp) (r a b : Value)
  | cast (r a : Value)
  | plain (f : Nat) (args rs : List Value)
  | ite (c : Value) (rs : List Value) (t e : List Op)
  | loop (inits args rs : List Value) (body : List Op)
  | yield (vs : List Value)
  | cont (vs : List Value)
  | brk (vs : List Value)
  | exit (f : Nat) (vs : List Value)

/-- What the folds can see of the operation that defines a value (`value_def`).  A constant given as a
truth value is not among them (`const_int_value`, arith.rs 361-364). -/
inductive Def
  | const (v : I128)
  | castOf (a : Value)
  | other
  deriving DecidableEq

/-- The state of a traversal: the definitions so far, and what each value has been replaced by. -/
structure St where
  defs : Value → Def
  sub : Value → Value

/-- `const_int_value` (arith.rs 355-365) of a value. -/
def operand (defs : Value → Def) (a : Value) : Arith.Operand :=
  match defs a with
  | .const v => .const v
  | _ => .other

/-- A value that stays, with its definition. -/
def St.keep (st : St) (r : Value) (d : Def) : St :=
  ⟨fun x => if x = r then d else st.defs x, fun x => if x = r then r else st.sub x⟩

/-- Results that stay, of an operation the folds do not look through. -/
def St.keepAll (st : St) (rs : List Value) : St :=
  ⟨fun x => if x ∈ rs then .other else st.defs x, fun x => if x ∈ rs then x else st.sub x⟩

/-- `replace_all_uses` of a value (rewriter.rs 203-205). -/
def St.forward (st : St) (r v : Value) : St :=
  ⟨st.defs, fun x => if x = r then v else st.sub x⟩

/-- `replace_all_uses` of the results of an operation (rewriter.rs 203-205). -/
def St.forwardAll (st : St) : List Value → List Value → St
  | r :: rs, v :: vs => (st.forwardAll rs vs).forward r v
  | _, _ => st

/-- The fold of an integer operation (area Arith), for results of integer type. -/
def foldBin (ty : Value → Ty) (defs : Value → Def) (o : BinOp) (r a b : Value) : Option Arith.FoldResult :=
  match ty r with
  | .int w => Arith.fold o w (operand defs a) (operand defs b)
  | .other _ => none

/-- `fold_unrealized_conversion_cast` (dialect/core.rs 55-79). -/
def foldCast (ty : Value → Ty) (defs : Value → Def) (r a : Value) : Option Value :=
  if ty a = ty r then some a
  else
    match defs a with
    | .castOf i => if ty i = ty r then some i else none
    | _ => none

/-- The operations of a body before its `scf.yield`, and the operands of that; nothing if the body does
not end in one (`fold_if`, dialect/scf.rs 88-103). -/
def splitYield : List Op → Option (List Op × List Value)
  | [] => none
  | [.yield vs] => some ([], vs)
  | o :: os => (splitYield os).map fun p => (o :: p.1, p.2)

/-- Which body runs, if the condition is the constant 0 or 1 of type `core.i1` (`fold_if`,
dialect/scf.rs 66-86). -/
def decided (ty : Value → Ty) (defs : Value → Def) (c : Value) : Option Bool :=
  if ty c = .int 1 then
    match defs c with
    | .const v => if v = 0 then some false else if v = 1 then some true else none
    | _ => none
  else none

mutual
/-- Visit an operation: nested bodies first, then the fold (`visit_block`, applicator.rs 270-345;
`FoldDispatchPattern::match_and_rewrite` and `apply_splice`, canonicalize.rs 139-224).  The results are the
operations in its place, the state after it, and the number of changes. -/
def canonOp (ty : Value → Ty) (st : St) : Op → List Op × St × Nat
  | .const r v => ([.const r v], st.keep r (.const v), 0)
  | .constBool r b => ([.constBool r b], st.keep r .other, 0)
  | .bin o r a b =>
    match foldBin ty st.defs o r (st.sub a) (st.sub b) with
    | some .forwardLhs => ([], st.forward r (st.sub a), 1)
    | some .forwardRhs => ([], st.forward r (st.sub b), 1)
    | some (.arithConst v) => ([.const r v], st.keep r (.const v), 1)
    | none => ([.bin o r (st.sub a) (st.sub b)], st.keep r .other, 0)
  | .cast r a =>
    match foldCast ty st.defs r (st.sub a) with
    | some v => ([], st.forward r v, 1)
    | none => ([.cast r (st.sub a)], st.keep r (.castOf (st.sub a)), 0)
  | .plain f args rs => ([.plain f (args.map st.sub) rs], st.keepAll rs, 0)
  | .ite c rs t e =>
    let (t', st1, n1) := canonOps ty st t
    let (e', st2, n2) := canonOps ty st e
    let stay := ([Op.ite (st.sub c) rs t' e'], st.keepAll rs, n1 + n2)
    match decided ty st.defs (st.sub c) with
    | none => stay
    | some true =>
      match splitYield t' with
      | some (body, vs) => if vs.length = rs.length then (body, st1.forwardAll rs vs, n1 + n2 + 1) else stay
      | none => stay
    | some false =>
      match splitYield e' with
      | some (body, vs) => if vs.length = rs.length then (body, st2.forwardAll rs vs, n1 + n2 + 1) else stay
      | none => stay
  | .loop inits args rs body =>
    let (body', _, n) := canonOps ty (st.keepAll args) body
    ([.loop (inits.map st.sub) args rs body'], st.keepAll rs, n)
  | .yield vs => ([.yield (vs.map st.sub)], st, 0)
  | .cont vs => ([.cont (vs.map st.sub)], st, 0)
  | .brk vs => ([.brk (vs.map st.sub)], st, 0)
  | .exit f vs => ([.exit f (vs.map st.sub)], st, 0)

/-- Visit the operations of a body in order (`visit_block`, applicator.rs 270-345). -/
def canonOps (ty : Value → Ty) (st : St) : List Op → List Op × St × Nat
  | [] => ([], st, 0)
  | o :: os =>
    let (out1, st1, n1) := canonOp ty st o
    let (out2, st2, n2) := canonOps ty st1 os
    (out1 ++ out2, st2, n1 + n2)
end

/-- Nothing known, nothing replaced. -/
def St.init : St := ⟨fun _ => .other, id⟩

/-- One iteration (`run_one_iteration`, applicator.rs 233-246): the new body and the number of changes. -/
def round (ty : Value → Ty) (ops : List Op) : List Op × Nat :=
  let (out, _, n) := canonOps ty .init ops
  (out, n)

/-- `ApplyResult` (applicator.rs 68-75). -/
structure ApplyResult where
  body : List Op
  iterations : Nat
  changes : Nat
  reachedFixpoint : Bool

/-- The iterations left (`apply_partial`, applicator.rs 190-216). -/
def applyFrom (ty : Value → Ty) : Nat → List Op → Nat → Nat → ApplyResult
  | 0, ops, it, ch => ⟨ops, it, ch, false⟩
  | k + 1, ops, it, ch =>
    let (out, n) := round ty ops
    if n = 0 then ⟨out, it + 1, ch, true⟩ else applyFrom ty k out (it + 1) (ch + n)

/-- `canonicalize` (canonicalize.rs 301-303) on a function body: at most ten iterations (applicator.rs
136). -/
def canonicalize (ty : Value → Ty) (ops : List Op) : ApplyResult := applyFrom ty 10 ops 0 0

end Verif.Canon
