import Mathlib.Data.List.Basic

/-!
Model of the conversion of tail-resumptive handler arms: `crates/tribute-passes/src/tail_resumptive.rs`
1–161.

Simplifications: bodies of `ability.suspend` have one block (the pass looks at the first one only); the
operations in all regions of another operation are one list; the continuation of an arm and the result
of a resumption are visible in the body only, so their uses are counted there.
-/

namespace Verif.TailResume

/-- Operations; values are numbers. -/
inductive Op where
  /-- `ability.resume` -/
  | resume (cont value result : Nat)
  /-- `scf.yield` -/
  | done (values : List Nat)
  /-- `ability.suspend`: ability, operation, arguments of the block, body -/
  | suspend (ability name : Nat) (args : List Nat) (body : List Op)
  /-- `ability.yield`, the same without a continuation -/
  | arm (ability name : Nat) (args : List Nat) (body : List Op)
  /-- any other operation with its operands and what is in its regions -/
  | other (operands : List Nat) (inner : List Op)

mutual
/-- `ctx.uses(v).len()`, in an operation. -/
def uses (v : Nat) : Op → Nat
  | .resume c w _ => [c, w].count v
  | .done ws => ws.count v
  | .suspend _ _ _ body => usesAll v body
  | .arm _ _ _ body => usesAll v body
  | .other ws inner => ws.count v + usesAll v inner
/-- The same in a list of operations. -/
def usesAll (v : Nat) : List Op → Nat
  | [] => 0
  | o :: os => uses v o + usesAll v os
end

/-- tail_resumptive.rs 43–103: `is_tail_resumptive`.  That the only user of the continuation is the last
but one operation is said by looking at that operation; likewise for the result of the resumption. -/
def isTail (args : List Nat) (body : List Op) : Bool :=
  match args with
  | [] => false
  | k :: _ =>
    if usesAll k body ≠ 1 then false
    else match body.reverse with
      | .done ws :: .resume c _ r :: _ => c = k && usesAll r body = 1 && ws.contains r
      | _ => false

mutual
/-- tail_resumptive.rs 108–135: `SuspendToYieldPattern`, at an operation and everything inside it. -/
def convert : Op → Op
  | .suspend a n args body =>
    if isTail args body then .arm a n args (convertAll body) else .suspend a n args (convertAll body)
  | .arm a n args body => .arm a n args (convertAll body)
  | .other ws inner => .other ws (convertAll inner)
  | .resume c v r => .resume c v r
  | .done ws => .done ws
/-- tail_resumptive.rs 141–145: `convert_tail_resumptive` on a list of operations. -/
def convertAll : List Op → List Op
  | [] => []
  | o :: os => convert o :: convertAll os
end

end Verif.TailResume
