import Mathlib.Data.List.Basic

/-!
Model of `crates/tribute-passes/src/lower_ability_perform.rs`: operations of abilities become
dispatches through the evidence of the function.

Simplifications: values are numbers, new ones are taken from a counter, and the dispatch keeps the
number of the result it replaces (the code redirects the uses).  A function has one block; regions
are those of a two-way choice with one result.  Operations other than those of the pass are one
constructor.  The applicator is one round: a second round finds nothing to do (`C107_again`).
-/

namespace Verif.Perform

/-- Types of results: those the pass distinguishes. -/
inductive Ty where
  | nil
  | anyref
  | other (n : Nat)
  deriving DecidableEq, Repr

/-- Operations. `legacy` tells the two forms of `ability.perform` and `ability.call` apart; `a` and
`o` are the ability and the operation; `r` is the result. -/
inductive Op where
  | prim (f : Nat) (args : List Nat) (r : Nat)
  | ite (c : Nat) (t e : List Op) (r : Nat)
  | yield (v : Nat)
  | ret (vs : List Nat)
  | perform (legacy : Bool) (a o k : Nat) (args : List Nat) (r : Nat)
  | call (legacy : Bool) (a o : Nat) (args : List Nat) (r : Nat)
  | structNew (a o : Nat) (args : List Nat) (r : Nat)
  | refNull (r : Nat)
  | cast (v : Nat) (ty : Ty) (r : Nat)
  | dispatchCps (a o ev k payload r : Nat)
  | dispatchTail (a o ev payload r : Nat)

/-- A function: its parameters with whether they have the type of evidence, the type of its result,
its body. -/
structure Func where
  params : List (Nat × Bool)
  ret : Ty
  body : List Op

/-- lower_ability_perform.rs 367–387: `find_evidence_from_op`: the first parameter that has the type
of evidence. -/
def evidence (f : Func) : Option Nat := (f.params.find? (·.2)).map (·.1)

/-- lower_ability_perform.rs 284–312: `pack_payload`: the operations, the payload and the next free
number. -/
def packPayload (a o : Nat) (args : List Nat) (n : Nat) : List Op × Nat × Nat :=
  ([.structNew a o args n, .cast n .anyref (n + 1)], n + 1, n + 2)

/-- lower_ability_perform.rs 314–335: `pack_legacy_payload`; `none` for the panic of the assertion. -/
def packLegacy (args : List Nat) (n : Nat) : Option (List Op × Nat × Nat) :=
  match args with
  | [] => some ([.refNull n], n, n + 1)
  | [v] => some ([.cast v .anyref n], n, n + 1)
  | _ => none

/-- lower_ability_perform.rs 118–132, 250–264. -/
def pack (legacy : Bool) (a o : Nat) (args : List Nat) (n : Nat) : Option (List Op × Nat × Nat) :=
  if legacy then packLegacy args n else some (packPayload a o args n)

/-- lower_ability_perform.rs 155–175: the return after a dispatch with result `r`. -/
def returnOps (ret : Ty) (r n : Nat) : List Op × Nat :=
  match ret with
  | .nil => ([.ret []], n)
  | .anyref => ([.ret [r]], n)
  | .other t => ([.cast r (.other t) n, .ret [n]], n + 1)

mutual
/-- lower_ability_perform.rs 83–206 and 213–276 with applicator.rs 310–361: an operation, whether
what follows in the block is dropped, and the next free number. `top`: the block is the body of the
function (`is_in_func_body`, 356–364). -/
def lowerOp (ev : Nat) (ret : Ty) (top : Bool) : Op → Nat → Option (List Op × Bool × Nat)
  | .perform legacy a o k args r, n =>
    match pack legacy a o args n with
    | none => none
    | some (ops, payload, n) =>
      let ops := ops ++ [.cast k .anyref n, .dispatchCps a o ev n payload r]
      if top then
        let q := returnOps ret r (n + 1)
        some (ops ++ q.1, true, q.2)
      else some (ops, false, n + 1)
  | .call legacy a o args r, n =>
    match pack legacy a o args n with
    | none => none
    | some (ops, payload, n) => some (ops ++ [.dispatchTail a o ev payload r], false, n)
  | .ite c t e r, n =>
    match lowerOps ev ret false t n with
    | none => none
    | some (t', n) =>
      match lowerOps ev ret false e n with
      | none => none
      | some (e', n) => some ([.ite c t' e' r], false, n)
  | op, n => some ([op], false, n)
/-- applicator.rs 310–361 with lower_ability_perform.rs 184–203: the operations of a block in order;
those after a `perform` in the body are erased. -/
def lowerOps (ev : Nat) (ret : Ty) (top : Bool) : List Op → Nat → Option (List Op × Nat)
  | [], n => some ([], n)
  | op :: ops, n =>
    match lowerOp ev ret top op n with
    | none => none
    | some (l, true, n) => some (l, n)
    | some (l, false, n) =>
      match lowerOps ev ret top ops n with
      | none => none
      | some (l', n) => some (l ++ l', n)
end

mutual
/-- A number above those of all values of an operation. -/
def Op.bound : Op → Nat
  | .prim _ args r => (r :: args).foldr max 0 + 1
  | .ite c t e r => max (max (c + 1) (r + 1)) (max (opsBound t) (opsBound e))
  | .yield v => v + 1
  | .ret vs => vs.foldr max 0 + 1
  | .perform _ _ _ k args r => (r :: k :: args).foldr max 0 + 1
  | .call _ _ _ args r => (r :: args).foldr max 0 + 1
  | .structNew _ _ args r => (r :: args).foldr max 0 + 1
  | .refNull r => r + 1
  | .cast v _ r => max v r + 1
  | .dispatchCps _ _ ev k p r => max (max ev k) (max p r) + 1
  | .dispatchTail _ _ ev p r => max ev (max p r) + 1
def opsBound : List Op → Nat
  | [] => 0
  | o :: os => max o.bound (opsBound os)
end

/-- The first free number of a function (the arena gives every value a number of its own). -/
def Func.fresh (f : Func) : Nat :=
  max ((f.params.map (·.1)).foldr max 0 + 1) (opsBound f.body)

/-- lower_ability_perform.rs 56–62: `lower_ability_perform` on a function; without evidence the
patterns do nothing (113–117, 245–249). -/
def lower (f : Func) : Option Func :=
  match evidence f with
  | none => some f
  | some ev =>
    match lowerOps ev f.ret true f.body f.fresh with
    | none => none
    | some (body, _) => some { f with body := body }

end Verif.Perform
