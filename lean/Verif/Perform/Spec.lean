import Verif.Perform.Model

/-!
What functions mean, before and after operations of abilities are lowered.

The meaning of the other operations, of handlers and of the world they act on is arbitrary.
-/

namespace Verif.Perform

/-- An interpretation: values, a world, what operations do with it. `cps ev a o k p` is what the
handler of operation `o` of ability `a` in evidence `ev` answers when given the continuation `k` and
the payload `p`; `tail` is the same without continuation. -/
structure Interp (V W : Type) where
  prim : Nat → List V → W → V × W
  truth : V → Bool
  null : V
  product : Nat → Nat → List V → V
  cps : V → Nat → Nat → V → V → W → V × W
  tail : V → Nat → Nat → V → W → V × W

variable {V W : Type}

/-- The payload of an operation: the product of the arguments; in the old form nothing or the one
argument. -/
def payloadOf (I : Interp V W) (legacy : Bool) (a o : Nat) (args : List V) : Option V :=
  match legacy, args with
  | false, args => some (I.product a o args)
  | true, [] => some I.null
  | true, [v] => some v
  | true, _ => none

def set (env : Nat → V) (r : Nat) (v : V) : Nat → V := fun x => if x = r then v else env x

/-- How operations end. -/
inductive Out (V W : Type) where
  | next (env : Nat → V) (w : W)
  | yielded (v : V) (w : W)
  | returned (vs : List V) (w : W)
  | stuck

mutual
/-- Runs an operation. `ev` is the evidence of the function and `ret` the type of its result. In the
body of the function (`top`) `perform` ends the function with the answer of the handler; in a branch
it is the value of the operation. -/
def exec (I : Interp V W) (ev : V) (ret : Ty) (top : Bool) : Op → (Nat → V) → W → Out V W
  | .prim f args r, env, w =>
    let q := I.prim f (args.map env) w
    .next (set env r q.1) q.2
  | .ite c t e r, env, w =>
    match (if I.truth (env c) then execs I ev ret false t env w else execs I ev ret false e env w) with
    | .yielded v w => .next (set env r v) w
    | .returned vs w => .returned vs w
    | .next _ _ => .stuck
    | .stuck => .stuck
  | .yield v, env, w => .yielded (env v) w
  | .ret vs, env, w => .returned (vs.map env) w
  | .perform legacy a o k args r, env, w =>
    match payloadOf I legacy a o (args.map env) with
    | none => .stuck
    | some p =>
      let q := I.cps ev a o (env k) p w
      if top then .returned (if ret = .nil then [] else [q.1]) q.2
      else .next (set env r q.1) q.2
  | .call legacy a o args r, env, w =>
    match payloadOf I legacy a o (args.map env) with
    | none => .stuck
    | some p =>
      let q := I.tail ev a o p w
      .next (set env r q.1) q.2
  | .structNew a o args r, env, w => .next (set env r (I.product a o (args.map env))) w
  | .refNull r, env, w => .next (set env r I.null) w
  | .cast v _ r, env, w => .next (set env r (env v)) w
  | .dispatchCps a o x k p r, env, w =>
    let q := I.cps (env x) a o (env k) (env p) w
    .next (set env r q.1) q.2
  | .dispatchTail a o x p r, env, w =>
    let q := I.tail (env x) a o (env p) w
    .next (set env r q.1) q.2
def execs (I : Interp V W) (ev : V) (ret : Ty) (top : Bool) : List Op → (Nat → V) → W → Out V W
  | [], env, w => .next env w
  | op :: ops, env, w =>
    match exec I ev ret top op env w with
    | .next env w => execs I ev ret top ops env w
    | .yielded v w => .yielded v w
    | .returned vs w => .returned vs w
    | .stuck => .stuck
end

/-- What a function returns for the given values of its parameters, and the world afterwards. -/
def run (I : Interp V W) (f : Func) (env : Nat → V) (w : W) : Option (List V × W) :=
  match f.params.find? (·.2) with
  | none => none
  | some p =>
    match execs I (env p.1) f.ret true f.body env w with
    | .returned vs w => some (vs, w)
    | _ => none

mutual
/-- The values defined by operations. -/
def Op.defs : Op → List Nat
  | .prim _ _ r => [r]
  | .ite _ t e r => r :: (opsDefs t ++ opsDefs e)
  | .yield _ => []
  | .ret _ => []
  | .perform _ _ _ _ _ r => [r]
  | .call _ _ _ _ r => [r]
  | .structNew _ _ _ r => [r]
  | .refNull r => [r]
  | .cast _ _ r => [r]
  | .dispatchCps _ _ _ _ _ r => [r]
  | .dispatchTail _ _ _ _ r => [r]
def opsDefs : List Op → List Nat
  | [] => []
  | o :: os => o.defs ++ opsDefs os
end

mutual
/-- No operation of an ability is left, at any depth. -/
def Op.clean : Op → Bool
  | .perform _ _ _ _ _ _ => false
  | .call _ _ _ _ _ => false
  | .ite _ t e _ => opsClean t && opsClean e
  | _ => true
def opsClean : List Op → Bool
  | [] => true
  | o :: os => o.clean && opsClean os
end

mutual
/-- Operations in the old form have at most one argument. -/
def Op.packed : Op → Bool
  | .perform l _ _ _ args _ => !l || decide (args.length ≤ 1)
  | .call l _ _ args _ => !l || decide (args.length ≤ 1)
  | .ite _ t e _ => opsPacked t && opsPacked e
  | _ => true
def opsPacked : List Op → Bool
  | [] => true
  | o :: os => o.packed && opsPacked os
end

/-- Is the operation a `perform`? -/
def Op.isPerform : Op → Bool
  | .perform _ _ _ _ _ _ => true
  | _ => false

/-- A body that ends by returning the answer of a dispatch as a value of the type of the function. -/
inductive ReturnsAnswer (ret : Ty) : List Op → Prop
  | nil (l a o x k p r) : ret = .nil →
      ReturnsAnswer ret (l ++ [.dispatchCps a o x k p r, .ret []])
  | anyref (l a o x k p r) : ret = .anyref →
      ReturnsAnswer ret (l ++ [.dispatchCps a o x k p r, .ret [r]])
  | other (l a o x k p r t c) : ret = .other t →
      ReturnsAnswer ret (l ++ [.dispatchCps a o x k p r, .cast r (.other t) c, .ret [c]])

/-- The values an operation makes that have the type all payloads and continuations have. -/
def Op.anyrefs : Op → List Nat
  | .cast _ .anyref r => [r]
  | .refNull r => [r]
  | _ => []

mutual
/-- Dispatches are given values of that type only, `known` and those made before. -/
def Op.erased (known : List Nat) : Op → Prop
  | .dispatchCps _ _ _ k p _ => k ∈ known ∧ p ∈ known
  | .dispatchTail _ _ _ p _ => p ∈ known
  | .ite _ t e _ => opsErased known t ∧ opsErased known e
  | _ => True
def opsErased (known : List Nat) : List Op → Prop
  | [] => True
  | o :: os => o.erased known ∧ opsErased (o.anyrefs ++ known) os
end

mutual
/-- There is no dispatch yet. -/
def Op.undispatched : Op → Bool
  | .dispatchCps .. => false
  | .dispatchTail .. => false
  | .ite _ t e _ => opsUndispatched t && opsUndispatched e
  | _ => true
def opsUndispatched : List Op → Bool
  | [] => true
  | o :: os => o.undispatched && opsUndispatched os
end

end Verif.Perform
