import Verif.WasmCall.Model

/-!
# What running a module means, before and after

`run` is the meaning of a module before the backend: a function reference is the name of
a function, and calling it runs that function.  `wrun` is the WebAssembly machine on the
emitted module: a function reference is a number, looked up in the function table, whose
entry is checked against the type named by the instruction.  Imported functions are an
arbitrary `host`.
-/

namespace Verif.WasmCall.Spec

open Verif.WasmCall

/-! ## Before -/

inductive Val where
  | int (z : BitVec 32)
  | fn (name : String)
deriving DecidableEq, Repr

/-- Outcome of a call: finished (with a value unless the result type is `nil`), trapped,
or ill-formed (`stuck`: an undefined value, a wrong number of arguments, a call of
something that is not a function, a call at a type other than the function's). -/
inductive Out where
  | done (v : Option Val)
  | trap
  | stuck
deriving DecidableEq, Repr

inductive Flow where
  | cont (env : Nat → Option Val)
  | fin (o : Out)

def bind (env : Nat → Option Val) (d : Nat) (v : Val) : Nat → Option Val :=
  fun x => if x = d then some v else env x

def readAll (env : Nat → Option Val) : List Nat → Option (List Val)
  | [] => some []
  | x :: xs =>
    match env x, readAll env xs with
    | some v, some vs => some (v :: vs)
    | _, _ => none

/-- The type of a function of the module, imported or not. -/
def sigOf (m : Mod) (f : String) : Option Sig :=
  ((m.imports ++ m.fns.map fun g => (g.name, g.sig)).find? fun p => p.1 = f).map (·.2)

/-- What happens after a call at a result type: the value is bound to `d`, if there is
one. -/
def after (env : Nat → Option Val) (d : Nat) (rty : Ty) :
    Option Out → (( Nat → Option Val) → Option Flow) → Option Flow
  | none, _ => none
  | some .trap, _ => some (.fin .trap)
  | some .stuck, _ => some (.fin .stuck)
  | some (.done none), k => if rty = .nil then k env else some (.fin .stuck)
  | some (.done (some v)), k => if rty = .nil then some (.fin .stuck) else k (bind env d v)

/-- Running code, given what calling a named function does. -/
def exec (m : Mod) (cf : String → List Val → Option Out) :
    (Nat → Option Val) → Code → Option Flow
  | env, .const d f k => exec m cf (bind env d (.fn f)) k
  | env, .num d z k => exec m cf (bind env d (.int z)) k
  | env, .add d a b k =>
    match env a, env b with
    | some (.int x), some (.int y) => exec m cf (bind env d (.int (x + y))) k
    | _, _ => some (.fin .stuck)
  | env, .call d rty f args k =>
    match readAll env args with
    | none => some (.fin .stuck)
    | some vs => after env d rty (cf f vs) fun env' => exec m cf env' k
  | env, .callInd d rty callee args k =>
    match env callee, readAll env args with
    | some (.fn f), some vs => after env d rty (cf f vs) fun env' => exec m cf env' k
    | _, _ => some (.fin .stuck)
  | env, .ifte c t e k =>
    match env c with
    | some (.int z) =>
      match (if z = 0 then exec m cf env e else exec m cf env t) with
      | some (.cont env') => exec m cf env' k
      | r => r
    | _ => some (.fin .stuck)
  | env, .fall => some (.cont env)
  | _, .ret none => some (.fin (.done none))
  | env, .ret (some v) =>
    match env v with
    | some x => some (.fin (.done (some x)))
    | none => some (.fin .stuck)
  | env, .tail f args =>
    match readAll env args with
    | none => some (.fin .stuck)
    | some vs => (cf f vs).map .fin
  | env, .tailInd callee args sig =>
    match env callee, readAll env args with
    | some (.fn f), some vs =>
      if sig.isSome ∧ sigOf m f = sig then (cf f vs).map .fin else some (.fin .stuck)
    | _, _ => some (.fin .stuck)
  | _, .unreach => some (.fin .trap)

/-- A finished call gives a value exactly when the result type is not `nil`. -/
def checkResult (t : Ty) : Flow → Out
  | .cont _ => if t = .nil then .done none else .stuck
  | .fin (.done none) => if t = .nil then .done none else .stuck
  | .fin (.done (some v)) => if t = .nil then .stuck else .done (some v)
  | .fin o => o

def ints : List Val → Option (List (BitVec 32))
  | [] => some []
  | .int z :: vs => (ints vs).map (z :: ·)
  | .fn _ :: _ => none

def hostOut (t : Ty) (z : BitVec 32) : Out :=
  if t = .nil then .done none else .done (some (.int z))

/-- Calling a function by name, with at most `n` nested calls (`none`: more were needed).
-/
def run (m : Mod) (host : String → List (BitVec 32) → BitVec 32) :
    Nat → String → List Val → Option Out
  | 0, _, _ => none
  | n + 1, f, vs =>
    match m.imports.find? fun p => p.1 = f with
    | some (_, s) =>
      if vs.length = s.params.length then
        match ints vs with
        | some zs => some (hostOut s.result (host f zs))
        | none => some .stuck
      else some .stuck
    | none =>
      match m.fns.find? fun g => g.name = f with
      | none => some .stuck
      | some g =>
        if vs.length = g.sig.params.length then
          (exec m (run m host n) (fun i => vs[i]?) g.body).map (checkResult g.sig.result)
        else some .stuck

/-! ## After -/

inductive WOut where
  | done (v : Option (BitVec 32))
  | trap
  | invalid
deriving DecidableEq, Repr

inductive WFlow where
  | cont (locals : Nat → BitVec 32) (stack : List (BitVec 32))
  | fin (o : WOut)

/-- Take the topmost `n` values, the lowest first. -/
def popN (n : Nat) (stack : List (BitVec 32)) : Option (List (BitVec 32) × List (BitVec 32)) :=
  if n ≤ stack.length then some ((stack.take n).reverse, stack.drop n) else none

/-- Index of the type of the function with an index. -/
def funcType (w : WMod) (f : Nat) : Option TypeDef :=
  match (w.imports.map (·.2) ++ w.fns.map (·.type))[f]? with
  | some t => w.types[t]?
  | none => none

/-- The function table after instantiation: the element segment is written from slot 0 on;
the other slots are empty.  `none`: a trap. -/
def slot (w : WMod) (table : Nat) (i : BitVec 32) : Option Nat :=
  match w.tableSize with
  | some n => if table = 0 ∧ i.toNat < n then w.elem[i.toNat]? else none
  | none => none

/-- Result of a call pushed on the stack. -/
def push : Option (BitVec 32) → List (BitVec 32) → List (BitVec 32)
  | none, st => st
  | some z, st => z :: st

/-- A direct call. -/
def direct (w : WMod) (cf : Nat → List (BitVec 32) → Option WOut) (f : Nat)
    (stack : List (BitVec 32)) : Option (WOut × List (BitVec 32)) :=
  match funcType w f with
  | some (.func ps _) =>
    match popN ps.length stack with
    | some (args, rest) => (cf f args).map fun o => (o, rest)
    | none => some (.invalid, [])
  | _ => some (.invalid, [])

/-- An indirect call: the index of the table slot is on top of the stack.  A slot out of
range, an empty slot or a function of another type traps. -/
def indirect (w : WMod) (cf : Nat → List (BitVec 32) → Option WOut) (type table : Nat)
    (stack : List (BitVec 32)) : Option (WOut × List (BitVec 32)) :=
  match w.types[type]?, stack with
  | some (.func ps rs), i :: stack' =>
    match slot w table i with
    | none => some (.trap, [])
    | some f =>
      if funcType w f = some (.func ps rs) then direct w cf f stack' else some (.trap, [])
  | _, _ => some (.invalid, [])

/-- After a call: go on with the result on the stack, or stop. -/
def resume : Option (WOut × List (BitVec 32)) → (List (BitVec 32) → Option WFlow) →
    Option WFlow
  | none, _ => none
  | some (.done v, st), k => k (push v st)
  | some (o, _), _ => some (.fin o)

/-- The value returned by a function with `n` results from a stack. -/
def returned (n : Nat) (stack : List (BitVec 32)) : WOut :=
  if n = 0 then .done none
  else
    match stack with
    | z :: _ => .done (some z)
    | [] => .invalid

/-- After a branch, which has to leave its part of the stack empty. -/
def afterBranch : Option WFlow → ((Nat → BitVec 32) → Option WFlow) → Option WFlow
  | none, _ => none
  | some (.cont l []), k => k l
  | some (.cont _ (_ :: _)), _ => some (.fin .invalid)
  | some (.fin o), _ => some (.fin o)

/-- Running emitted code; `n` is the number of results of the function. -/
def wexec (w : WMod) (cf : Nat → List (BitVec 32) → Option WOut) (n : Nat) :
    (Nat → BitVec 32) → List (BitVec 32) → ICode → Option WFlow
  | l, st, .done => some (.cont l st)
  | l, st, .ins (.get v) k => wexec w cf n l (l v :: st) k
  | l, z :: st, .ins (.set v) k => wexec w cf n (fun x => if x = v then z else l x) st k
  | l, st, .ins (.const z) k => wexec w cf n l (z :: st) k
  | l, b :: a :: st, .ins .add k => wexec w cf n l ((a + b) :: st) k
  | l, st, .ins (.call f) k => resume (direct w cf f st) fun st' => wexec w cf n l st' k
  | l, st, .ins (.callInd t tb) k =>
    resume (indirect w cf t tb st) fun st' => wexec w cf n l st' k
  | _, st, .ins .ret _ => some (.fin (returned n st))
  | _, st, .ins (.retCall f) _ => (direct w cf f st).map fun p => .fin p.1
  | _, st, .ins (.retCallInd t tb) _ => (indirect w cf t tb st).map fun p => .fin p.1
  | _, _, .ins .unreach _ => some (.fin .trap)
  | l, c :: st, .ifte t e k =>
    afterBranch (if c = 0 then wexec w cf n l [] e else wexec w cf n l [] t)
      fun l' => wexec w cf n l' st k
  | _, _, _ => some (.fin .invalid)

def finish (n : Nat) : WFlow → WOut
  | .cont _ st => returned n st
  | .fin o => o

/-- Calling a function by its index, with at most `n` nested calls. -/
def wrun (w : WMod) (host : String → List (BitVec 32) → BitVec 32) :
    Nat → Nat → List (BitVec 32) → Option WOut
  | 0, _, _ => none
  | n + 1, f, zs =>
    match funcType w f with
    | some (.func ps rs) =>
      if zs.length = ps.length then
        match w.imports[f]? with
        | some (name, _) =>
          some (if rs = [] then .done none else .done (some (host name zs)))
        | none =>
          match w.fns[f - w.imports.length]? with
          | none => some .invalid
          | some g =>
            (wexec w (wrun w host n) rs.length (fun i => (zs[i]?).getD 0) [] g.code).map
              (finish rs.length)
      else some .invalid
    | _ => some .invalid

/-! ## Correspondence -/

/-- The function names of a module in the order of their indices: imports first. -/
def nameAt (m : Mod) (i : Nat) : Option String :=
  (m.imports.map (·.1) ++ m.fns.map (·.name))[i]?

/-- A number stands for a value: an integer for itself; the reference to `f` is the number
of a table slot that holds the function `f`. -/
def Rep (m : Mod) (w : WMod) : Val → BitVec 32 → Prop
  | .int z, n => n = z
  | .fn f, n => ∃ i, slot w 0 n = some i ∧ nameAt m i = some f

def Reps (m : Mod) (w : WMod) : List Val → List (BitVec 32) → Prop
  | [], [] => True
  | v :: vs, z :: zs => Rep m w v z ∧ Reps m w vs zs
  | _, _ => False

/-- The outcome on WebAssembly stands for the outcome of the module. -/
def OutRep (m : Mod) (w : WMod) : Out → WOut → Prop
  | .done none, .done none => True
  | .done (some v), .done (some z) => Rep m w v z
  | .trap, .trap => True
  | _, _ => False

/-! ## Conditions on modules -/

/-- A condition on every operation of some code: on references, direct calls (also tail
calls) with their argument values, indirect calls, and indirect tail calls. -/
structure Cond where
  ref : String → Prop
  call : String → Prop
  ind : Ty → Nat → List Nat → Prop
  tailInd : Nat → List Nat → Option Sig → Prop

def Every (c : Cond) : Code → Prop
  | .const _ f k => c.ref f ∧ Every c k
  | .num _ _ k | .add _ _ _ k => Every c k
  | .call _ _ f _ k => c.call f ∧ Every c k
  | .callInd _ rty callee args k => c.ind rty callee args ∧ Every c k
  | .ifte _ t e k => Every c t ∧ Every c e ∧ Every c k
  | .tail f _ => c.call f
  | .tailInd callee args s => c.tailInd callee args s
  | .fall | .ret _ | .unreach => True

/-- Number of function references in some code. -/
def refCount : Code → Nat
  | .const _ _ k => refCount k + 1
  | .num _ _ k | .add _ _ _ k | .call _ _ _ _ k | .callInd _ _ _ _ k => refCount k
  | .ifte _ t e k => refCount t + refCount e + refCount k
  | .fall | .ret _ | .tail _ _ | .tailInd _ _ _ | .unreach => 0

/-- Every reference names a function of the module, the names are distinct, and there are
fewer than 2³² references. -/
structure Linked (m : Mod) : Prop where
  distinct : (m.imports.map (·.1) ++ m.fns.map (·.name)).Nodup
  refs : ∀ g ∈ m.fns,
    Every ⟨fun f => ∃ i, nameAt m i = some f, fun _ => True, fun _ _ _ => True,
      fun _ _ _ => True⟩ g.body
  few : (m.fns.map fun g => refCount g.body).sum < 2 ^ 32

/-- No indirect call in the middle of a function (indirect tail calls are allowed). -/
def NoIndirectCall (m : Mod) : Prop :=
  ∀ g ∈ m.fns,
    Every ⟨fun _ => True, fun _ => True, fun _ _ _ => False, fun _ _ _ => True⟩ g.body

/-- Some type has a WebAssembly type. -/
def Supported : Ty → Prop
  | .other _ => False
  | _ => True

def SigSupported (s : Sig) : Prop := (∀ t ∈ s.params, Supported t) ∧ Supported s.result

/-- What the backend may assume of a function's body: called functions exist; the callee
of an indirect call has type `i32` and its types have WebAssembly types; an indirect tail
call states the types of its arguments and no result. -/
def BodyOk (m : Mod) (g : Fn Code) : Prop :=
  Every
    { ref := fun _ => True
      call := fun f => ∃ i, nameAt m i = some f
      ind := fun rty callee args =>
        g.ty callee = .i32 ∧ (∀ a ∈ args, Supported (g.ty a)) ∧ Supported rty
      tailInd := fun callee args s =>
        g.ty callee = .i32 ∧ (∀ a ∈ args, Supported (g.ty a)) ∧
          s = some ⟨args.map g.ty, .nil⟩ } g.body

/-- The types of all functions have WebAssembly types and all bodies are as assumed. -/
structure WellFormed (m : Mod) : Prop where
  imports : ∀ p ∈ m.imports, SigSupported p.2
  fns : ∀ g ∈ m.fns, SigSupported g.sig
  bodies : ∀ g ∈ m.fns, BodyOk m g

/-- Some code has an indirect call that is not a tail call. -/
def HasIndirectCall : Code → Prop
  | .callInd .. => True
  | .const _ _ k | .num _ _ k | .add _ _ _ k | .call _ _ _ _ k => HasIndirectCall k
  | .ifte _ t e k => HasIndirectCall t ∨ HasIndirectCall e ∨ HasIndirectCall k
  | .fall | .ret _ | .tail _ _ | .tailInd _ _ _ | .unreach => False

/-- The emitted code has a `call_indirect` whose type index is not the index of a function
type; a WebAssembly engine rejects such a module. -/
def BadCall (types : List TypeDef) : ICode → Prop
  | .ins (.callInd t _) k => (∀ ps rs, types[t]? ≠ some (.func ps rs)) ∨ BadCall types k
  | .ins _ k => BadCall types k
  | .ifte t e k => BadCall types t ∨ BadCall types e ∨ BadCall types k
  | .done => False

end Verif.WasmCall.Spec
