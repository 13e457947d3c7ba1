import Verif.WasmGc.Spec

/-!
# What operations on declared types do, and what the emitted instructions do

Both machines share their values: integers, the null reference and references to
allocated objects.  They differ in what an object carries: the declared type it was built
at, or an index of the type section.
-/

namespace Verif.WasmGc.Spec

open Verif.WasmGc

inductive Val where
  | int (z : Int)
  | null
  | ref (a : Nat)
deriving DecidableEq, Repr

/-- Outcome of a run: a result, a trap, or nothing known (a mistyped program, or fuel
spent). -/
inductive Out (α : Type) where
  | ok (a : α)
  | trap
  | stuck
deriving DecidableEq, Repr

/-- Addition of 32-bit integers (two's complement). -/
def add32 (a b : Int) : Int := (a + b + 2147483648) % 4294967296 - 2147483648

/-! ## Operations on declared types -/

/-- Objects with the type they were built at. -/
abbrev Objs := List (Ty × List Val)

/-- Whether a value read from a field has the type it is read at. -/
def hasTy (D : Decls) (h : Objs) (t : Ty) (v : Val) : Bool :=
  match v with
  | .int _ => match t with | .i32 | .i1 | .ptr => true | _ => false
  | .null => isRef t
  | .ref a =>
    match h[a]? with
    | none => false
    | some (o, _) =>
      match t with
      | .anyref | .structref => true
      | .struct n l => o = .struct n l
      | .typeref n => o = D.named n
      | .variant e l tag => o = .variant e l tag
      | .enum e l => match o with | .variant e' l' _ => e = e' ∧ l = l' | _ => false
      | _ => false

/-- The values of a list of value numbers. -/
def vals (env : List Val) (vs : List Nat) : Option (List Val) := vs.mapM fun v => env[v]?

/-- Reading a field of an object of type `t`. -/
def readField (D : Decls) (h : Objs) (rty t : Ty) (r : Option Val) (f : Nat) : Out Val :=
  match r with
  | some .null => .trap
  | some (.ref a) =>
    match h[a]? with
    | some (o, fs) =>
      if o = t then
        match fs[f]? with
        | some v => if hasTy D h rty v then .ok v else .stuck
        | none => .stuck
      else .stuck
    | none => .stuck
  | _ => .stuck

/-- A reference taken at declared type `t`: it must be to an object of that type. -/
def castTo (h : Objs) (t : Ty) (r : Option Val) : Out Val :=
  match r with
  | some .null => .ok .null
  | some (.ref a) =>
    match h[a]? with
    | some (o, _) => if o = t then .ok (.ref a) else .trap
    | none => .stuck
  | _ => .stuck

/-- One operation other than a return: the value it defines, if any, and the objects. -/
def aop (D : Decls) (callF : Nat → List Val → Objs → Out (Objs × Option Val)) (env : List Val) (h : Objs) :
    AOp → Out (Option Val × Objs)
  | .const z => .ok (some (.int z), h)
  | .add a b =>
    match env[a]?, env[b]? with
    | some (.int x), some (.int y) => .ok (some (.int (add32 x y)), h)
    | _, _ => .stuck
  | .structNew _ t args =>
    match vals env args with
    | some vs => .ok (some (.ref h.length), h ++ [(t, vs)])
    | none => .stuck
  | .variantNew e l tag args =>
    match vals env args with
    | some vs => .ok (some (.ref h.length), h ++ [(.variant e l tag, vs)])
    | none => .stuck
  | .structGet rty t r f =>
    match readField D h rty t env[r]? f with
    | .ok v => .ok (some v, h)
    | .trap => .trap
    | .stuck => .stuck
  | .variantGet rty e l tag r f =>
    match readField D h rty (.variant e l tag) env[r]? f with
    | .ok v => .ok (some v, h)
    | .trap => .trap
    | .stuck => .stuck
  | .structSet t r v f =>
    match env[r]?, env[v]? with
    | some .null, some _ => .trap
    | some (.ref a), some x =>
      match h[a]? with
      | some (o, fs) => if o = t ∧ f < fs.length then .ok (none, h.set a (o, fs.set f x)) else .stuck
      | none => .stuck
    | _, _ => .stuck
  | .variantIs e l tag r =>
    match env[r]? with
    | some (.ref a) =>
      match h[a]? with
      | some (o, _) => .ok (some (.int (if o = .variant e l tag then 1 else 0)), h)
      | none => .stuck
    | _ => .stuck
  | .variantCast e l tag r =>
    match castTo h (.variant e l tag) env[r]? with
    | .ok v => .ok (some v, h)
    | .trap => .trap
    | .stuck => .stuck
  | .refNull _ _ => .ok (some .null, h)
  | .refCast _ t r =>
    if t = .anyref ∨ t = .structref then
      match env[r]? with
      | some .null => .ok (some .null, h)
      | some (.ref a) => if a < h.length then .ok (some (.ref a), h) else .stuck
      | _ => .stuck
    else
      match castTo h t env[r]? with
      | .ok v => .ok (some v, h)
      | .trap => .trap
      | .stuck => .stuck
  | .call k rty args =>
    match vals env args with
    | some vs =>
      match callF k vs h with
      | .ok (h', v) =>
        if rty = .nil then .ok (some .null, h')
        else match v with | some v => .ok (some v, h') | none => .stuck
      | .trap => .trap
      | .stuck => .stuck
    | none => .stuck
  | .ret _ => .stuck

/-- A body: operations in order up to the return. -/
def abody (D : Decls) (callF : Nat → List Val → Objs → Out (Objs × Option Val)) (result : Ty) :
    List AOp → List Val → Objs → Out (Objs × Option Val)
  | [], _, _ => .stuck
  | op :: ops, env, h =>
    match op with
    | .ret vs =>
      match vals env vs with
      | some vs => .ok (h, if result = .nil then none else vs.head?)
      | none => .stuck
    | op =>
      match aop D callF env h op with
      | .ok (some v, h') => abody D callF result ops (env ++ [v]) h'
      | .ok (none, h') => abody D callF result ops env h'
      | .trap => .trap
      | .stuck => .stuck

/-- A call, with fuel for the depth of calls. -/
def arun (D : Decls) (m : List (Fn AOp)) : Nat → Nat → List Val → Objs → Out (Objs × Option Val)
  | 0, _, _, _ => .stuck
  | fuel + 1, f, args, h =>
    match m[f]? with
    | some fn => if args.length = fn.params.length then abody D (arun D m fuel) fn.result fn.body args h else .stuck
    | none => .stuck

/-! ## WebAssembly -/

/-- Objects with their type index. -/
abbrev WObjs := List (Nat × List Val)

/-- Whether an object of type index `i` is of a heap type (all types are final). -/
def ofHeap (defs : List GcDef) (i : Nat) (h : Heap) : Bool := heapLe defs (.concrete i) h

/-- Outcome of one instruction. -/
inductive WStep where
  | next (locals stack : List Val) (h : WObjs)
  | done (h : WObjs) (v : Option Val)
  | trap
  | stuck

/-- One instruction. -/
def wstep (w : WModule) (callF : Nat → List Val → WObjs → Out (WObjs × Option Val)) (nres : Nat)
    (locals stack : List Val) (h : WObjs) : Instr → WStep
  | .localGet n =>
    match locals[n]? with
    | some v => .next locals (v :: stack) h
    | none => .stuck
  | .localSet n =>
    match stack with
    | v :: s => .next (locals.set n v) s h
    | [] => .stuck
  | .i32Const z => .next locals (.int z :: stack) h
  | .i32Add =>
    match stack with
    | .int y :: .int x :: s => .next locals (.int (add32 x y) :: s) h
    | _ => .stuck
  | .i32WrapI64 => .stuck
  | .refI31 => .stuck
  | .structNew t =>
    match w.defs[t]? with
    | some (.struct fs) =>
      if fs.length ≤ stack.length then
        .next locals (.ref h.length :: stack.drop fs.length) (h ++ [(t, (stack.take fs.length).reverse)])
      else .stuck
    | _ => .stuck
  | .structGet t f =>
    match stack with
    | .null :: _ => .trap
    | .ref a :: s =>
      match h[a]? with
      | some (i, fs) =>
        if i = t then
          match fs[f]? with
          | some v => .next locals (v :: s) h
          | none => .stuck
        else .stuck
      | none => .stuck
    | _ => .stuck
  | .structSet t f =>
    match stack with
    | _ :: .null :: _ => .trap
    | x :: .ref a :: s =>
      match h[a]? with
      | some (i, fs) => if i = t ∧ f < fs.length then .next locals s (h.set a (i, fs.set f x)) else .stuck
      | none => .stuck
    | _ => .stuck
  | .refNull _ => .next locals (.null :: stack) h
  | .refCast nullable ht =>
    match stack with
    | .null :: s => if nullable then .next locals (.null :: s) h else .trap
    | .ref a :: s =>
      match h[a]? with
      | some (i, _) => if ofHeap w.defs i ht then .next locals (.ref a :: s) h else .trap
      | none => .stuck
    | _ => .stuck
  | .refTest nullable ht =>
    match stack with
    | .null :: s => .next locals (.int (if nullable then 1 else 0) :: s) h
    | .ref a :: s =>
      match h[a]? with
      | some (i, _) => .next locals (.int (if ofHeap w.defs i ht then 1 else 0) :: s) h
      | none => .stuck
    | _ => .stuck
  | .call f =>
    match w.fns[f]? with
    | some g =>
      if g.params.length ≤ stack.length then
        match callF f (stack.take g.params.length).reverse h with
        | .ok (h', none) => .next locals (stack.drop g.params.length) h'
        | .ok (h', some v) => .next locals (v :: stack.drop g.params.length) h'
        | .trap => .trap
        | .stuck => .stuck
      else .stuck
    | none => .stuck
  | .ret =>
    if nres = 0 then .done h none
    else match stack with | v :: _ => .done h (some v) | [] => .stuck

/-- The rest of a body. -/
def wbody (w : WModule) (callF : Nat → List Val → WObjs → Out (WObjs × Option Val)) (nres : Nat) :
    List Instr → List Val → List Val → WObjs → Out (WObjs × Option Val)
  | [], _, _, _ => .stuck
  | i :: is, locals, stack, h =>
    match wstep w callF nres locals stack h i with
    | .next l s h' => wbody w callF nres is l s h'
    | .done h' v => .ok (h', v)
    | .trap => .trap
    | .stuck => .stuck

/-- Default value of a local. -/
def defaultVal : VT → Val
  | .ref _ _ => .null
  | _ => .int 0

/-- A call, with fuel for the depth of calls. -/
def wrun (w : WModule) : Nat → Nat → List Val → WObjs → Out (WObjs × Option Val)
  | 0, _, _, _ => .stuck
  | fuel + 1, f, args, h =>
    match w.fns[f]? with
    | some g =>
      if args.length = g.params.length then
        wbody w (wrun w fuel) g.results.length g.body
          (args ++ (g.locals.drop g.params.length).map defaultVal) [] h
      else .stuck
    | none => .stuck

/-- The two heaps agree: the same objects in the same order with the same fields, and two
objects have one declared type exactly when they have one index. -/
def Agree (h : Objs) (h' : WObjs) : Prop :=
  h.map (·.2) = h'.map (·.2) ∧
  ∀ (a b : Nat) (o p : Ty × List Val) (x y : Nat × List Val),
    h[a]? = some o → h[b]? = some p → h'[a]? = some x → h'[b]? = some y → (o.1 = p.1 ↔ x.1 = y.1)

end Verif.WasmGc.Spec
