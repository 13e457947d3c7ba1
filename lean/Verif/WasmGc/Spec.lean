import Verif.WasmGc.Model
import Mathlib.Data.List.Forall2

/-!
# What the emitted WebAssembly must satisfy

Three specifications, written without the tables of the model:

* the validation rules of WebAssembly (GC proposal) for the instructions used, on a
  type section whose types are all final and without supertypes;
* the typing conditions on a module of operations on declared types under which the
  emitted module is claimed to be valid;
* what the operations on declared types do, and what the emitted instructions do.
-/

namespace Verif.WasmGc.Spec

open Verif.WasmGc

/-! ## Validation -/

/-- Heap subtyping (WebAssembly 3.0, "Matching": heap types). -/
def heapLe (defs : List GcDef) : Heap → Heap → Bool
  | .none, h => h ≠ .func
  | .concrete i, .concrete j => i = j
  | .concrete i, .struct => match defs[i]? with | some (.struct _) => true | _ => false
  | .concrete i, .array => match defs[i]? with | some (.array _) => true | some .bytesArray => true | _ => false
  | .concrete i, .eq => i < defs.length
  | .concrete i, .any => i < defs.length
  | .i31, .i31 => true | .i31, .eq => true | .i31, .any => true
  | .struct, .struct => true | .struct, .eq => true | .struct, .any => true
  | .array, .array => true | .array, .eq => true | .array, .any => true
  | .eq, .eq => true | .eq, .any => true
  | .any, .any => true
  | .func, .func => true
  | _, _ => false

/-- Value subtyping: a non-null reference may stand for a nullable one. -/
def vtLe (defs : List GcDef) : VT → VT → Bool
  | .ref n h, .ref n' h' => (!n || n') && heapLe defs h h'
  | a, b => a = b

/-- Types with a default value: locals of other types must be set before they are read. -/
def defaultable : VT → Bool
  | .ref false _ => false
  | _ => true

/-- Validation context: type section, functions' types, locals, results. -/
structure Ctx where
  defs : List GcDef
  fns : List (List VT × List VT)
  locals : List VT
  results : List VT

/-- Operand stack (top first) and the locals known to be set; `done` after `return`. -/
inductive State where
  | run (stack : List VT) (set : List Nat)
  | done
deriving DecidableEq

/-- Pop operands of the given types, the last on top. -/
def popAll (defs : List GcDef) (stack : List VT) (tys : List VT) : Option (List VT) :=
  if tys.length ≤ stack.length ∧
      (List.zipWith (vtLe defs) (stack.take tys.length) tys.reverse).all id then
    some (stack.drop tys.length)
  else none

/-- Whether a heap type is in the hierarchy of `any` and well formed. -/
def inAny (defs : List GcDef) (h : Heap) : Bool := heapLe defs h .any

/-- Validation of one instruction.  `none`: the module is rejected. -/
def check (C : Ctx) : State → Instr → Option State
  | .done, _ => none
  | .run s set, .localGet n =>
    match C.locals[n]? with
    | some v => if defaultable v ∨ n ∈ set then some (.run (v :: s) set) else none
    | none => none
  | .run s set, .localSet n =>
    match C.locals[n]? with
    | some v => (popAll C.defs s [v]).map fun s => .run s (n :: set)
    | none => none
  | .run s set, .i32Const _ => some (.run (.i32 :: s) set)
  | .run s set, .i32Add => (popAll C.defs s [.i32, .i32]).map fun s => .run (.i32 :: s) set
  | .run s set, .i32WrapI64 => (popAll C.defs s [.i64]).map fun s => .run (.i32 :: s) set
  | .run s set, .refI31 => (popAll C.defs s [.i32]).map fun s => .run (.ref false .i31 :: s) set
  | .run s set, .structNew t =>
    match C.defs[t]? with
    | some (.struct fs) =>
      (popAll C.defs s (fs.map (·.1))).map fun s => .run (.ref false (.concrete t) :: s) set
    | _ => none
  | .run s set, .structGet t f =>
    match C.defs[t]? with
    | some (.struct fs) =>
      match fs[f]? with
      | some (v, _) => (popAll C.defs s [.ref true (.concrete t)]).map fun s => .run (v :: s) set
      | none => none
    | _ => none
  | .run s set, .structSet t f =>
    match C.defs[t]? with
    | some (.struct fs) =>
      match fs[f]? with
      | some (v, true) => (popAll C.defs s [.ref true (.concrete t), v]).map fun s => .run s set
      | _ => none
    | _ => none
  | .run s set, .refNull h =>
    if h = .func ∨ inAny C.defs h then some (.run (.ref true h :: s) set) else none
  | .run s set, .refCast n h =>
    if inAny C.defs h then
      (popAll C.defs s [.ref true .any]).map fun s => .run (.ref n h :: s) set
    else none
  | .run s set, .refTest _ h =>
    if inAny C.defs h then (popAll C.defs s [.ref true .any]).map fun s => .run (.i32 :: s) set
    else none
  | .run s set, .call f =>
    match C.fns[f]? with
    | some (ps, rs) => (popAll C.defs s ps).map fun s => .run (rs.reverse ++ s) set
    | none => none
  | .run s _, .ret => (popAll C.defs s C.results).map fun _ => .done

/-- A body is valid when its instructions are and it ends by returning. -/
def checkBody (C : Ctx) : State → List Instr → Bool
  | st, [] => st = .done
  | st, i :: is =>
    match check C st i with
    | some st' => checkBody C st' is
    | none => false

/-- A value type mentions only types of the module. -/
def vtOk (defs : List GcDef) : VT → Bool
  | .ref _ (.concrete i) => i < defs.length
  | _ => true

/-- A type definition mentions only types of the module. -/
def defOk (defs : List GcDef) : GcDef → Bool
  | .struct fs => fs.all fun f => vtOk defs f.1
  | .array e => vtOk defs e.1
  | .bytesArray => true

/-- A function is valid: its locals start with its parameters, which are set. -/
def ValidFn (w : WModule) (f : WFn) : Prop :=
  f.locals.take f.params.length = f.params ∧
  (∀ v ∈ f.locals, vtOk w.defs v = true) ∧ (∀ v ∈ f.results, vtOk w.defs v = true) ∧
  checkBody { defs := w.defs, fns := w.fns.map fun g => (g.params, g.results),
              locals := f.locals, results := f.results }
    (.run [] (List.range f.params.length)) f.body = true

/-- A module is valid. -/
def ValidModule (w : WModule) : Prop :=
  (∀ d ∈ w.defs, defOk w.defs d = true) ∧ ∀ f ∈ w.fns, ValidFn w f

/-! ## Typing conditions on the operations on declared types -/

/-- Names the backend keeps for itself. -/
def reserved : List String :=
  ["_BoxedF64", "_Step", "_closure", "_Marker", "_Continuation", "_ResumeWrapper"]

/-- Types declared by the program: records, and constructors of enums. -/
def Declared : Ty → Prop
  | .struct n _ => n ∉ reserved
  | .variant _ _ _ => True
  | _ => False

/-- What the program declares: the number of fields of each declared type, and the record
each name stands for. -/
structure Decls where
  arity : Ty → Nat
  named : String → Ty

/-- `r` is a type of references to values of the declared type `t`: the type itself, or
for a record its name. -/
def RefersTo (D : Decls) (r t : Ty) : Prop :=
  r = t ∨ ∃ n l, t = .struct n l ∧ r = .typeref n ∧ D.named n = t

/-- Types whose values are references in the `any` hierarchy. -/
def isRef : Ty → Bool
  | .bytes | .bytesArray _ | .anyref | .structref | .i31ref | .arrayref | .array _ | .evidence _ => true
  | .struct _ _ | .enum _ _ | .typeref _ | .variant _ _ _ | .nil => true
  | _ => false

/-- A value of type `a` may be passed where `p` is expected. -/
def Assignable (a p : Ty) : Prop := a = p ∨ (p = .anyref ∧ isRef a = true)

/-- Types a field may be read at. -/
def readable : Ty → Bool
  | .typeref _ | .variant _ _ _ | .structref | .i31ref | .eqref => false
  | _ => true

/-- Type of the result of an operation. -/
def resultTy : AOp → Option Ty
  | .const _ => some .i32
  | .add _ _ => some .i32
  | .structNew rty _ _ => some rty
  | .structGet rty _ _ _ => some rty
  | .structSet _ _ _ _ => none
  | .variantNew e l tag _ => some (.variant e l tag)
  | .variantIs _ _ _ _ => some .i32
  | .variantCast e l tag _ => some (.variant e l tag)
  | .variantGet rty _ _ _ _ _ => some rty
  | .refNull rty _ => some rty
  | .refCast rty _ _ => some rty
  | .call _ rty _ => some rty
  | .ret _ => none

/-- Types of the values of a function. -/
def values (f : Fn AOp) : List Ty := f.params ++ f.body.filterMap resultTy

/-- With `strict = false` a declared type may also be reached through the two erased
reference types, as the compiler itself does. -/
def Erased (strict : Bool) (r : Ty) : Prop := strict = false ∧ (r = .anyref ∨ r = .structref)

/-- The conditions on one operation, given the types of the values defined before it. -/
def OpOk (strict : Bool) (D : Decls) (m : List (Fn AOp)) (result : Ty) (env : List Ty) : AOp → Prop
  | .const _ => True
  | .add a b => (env[a]? = some .i32 ∨ env[a]? = some .i1) ∧ (env[b]? = some .i32 ∨ env[b]? = some .i1)
  | .structNew rty t args =>
    Declared t ∧ (RefersTo D rty t ∨ Erased strict rty) ∧ args.length = D.arity t ∧ ∀ a ∈ args, a < env.length
  | .structGet rty t r f =>
    Declared t ∧ (∃ ty, env[r]? = some ty ∧ (RefersTo D ty t ∨ Erased strict ty)) ∧ f < D.arity t ∧
      (strict = true → readable rty = true)
  | .structSet t r v f =>
    Declared t ∧ (∃ ty, env[r]? = some ty ∧ RefersTo D ty t) ∧ f < D.arity t ∧ v < env.length
  | .variantNew e l tag args =>
    args.length = D.arity (.variant e l tag) ∧ ∀ a ∈ args, a < env.length
  | .variantIs _ _ _ r => ∃ ty, env[r]? = some ty ∧ isRef ty = true
  | .variantCast _ _ _ r => ∃ ty, env[r]? = some ty ∧ isRef ty = true
  | .variantGet rty e l tag r f =>
    env[r]? = some (.variant e l tag) ∧ f < D.arity (.variant e l tag) ∧
      (strict = true → readable rty = true)
  | .refNull rty t => (Declared t ∧ RefersTo D rty t) ∨ (rty = t ∧ (t = .anyref ∨ t = .structref))
  | .refCast rty t r =>
    ((Declared t ∧ RefersTo D rty t) ∨ (rty = t ∧ (t = .anyref ∨ t = .structref))) ∧
      ∃ ty, env[r]? = some ty ∧ isRef ty = true
  | .call c rty args =>
    ∃ g, m[c]? = some g ∧ rty = g.result ∧
      List.Forall₂ (fun a p => ∃ ty, env[a]? = some ty ∧ Assignable ty p) args g.params
  | .ret vs =>
    (result = .nil ∧ ∀ v ∈ vs, v < env.length) ∨
      (result ≠ .nil ∧ ∃ v ty, vs = [v] ∧ env[v]? = some ty ∧ Assignable ty result)

/-- The conditions on the rest of a body: operations in order, ending with a `return`,
which is nowhere else. -/
def BodyOk (strict : Bool) (D : Decls) (m : List (Fn AOp)) (result : Ty) : List Ty → List AOp → Prop
  | _, [] => False
  | env, op :: ops =>
    OpOk strict D m result env op ∧
    match op, ops with
    | .ret _, [] => True
    | .ret _, _ :: _ => False
    | op, ops => BodyOk strict D m result (env ++ (resultTy op).toList) ops

/-- Operations that make a value of a declared type, or turn a reference into one. -/
def Makes : AOp → Ty → Prop
  | .structNew rty _ _, ty => rty = ty
  | .variantNew e l tag _, ty => ty = .variant e l tag
  | .variantCast e l tag _, ty => ty = .variant e l tag
  | .refCast rty t _, ty => rty = ty ∧ Declared t
  | .refNull rty t, ty => rty = ty ∧ Declared t
  | _, _ => False

/-- Types that only a making operation can give a representation. -/
def nominal : Ty → Bool
  | .typeref _ | .variant _ _ _ => true
  | _ => false

/-- The conditions on a module: every body is typed; and every value typed by the name of
a record or by a constructor has a type some operation of the module makes. -/
def ModuleOk (strict : Bool) (D : Decls) (m : List (Fn AOp)) : Prop :=
  (∀ f ∈ m, BodyOk strict D m f.result f.params f.body) ∧
  ∀ f ∈ m, ∀ ty ∈ f.result :: values f, nominal ty = true → ∃ g ∈ m, ∃ op ∈ g.body, Makes op ty

end Verif.WasmGc.Spec
