/-!
# Declared types on the WebAssembly target: WasmGC type indices and emission

Model of the part of the WebAssembly backend that turns operations on declared
types (`adt.struct_*`, `adt.variant_*`) into WasmGC instructions:

* `crates/trunk-ir-wasm-backend/src/passes/adt_to_wasm.rs`,
* `crates/trunk-ir-wasm-backend/src/passes/wasm_gc_to_wasm.rs`,
* `crates/trunk-ir-wasm-backend/src/emit/gc_types_collection.rs`,
* `crates/trunk-ir-wasm-backend/src/emit/helpers.rs` (`type_to_valtype`),
* `crates/trunk-ir-wasm-backend/src/emit/handlers/{struct,ref,call}_handlers.rs`,
* `crates/trunk-ir-wasm-backend/src/emit.rs` (type section, locals, function bodies),
* `crates/trunk-ir-wasm-backend/src/gc_types.rs`.

Simplifications common to the whole file.  Function bodies are straight-line
(branches are modelled in `Verif.WasmCf`); an operation has at most one result, and
values are numbered parameters first, then results in program order, which is the
numbering of the locals.  A type is known by the attributes the code looks at: the
layout of a declared type is a number (`0` when the type carries no fields).
-/

namespace Verif.WasmGc

/-- IR types as seen by the backend.  `struct`, `enum`, `typeref` are the `adt` types
with their `name` attribute; `variant` is the type made by `make_variant_type`
(`adt_to_wasm.rs` 248-290), whose identity is its base enum and its tag; `evidence l` is
`core.array` of an `adt` type named `_Marker`; `array` is any other `core.array`;
`bytesArray` is `core.ref(core.array(core.i8))`; `other` is any type outside the list. -/
inductive Ty where
  | i32 | i1 | i64 | f32 | f64 | ptr | nil | bytes
  | bytesArray (nullable : Bool)
  | anyref | eqref | i31ref | structref | arrayref | funcref | externref
  | array (n : Nat) | evidence (layout : Nat) | func (n : Nat)
  | struct (name : String) (layout : Nat)
  | enum (name : String) (layout : Nat)
  | typeref (name : String)
  | variant (name : String) (layout : Nat) (tag : String)
  | other (n : Nat)
deriving DecidableEq, Repr

/-- `gc_types.rs` 9-60: indices of the predefined types, and the first index given to a
type of the program. -/
def firstUser : Nat := 9

/-- `wasm_gc_to_wasm.rs` 18-48 `named_adt` with `builtin_type_idx` 51-73, by name. -/
def builtinName (n : String) : Option Nat :=
  if n = "_BoxedF64" then some 0
  else if n = "_Step" then some 3
  else if n = "_closure" then some 4
  else if n = "_Marker" then some 5
  else if n = "_Continuation" then some 7
  else if n = "_ResumeWrapper" then some 8
  else none

/-- `wasm_gc_to_wasm.rs` 51-73 `builtin_type_idx`.  Variant types carry no `name`
attribute, so they are never predefined. -/
def builtinIdx : Ty → Option Nat
  | .bytes => some 2
  | .bytesArray _ => some 1
  | .evidence _ => some 6
  | .struct n _ => builtinName n
  | .enum n _ => builtinName n
  | .typeref n => builtinName n
  | _ => none

/-- `wasm_gc_to_wasm.rs` 75-91 `is_abstract_heap_type`. -/
def isAbstract : Ty → Bool
  | .anyref | .eqref | .i31ref | .structref | .arrayref | .funcref | .externref => true
  | _ => false

/-! ## Operations -/

/-- Operations on declared types before `adt_to_wasm` (`adt.*`), with integer constants,
integer addition, direct calls and return (`wasm.*`).  Operands are value numbers.
`rty` is the type of the result as recorded in the IR. -/
inductive AOp where
  | const (z : Int)
  | add (a b : Nat)
  | structNew (rty t : Ty) (args : List Nat)
  | structGet (rty t : Ty) (r field : Nat)
  | structSet (t : Ty) (r v field : Nat)
  | variantNew (enum : String) (layout : Nat) (tag : String) (args : List Nat)
  | variantIs (enum : String) (layout : Nat) (tag : String) (r : Nat)
  | variantCast (enum : String) (layout : Nat) (tag : String) (r : Nat)
  | variantGet (rty : Ty) (enum : String) (layout : Nat) (tag : String) (r field : Nat)
  | refNull (rty target : Ty)
  | refCast (rty target : Ty) (r : Nat)
  | call (callee : Nat) (rty : Ty) (args : List Nat)
  | ret (vs : List Nat)
deriving DecidableEq, Repr

/-- Operations after `adt_to_wasm` (`wasm_gc.*`): types are still IR types. -/
inductive GOp where
  | const (z : Int)
  | add (a b : Nat)
  | structNew (rty t : Ty) (args : List Nat)
  | structGet (rty t : Ty) (r field : Nat)
  | structSet (t : Ty) (r v field : Nat)
  | refNull (rty target : Ty)
  | refCast (rty target : Ty) (r : Nat)
  | refTest (target : Ty) (r : Nat)
  | call (callee : Nat) (rty : Ty) (args : List Nat)
  | ret (vs : List Nat)
deriving DecidableEq, Repr

/-- Operations after `wasm_gc_to_wasm` (`wasm.*`): types are indices; a reference
operation whose target has no index keeps the target. -/
inductive IOp where
  | const (z : Int)
  | add (a b : Nat)
  | structNew (rty : Ty) (idx : Nat) (args : List Nat)
  | structGet (rty : Ty) (idx : Nat) (r field : Nat)
  | structSet (idx : Nat) (r v field : Nat)
  | refNull (rty target : Ty) (idx : Option Nat)
  | refCast (rty target : Ty) (idx : Option Nat) (r : Nat)
  | refTest (target : Ty) (idx : Option Nat) (r : Nat)
  | call (callee : Nat) (rty : Ty) (args : List Nat)
  | ret (vs : List Nat)
deriving DecidableEq, Repr

/-- A function: parameter types, result type (`nil` for none) and body. -/
structure Fn (Op : Type) where
  params : List Ty
  result : Ty
  body : List Op
deriving DecidableEq, Repr

/-- `adt_to_wasm.rs` 88-100 `physical_variant_field_type` (the `tribute_rt.anyref` of the
source is the model's `anyref`). -/
def physicalFieldTy : Ty → Ty
  | .typeref _ => .structref
  | t => t

/-- `adt_to_wasm.rs` 126-560: one operation.  `variant_new` 200-230, `variant_is`
292-330, `variant_cast` 332-375, `variant_get` 377-470.  Simplified: the checks of
`variant_get` that leave a mistyped operation unrewritten (a compile error later) are the
typing conditions of the specification. -/
def adtToGc : AOp → GOp
  | .const z => .const z
  | .add a b => .add a b
  | .structNew rty t args => .structNew rty t args
  | .structGet rty t r f => .structGet rty t r f
  | .structSet t r v f => .structSet t r v f
  | .variantNew e l tag args => .structNew (.variant e l tag) (.variant e l tag) args
  | .variantIs e l tag r => .refTest (.variant e l tag) r
  | .variantCast e l tag r => .refCast (.variant e l tag) (.variant e l tag) r
  | .variantGet rty e l tag r f => .structGet (physicalFieldTy rty) (.variant e l tag) r f
  | .refNull rty t => .refNull rty t
  | .refCast rty t r => .refCast rty t r
  | .call c rty args => .call c rty args
  | .ret vs => .ret vs

/-- `adt_to_wasm.rs` 105-125 `lower`. -/
def adtLower (m : List (Fn AOp)) : List (Fn GOp) :=
  m.map fun f => { params := f.params, result := f.result, body := f.body.map adtToGc }

/-! ## Index assignment (`wasm_gc_to_wasm.rs`) -/

/-- The type an operation mentions, `wasm_gc_to_wasm.rs` 93-126. -/
def mention : GOp → Option Ty
  | .structNew _ t _ => some t
  | .structGet _ t _ _ => some t
  | .structSet t _ _ _ => some t
  | .refNull _ t => some t
  | .refCast _ t _ => some t
  | .refTest t _ => some t
  | _ => none

/-- The `push` closure of `collect_typed_ops`, `wasm_gc_to_wasm.rs` 96-100. -/
def pushTy (types : List Ty) (t : Ty) : List Ty :=
  if !types.contains t && !isAbstract t then types ++ [t] else types

/-- `wasm_gc_to_wasm.rs` 92-133 `collect_typed_ops`. -/
def collectTyped (m : List (Fn GOp)) : List Ty :=
  (m.flatMap fun f => f.body.filterMap mention).foldl pushTy []

/-- The loop of `lower`, `wasm_gc_to_wasm.rs` 335-345. -/
def assign (next : Nat) : List Ty → List (Ty × Nat)
  | [] => []
  | t :: ts =>
    match builtinIdx t with
    | some i => (t, i) :: assign next ts
    | none => (t, next) :: assign (next + 1) ts

/-- The `indices` map of `lower`, `wasm_gc_to_wasm.rs` 328-345. -/
def indices (m : List (Fn GOp)) : List (Ty × Nat) := assign firstUser (collectTyped m)

/-- `LowerTypedGcPattern`, `wasm_gc_to_wasm.rs` 135-326.  A struct operation whose type
has no index stays a `wasm_gc` operation, which the conversion then reports (`none`). -/
def indexOp (ix : List (Ty × Nat)) : GOp → Option IOp
  | .const z => some (.const z)
  | .add a b => some (.add a b)
  | .structNew rty t args => (ix.lookup t).map fun i => .structNew rty i args
  | .structGet rty t r f => (ix.lookup t).map fun i => .structGet rty i r f
  | .structSet t r v f => (ix.lookup t).map fun i => .structSet i r v f
  | .refNull rty t => some (.refNull rty t (ix.lookup t))
  | .refCast rty t r => some (.refCast rty t (ix.lookup t) r)
  | .refTest t r => some (.refTest t (ix.lookup t) r)
  | .call c rty args => some (.call c rty args)
  | .ret vs => some (.ret vs)

/-- `indexOp` on a function. -/
def indexFn (ix : List (Ty × Nat)) (f : Fn GOp) : Option (Fn IOp) :=
  (f.body.mapM (indexOp ix)).map fun b => { params := f.params, result := f.result, body := b }

/-- `wasm_gc_to_wasm.rs` 327-350 `lower`. -/
def gcLower (m : List (Fn GOp)) : Option (List (Fn IOp)) := m.mapM (indexFn (indices m))

/-! ## Types of values -/

/-- The type of an operation's result, if it has one (`ref_test` yields an `i32`). -/
def IOp.resultTy : IOp → Option Ty
  | .const _ => some .i32
  | .add _ _ => some .i32
  | .structNew rty _ _ => some rty
  | .structGet rty _ _ _ => some rty
  | .structSet _ _ _ _ => none
  | .refNull rty _ _ => some rty
  | .refCast rty _ _ _ => some rty
  | .refTest _ _ _ => some .i32
  | .call _ rty _ => some rty
  | .ret _ => none

/-- The types of all values of a function: parameters, then results in order. -/
def valTys (f : Fn IOp) : List Ty := f.params ++ f.body.filterMap IOp.resultTy

/-- `helpers::value_type` (`emit/helpers.rs` 80-100); a number outside the function has
no value, which the model shows as an `other` type. -/
def tyAt (tys : List Ty) (v : Nat) : Ty := (tys[v]?).getD (.other 0)

/-! ## Collection of the WasmGC types (`gc_types_collection.rs`) -/

/-- `gc_types_collection.rs` 39-55 `GcTypeBuilder`, for struct types.  The vector of
fields is its length with a function giving the recorded types. -/
structure Builder where
  fieldCount : Option Nat := none
  len : Nat := 0
  fields : Nat → Option Ty := fun _ => none

/-- State of `collect_gc_types` (273-274): the vector of builders (length and contents)
and the map from types to indices. -/
structure Coll where
  count : Nat := 0
  builders : Nat → Builder := fun _ => {}
  map : List (Ty × Nat) := []

/-- `gc_types_collection.rs` 83-85 `register_type`: the first index stays. -/
def register (map : List (Ty × Nat)) (idx : Nat) (t : Ty) : List (Ty × Nat) :=
  match map.lookup t with
  | some _ => map
  | none => map ++ [(t, idx)]

/-- `gc_types_collection.rs` 90-112 `normalize_type_for_gc`. -/
def norm : Ty → Ty
  | .struct n l => if n = "_closure" then .struct "_closure" 0 else .struct n l
  | .typeref _ => .structref
  | .variant _ _ _ => .structref
  | t => t

/-- Types that `types_equivalent_for_gc` accepts beside `anyref`, 137-148. -/
def anyCompat : Ty → Bool
  | .struct _ _ | .enum _ _ | .typeref _ | .variant _ _ _ => true
  | .structref | .arrayref | .eqref | .i31ref => true
  | _ => false

/-- `gc_types_collection.rs` 115-151 `types_equivalent_for_gc`. -/
def equivGc (a b : Ty) : Bool :=
  if a = b then true
  else if norm a = norm b then true
  else if norm a = .anyref then anyCompat (norm b)
  else if norm b = .anyref then anyCompat (norm a)
  else false

/-- The bound check on a field, `gc_types_collection.rs` 164-169 (also 420-425, 451-456). -/
def outOfBounds (b : Builder) (field : Nat) : Bool :=
  match b.fieldCount with
  | some c => decide (c ≤ field)
  | none => false

/-- The check on the number of operands of `struct_new`, `gc_types_collection.rs` 383-389. -/
def countDiffers (b : Builder) (n : Nat) : Bool :=
  match b.fieldCount with
  | some c => decide (c ≠ n)
  | none => false

/-- `gc_types_collection.rs` 154-207 `record_struct_field` (`none`: compile error). -/
def recordField (b : Builder) (field : Nat) (t : Ty) : Option Builder :=
  let t := norm t
  if outOfBounds b field then none
  else
    let b := { b with len := max b.len (field + 1) }
    match b.fields field with
    | some old =>
      if equivGc old t then
        if t = .anyref ∨ (old ≠ .anyref ∧ t = .structref ∧ old ≠ .structref) then
          some { b with fields := fun i => if i = field then some t else b.fields i }
        else some b
      else none
    | none => some { b with fields := fun i => if i = field then some t else b.fields i }

/-- The loop over the operands of `struct_new`, 399-410. -/
def recordFields (b : Builder) (field : Nat) : List Ty → Option Builder
  | [] => some b
  | t :: ts =>
    match recordField b field t with
    | some b' => recordFields b' (field + 1) ts
    | none => none

/-- `try_get_builder` 68-80 with the write back of the builder it returns. -/
def setBuilder (c : Coll) (idx : Nat) (b : Builder) : Coll :=
  { c with count := max c.count (idx - firstUser + 1)
           builders := fun i => if i = idx - firstUser then b else c.builders i }

/-- The builder of an index. -/
def getBuilder (c : Coll) (idx : Nat) : Builder := c.builders (idx - firstUser)

/-- One operation of `collect_gc_types`, 365-557. -/
def visit (tys : List Ty) (c : Coll) : IOp → Option Coll
  | .structNew rty idx args =>
    if idx < firstUser then some c
    else
      let b := getBuilder c idx
      if countDiffers b args.length then none
      else
        let b := { b with fieldCount := some args.length, len := max b.len args.length }
        match recordFields b 0 (args.map (tyAt tys)) with
        | some b => some { setBuilder c idx b with map := register c.map idx rty }
        | none => none
  | .structGet rty idx r field =>
    if idx < firstUser then some c
    else
      match recordField (getBuilder c idx) field rty with
      | some b => some { setBuilder c idx b with map := register c.map idx (tyAt tys r) }
      | none => none
  | .structSet idx r v field =>
    if idx < firstUser then some c
    else
      match recordField (getBuilder c idx) field (tyAt tys v) with
      | some b => some { setBuilder c idx b with map := register c.map idx (tyAt tys r) }
      | none => none
  | .refNull rty _ (some idx) => some (visitRef c rty idx)
  | .refCast rty _ (some idx) _ => some (visitRef c rty idx)
  | .refTest _ (some idx) _ => some (visitRef c .i32 idx)
  | _ => some c
where
  /-- 545-556: reference operations register their result type whatever the index. -/
  visitRef (c : Coll) (rty : Ty) (idx : Nat) : Coll :=
    let c := { c with map := register c.map idx rty }
    if idx < firstUser then c else setBuilder c idx (getBuilder c idx)

/-- All operations of a function. -/
def visitOps (tys : List Ty) : Coll → List IOp → Option Coll
  | c, [] => some c
  | c, op :: ops =>
    match visit tys c op with
    | some c' => visitOps tys c' ops
    | none => none

/-- All functions of the module. -/
def visitFns : Coll → List (Fn IOp) → Option Coll
  | c, [] => some c
  | c, f :: fs =>
    match visitOps (valTys f) c f.body with
    | some c' => visitFns c' fs
    | none => none

/-- The types registered before the traversal, 283-310. -/
def seeds : List (Ty × Nat) :=
  [(.struct "_Step" 0, 3), (.arrayref, 6), (.struct "_Marker" 0, 5), (.evidence 0, 6),
   (.struct "_Continuation" 0, 7), (.struct "_ResumeWrapper" 0, 8)]

/-! ## WebAssembly value types (`type_to_valtype`) -/

/-- Heap types. -/
inductive Heap where
  | any | eq | i31 | struct | array | func | none
  | concrete (n : Nat)
deriving DecidableEq, Repr

/-- Value types. -/
inductive VT where
  | i32 | i64 | f32 | f64
  | ref (nullable : Bool) (h : Heap)
deriving DecidableEq, Repr

/-- `emit/helpers.rs` 157-256 `type_to_valtype` (`none`: compile error). -/
def valtype (map : List (Ty × Nat)) (t : Ty) : Option VT :=
  match t with
  | .i32 => some .i32
  | .i1 => some .i32
  | .i64 => some .i64
  | .f32 => some .f32
  | .f64 => some .f64
  | .bytes => some (.ref false (.concrete 2))
  | .bytesArray n => some (.ref n (.concrete 1))
  | .ptr => some .i32
  | t =>
    match map.lookup t with
    | some i => some (.ref true (.concrete i))
    | none =>
      match t with
      | .structref => some (.ref true .struct)
      | .funcref => some (.ref true .func)
      | .anyref => some (.ref true .any)
      | .i31ref => some (.ref true .i31)
      | .arrayref => some (.ref true .array)
      | .array _ => some (.ref true .array)
      | .evidence _ => some (.ref true .array)
      | .func _ => some (.ref true .func)
      | .struct n _ => if n = "_closure" then some (.ref true (.concrete 4)) else some (.ref true .any)
      | .enum _ _ => some (.ref true .any)
      | .typeref _ => some (.ref true .any)
      | .variant _ _ _ => some (.ref true .any)
      | .nil => some (.ref true .none)
      | _ => none

/-- `gc_types.rs` `GcTypeDef`: field types with their mutability; the element of the
bytes array is packed (`i8`), which the model shows as a separate constructor. -/
inductive GcDef where
  | struct (fields : List (VT × Bool))
  | array (elem : VT × Bool)
  | bytesArray
deriving DecidableEq, Repr

/-- `gc_types.rs` 116-222 `builtin_types`. -/
def builtinDefs : List GcDef :=
  [ .struct [(.f64, false)],
    .bytesArray,
    .struct [(.ref false (.concrete 1), false), (.i32, false), (.i32, false)],
    .struct [(.i32, false), (.ref true .any, false), (.i32, false), (.i32, false)],
    .struct [(.i32, false), (.ref true .any, false)],
    .struct [(.i32, false), (.i32, false), (.ref true .any, false), (.ref true .any, false)],
    .array (.ref true (.concrete 5), true),
    .struct [(.i32, false), (.ref true .any, false), (.i32, false), (.ref true .any, false)],
    .struct [(.ref true .any, false), (.ref true .any, false)] ]

/-- A field of a user type, `gc_types_collection.rs` 574-584 with `type_to_field_type`
228-238. -/
def fieldDef (map : List (Ty × Nat)) : Option Ty → Option (VT × Bool)
  | some t => (valtype map t).map fun v => (v, true)
  | none => some (.i32, false)

/-- A user type, `gc_types_collection.rs` 561-588. -/
def userDef (map : List (Ty × Nat)) (b : Builder) : Option GcDef :=
  ((List.range b.len).mapM fun i => fieldDef map (b.fields i)).map .struct

/-- The type section, `gc_types_collection.rs` 559-594. -/
def gcDefs (c : Coll) : Option (List GcDef) :=
  ((List.range c.count).mapM fun i => userDef c.map (c.builders i)).map (builtinDefs ++ ·)

/-! ## Emission (`emit.rs`, `emit/handlers`) -/

/-- The instructions used. -/
inductive Instr where
  | localGet (n : Nat) | localSet (n : Nat)
  | i32Const (z : Int) | i32Add | i32WrapI64 | refI31
  | structNew (t : Nat) | structGet (t f : Nat) | structSet (t f : Nat)
  | refNull (h : Heap) | refCast (nullable : Bool) (h : Heap) | refTest (nullable : Bool) (h : Heap)
  | call (f : Nat) | ret
deriving DecidableEq, Repr

/-- `ModuleInfo`: type definitions and the map from types to indices. -/
structure Info where
  defs : List GcDef
  map : List (Ty × Nat)

/-- `emit/helpers.rs` 292-370 `attr_heap_type` for a type attribute. -/
def abstractHeap : Ty → Option Heap
  | .anyref => some .any
  | .eqref => some .eq
  | .i31ref => some .i31
  | .structref => some .struct
  | .arrayref => some .array
  | .funcref => some .func
  | _ => none

/-- Index or named heap type of a reference operation, `ref_handlers.rs` 31-35. -/
def targetHeap (t : Ty) : Option Nat → Option Heap
  | some i => some (.concrete i)
  | none => abstractHeap t

/-- `emit.rs` 1116-1133 `set_result_local`. -/
def setResult (rty : Ty) (dst : Nat) : List Instr :=
  if rty = .nil then [] else [.localSet dst]

/-- Declared type of a field. -/
def fieldVT (defs : List GcDef) (idx field : Nat) : Option VT :=
  match defs[idx]? with
  | some (.struct fs) => (fs[field]?).map (·.1)
  | _ => none

/-- `struct_handlers.rs` 92-143: what follows `struct.get`. -/
def afterGet (info : Info) (rty : Ty) (idx field : Nat) : List Instr :=
  if rty = .anyref ∧ fieldVT info.defs idx field = some .i64 then [.i32WrapI64, .refI31]
  else if fieldVT info.defs idx field = some (.ref true .any) ∧ ¬ (idx = 3 ∧ field = 1) then
    match valtype info.map rty with
    | some (.ref _ (.concrete i)) => [.refCast true (.concrete i)]
    | _ => []
  else []

/-- Whether the result of a cast is a non-null reference, `ref_handlers.rs` 76-83. -/
def castNullable (info : Info) (rty : Ty) : Bool :=
  match valtype info.map rty with
  | some (.ref false _) => false
  | _ => true

/-- Emission of one operation whose result, if any, is local `dst`:
`struct_handlers.rs` 20-222, `ref_handlers.rs` 22-115, `call_handlers.rs` 22-43,
`emit.rs` 850-1110.  Every operand has a local, so `emit_operands`
(`value_emission.rs` 22-60) reads locals. -/
def emitOp (info : Info) (tys : List Ty) (dst : Nat) : IOp → Option (List Instr)
  | .const z => some [.i32Const z, .localSet dst]
  | .add a b => some [.localGet a, .localGet b, .i32Add, .localSet dst]
  | .structNew rty idx args =>
    some (args.map Instr.localGet ++ [.structNew idx] ++ setResult rty dst)
  | .structGet rty idx r field =>
    some ([.localGet r]
      ++ (if tyAt tys r = .anyref ∨ tyAt tys r = .structref then [.refCast true (.concrete idx)] else [])
      ++ [.structGet idx field] ++ afterGet info rty idx field ++ setResult rty dst)
  | .structSet idx r v field => some [.localGet r, .localGet v, .structSet idx field]
  | .refNull rty t idx => (targetHeap t idx).map fun h => [.refNull h] ++ setResult rty dst
  | .refCast rty t idx r =>
    (targetHeap t idx).map fun h =>
      [.localGet r, .refCast (castNullable info rty) h] ++ setResult rty dst
  | .refTest t idx r =>
    (targetHeap t idx).map fun h => [.localGet r, .refTest true h, .localSet dst]
  | .call callee rty args => some (args.map Instr.localGet ++ [.call callee] ++ setResult rty dst)
  | .ret vs => some (vs.map Instr.localGet ++ [.ret])

/-- The next free local after an operation. -/
def nextLocal (dst : Nat) (op : IOp) : Nat :=
  match op.resultTy with
  | some _ => dst + 1
  | none => dst

/-- The body of a function. -/
def emitOps (info : Info) (tys : List Ty) : Nat → List IOp → Option (List Instr)
  | _, [] => some []
  | dst, op :: ops =>
    match emitOp info tys dst op, emitOps info tys (nextLocal dst op) ops with
    | some a, some b => some (a ++ b)
    | _, _ => none

/-- An emitted function: parameter types, result types, all locals (parameters first)
and body. -/
structure WFn where
  params : List VT
  results : List VT
  locals : List VT
  body : List Instr
deriving DecidableEq, Repr

/-- The emitted module. -/
structure WModule where
  defs : List GcDef
  fns : List WFn
deriving DecidableEq, Repr

/-- Result types of a function (`emit.rs` 315-360): none for `nil`. -/
def resultVTs (map : List (Ty × Nat)) (t : Ty) : Option (List VT) :=
  if t = .nil then some [] else (valtype map t).map fun v => [v]

/-- `emit.rs` 711-775 `emit_function` with `assign_locals_in_region` 777-848. -/
def emitFn (info : Info) (f : Fn IOp) : Option WFn :=
  match f.params.mapM (valtype info.map), resultVTs info.map f.result,
        (valTys f).mapM (valtype info.map), emitOps info (valTys f) f.params.length f.body with
  | some ps, some rs, some ls, some b => some { params := ps, results := rs, locals := ls, body := b }
  | _, _, _, _ => none

/-- `emit.rs` 255-560 `emit_wasm` after `collect_gc_types`. -/
def emitModule (m : List (Fn IOp)) : Option WModule :=
  match visitFns { map := seeds } m with
  | none => none
  | some c =>
    match gcDefs c with
    | none => none
    | some defs => (m.mapM (emitFn { defs := defs, map := c.map })).map fun fs => { defs := defs, fns := fs }

/-- The modelled part of the backend: from operations on declared types to the emitted
module (`none`: compile error). -/
def compile (m : List (Fn AOp)) : Option WModule :=
  match gcLower (adtLower m) with
  | none => none
  | some m' => emitModule m'

end Verif.WasmGc
