/-!
# Function references and calls on the WebAssembly target

Model of the part of the WebAssembly backend that turns function references and calls
into a function table, a type section and call instructions:

* `crates/trunk-ir-wasm-backend/src/passes/func_to_wasm.rs`,
* `crates/trunk-ir-wasm-backend/src/validation.rs` (`validate_return_call_indirect`),
* `crates/trunk-ir-wasm-backend/src/emit/call_indirect_collection.rs`,
* `crates/trunk-ir-wasm-backend/src/emit/handlers/call_handlers.rs`,
* `crates/trunk-ir-wasm-backend/src/emit/helpers.rs` (`type_to_valtype`, `result_types`,
  `exact_return_call_indirect_signature`),
* `crates/trunk-ir-wasm-backend/src/emit/definitions.rs` (`extract_element_def`),
* `crates/trunk-ir-wasm-backend/src/emit.rs` (module info, type, table and element
  sections, function bodies).

Simplifications common to the whole file.  A region has one block; code is written with
its continuation, and `ifte` is `wasm.if` without results.  A value's number is the
number of its local, parameters first (the numbering is the subject of `Verif.WasmGc`).
No value has a `core.func` type: function values are closures by this point.  Values
computed are 32-bit integers and function references.
-/

namespace Verif.WasmCall

/-- IR types as seen by the backend; `adt` types carry their `name` and a layout, which
tells types of one name apart; `other` has no WebAssembly type. -/
inductive Ty where
  | i32 | i64 | f64 | anyref | funcref | nil
  | adt (name : String) (layout : Nat)
  | other (n : Nat)
deriving DecidableEq, Repr

/-- A `core.func` type: `helpers.rs` 96-106 `func_type_parts`. -/
structure Sig where
  params : List Ty
  result : Ty
deriving DecidableEq, Repr

/-- Function bodies before `func_to_wasm`: `func.constant`, 32-bit constants and addition,
`func.call`, `func.call_indirect`, a branch, the end of a branch's region, `func.return`,
`func.tail_call`, `func.tail_call_indirect` (with the signature of its attribute
`func.indirect_call_signature`, if present) and `func.unreachable`. -/
inductive Code where
  | const (d : Nat) (f : String) (k : Code)
  | num (d : Nat) (z : BitVec 32) (k : Code)
  | add (d a b : Nat) (k : Code)
  | call (d : Nat) (rty : Ty) (f : String) (args : List Nat) (k : Code)
  | callInd (d : Nat) (rty : Ty) (callee : Nat) (args : List Nat) (k : Code)
  | ifte (c : Nat) (t e k : Code)
  | fall
  | ret (v : Option Nat)
  | tail (f : String) (args : List Nat)
  | tailInd (callee : Nat) (args : List Nat) (sig : Option Sig)
  | unreach

/-- Function bodies after `func_to_wasm` (`wasm.*`).  Indirect calls carry the attributes
`type_idx` and `table`. -/
inductive WCode where
  | num (d : Nat) (z : BitVec 32) (k : WCode)
  | add (d a b : Nat) (k : WCode)
  | call (d : Nat) (rty : Ty) (f : String) (args : List Nat) (k : WCode)
  | callInd (d : Nat) (rty : Ty) (typeIdx : Option Nat) (table : Nat)
      (callee : Nat) (args : List Nat) (k : WCode)
  | ifte (c : Nat) (t e k : WCode)
  | fall
  | ret (v : Option Nat)
  | tail (f : String) (args : List Nat)
  | tailInd (callee : Nat) (args : List Nat) (sig : Sig) (typeIdx : Option Nat) (table : Nat)
  | unreach

/-- A function: its symbol, its type, the types of its values and its body. -/
structure Fn (C : Type) where
  name : String
  sig : Sig
  ty : Nat → Ty
  body : C

/-- A module: imported functions, functions, and what `collect_gc_types` found (the number
of declared types of the program and the indices of types). -/
structure Mod where
  imports : List (String × Sig)
  fns : List (Fn Code)
  gcUser : Nat
  gcMap : List (Ty × Nat)

/-! ## `func_to_wasm` -/

/-- `func_to_wasm.rs` 100-117 `collect_refs_in_region`. -/
def refsIn : Code → List String
  | .const _ f k => f :: refsIn k
  | .num _ _ k | .add _ _ _ k | .call _ _ _ _ k | .callInd _ _ _ _ k => refsIn k
  | .ifte _ t e k => refsIn t ++ refsIn e ++ refsIn k
  | .fall | .ret _ | .tail _ _ | .tailInd _ _ _ | .unreach => []

/-- `func_to_wasm.rs` 93-96: keep the first of equal symbols. -/
def dedup : List String → List String → List String
  | _, [] => []
  | seen, x :: xs => if x ∈ seen then dedup seen xs else x :: dedup (x :: seen) xs

/-- `func_to_wasm.rs` 86-98 `collect_func_constant_refs`. -/
def constRefs (m : Mod) : List String := dedup [] (m.fns.flatMap fun f => refsIn f.body)

/-- Insertion into a sorted list of symbols. -/
def insertSorted (x : String) : List String → List String
  | [] => [x]
  | y :: ys => if x ≤ y then x :: y :: ys else y :: insertSorted x ys

/-- `func_to_wasm.rs` 61-62: the symbols sorted by their text.  (Which sort is used does
not show: the symbols are distinct.) -/
def sortSyms : List String → List String
  | [] => []
  | x :: xs => insertSorted x (sortSyms xs)

/-- The functions of the table, in order: `func_to_wasm.rs` 61-62. -/
def tableSyms (m : Mod) : List String := sortSyms (constRefs m)

/-- `func_to_wasm.rs` 64-68: position of a symbol in the table. -/
def tableIdx : List String → String → Option Nat
  | [], _ => none
  | x :: xs, f => if x = f then some 0 else (tableIdx xs f).map (· + 1)

/-- `helpers.rs` 111-153 `exact_return_call_indirect_signature`. -/
def exactSig (ty : Nat → Ty) (callee : Nat) (args : List Nat) : Option Sig → Option Sig
  | none => none
  | some s =>
    if s.result = .nil then
      if ty callee = .i32 then
        if s.params = args.map ty then some s else none
      else none
    else none

/-- `func_to_wasm.rs` 229-420, the patterns.  `func.constant` (397-418) becomes the
position in the table, `func.call_indirect` (250-275) and `func.tail_call_indirect`
(331-365) get the attributes `type_idx = 0`, `table = 0`.  `none`: the `expect` of 407-411
fails, or the operation stays in the `func` dialect and `validate_wasm_ir` rejects it. -/
def lower (tbl : List String) (ty : Nat → Ty) : Code → Option WCode
  | .const d f k =>
    match tableIdx tbl f with
    | none => none
    | some i => (lower tbl ty k).map (.num d (BitVec.ofNat 32 i))
  | .num d z k => (lower tbl ty k).map (.num d z)
  | .add d a b k => (lower tbl ty k).map (.add d a b)
  | .call d rty f args k => (lower tbl ty k).map (.call d rty f args)
  | .callInd d rty callee args k =>
    (lower tbl ty k).map (.callInd d rty (some 0) 0 callee args)
  | .ifte c t e k =>
    match lower tbl ty t, lower tbl ty e, lower tbl ty k with
    | some t', some e', some k' => some (.ifte c t' e' k')
    | _, _, _ => none
  | .fall => some .fall
  | .ret v => some (.ret v)
  | .tail f args => some (.tail f args)
  | .tailInd callee args sig =>
    match exactSig ty callee args sig with
    | none => none
    | some s => some (.tailInd callee args s (some 0) 0)
  | .unreach => some .unreach

def lowerFn (tbl : List String) (f : Fn Code) : Option (Fn WCode) :=
  (lower tbl f.ty f.body).map fun b => { name := f.name, sig := f.sig, ty := f.ty, body := b }

/-! ## Module information -/

/-- Values of the function index map: `emit.rs` 678-687.  Later entries replace earlier
ones. -/
def funcIdxFrom : Nat → List String → String → Option Nat
  | _, [], _ => none
  | n, x :: xs, f =>
    match funcIdxFrom (n + 1) xs f with
    | some i => some i
    | none => if x = f then some n else none

/-- Names of the function index space: imports, then functions (`emit.rs` 678-687). -/
def names (m : Mod) : List String := m.imports.map (·.1) ++ m.fns.map (·.name)

def funcIdx (m : Mod) (f : String) : Option Nat := funcIdxFrom 0 (names m) f

/-- Number of WasmGC types in the module: nine predefined ones (`gc_types.rs` 9-60) and
those of the program. -/
def gcCount (m : Mod) : Nat := 9 + m.gcUser

/-- Registered function types with their indices (`type_idx_by_type`), and the types
added by `collect_call_indirect_types`, in order. -/
structure Reg where
  map : List (Sig × Nat)
  added : List Sig

/-- Index of a registered function type. -/
def sigIdx : List (Sig × Nat) → Sig → Option Nat
  | [], _ => none
  | (s, i) :: rest, t => if s = t then some i else sigIdx rest t

/-- `emit.rs` 647-657: `entry(..).or_insert(..)` for the type at position `i`. -/
def regAt (base : Nat) : List (Sig × Nat) → List Sig → List (Sig × Nat)
  | map, [] => map
  | map, s :: rest =>
    regAt (base + 1) (if (sigIdx map s).isSome then map else map ++ [(s, base)]) rest

/-- Declared types of imports and functions: `emit.rs` 643-657. -/
def declSigs (m : Mod) : List Sig := m.imports.map (·.2) ++ m.fns.map (·.sig)

/-- `call_indirect_collection.rs` 136-146 and 259-267: register a type with the next free
index, unless it is registered. -/
def register (first : Nat) (r : Reg) (s : Sig) : Reg :=
  if (sigIdx r.map s).isSome then r
  else { map := r.map ++ [(s, first + r.added.length)], added := r.added ++ [s] }

/-- `helpers.rs` 81-83 `is_step_type`. -/
def isStep : Ty → Bool
  | .adt n _ => n = "_Step"
  | _ => false

/-- Result type of an indirect call, given the result type of the enclosing function:
`call_indirect_collection.rs` 197-254 and `call_handlers.rs` 140-184 (the same text). -/
def callResult (ret rty : Ty) : Ty :=
  if rty = .anyref then
    if ret = .funcref then .funcref
    else if isStep ret then .adt "_Step" 0
    else rty
  else rty

/-- Function type of an indirect call: `call_indirect_collection.rs` 179-257,
`call_handlers.rs` 120-189. -/
def callSig (ty : Nat → Ty) (ret rty : Ty) (args : List Nat) : Sig :=
  { params := args.map ty, result := callResult ret rty }

/-- `call_indirect_collection.rs` 67-281 `collect_from_region`: nested regions first, then
the operation.  The assertion of 172-176 is left to the emitter's check of the same
operand. -/
def collect (first : Nat) (ty : Nat → Ty) (ret : Ty) : WCode → Reg → Reg
  | .num _ _ k, r | .add _ _ _ k, r | .call _ _ _ _ k, r => collect first ty ret k r
  | .callInd _ rty _ _ _ args k, r =>
    collect first ty ret k (register first r (callSig ty ret rty args))
  | .ifte _ t e k, r =>
    collect first ty ret k (collect first ty ret e (collect first ty ret t r))
  | .tailInd _ _ s _ _, r => register first r s
  | .fall, r | .ret _, r | .tail _ _, r | .unreach, r => r

def collectFns (first : Nat) : List (Fn WCode) → Reg → Reg
  | [], r => r
  | f :: fs, r => collectFns first fs (collect first f.ty f.sig.result f.body r)

/-- `emit.rs` 640-669: all registered function types. -/
def registered (m : Mod) (ws : List (Fn WCode)) : Reg :=
  collectFns (gcCount m + (declSigs m).length) ws
    { map := regAt (gcCount m) [] (declSigs m), added := [] }

/-! ## Types of the emitted module -/

/-- WebAssembly value types. -/
inductive VT where
  | i32 | i64 | f64 | anyref | funcref | noneref
  | concrete (i : Nat)
deriving DecidableEq, Repr

/-- Entries of the type section. -/
inductive TypeDef where
  | gc
  | func (params results : List VT)
deriving DecidableEq, Repr

def gcIdx : List (Ty × Nat) → Ty → Option Nat
  | [], _ => none
  | (s, i) :: rest, t => if s = t then some i else gcIdx rest t

/-- `helpers.rs` 157-258 `type_to_valtype`. -/
def valtype (gc : List (Ty × Nat)) : Ty → Option VT
  | .i32 => some .i32
  | .i64 => some .i64
  | .f64 => some .f64
  | .funcref => some .funcref
  | .anyref => some .anyref
  | .nil => some .noneref
  | .adt n l =>
    match gcIdx gc (.adt n l) with
    | some i => some (.concrete i)
    | none => if n = "_closure" then some (.concrete 4) else some .anyref
  | .other _ => none

def valtypes (gc : List (Ty × Nat)) : List Ty → Option (List VT)
  | [] => some []
  | t :: ts =>
    match valtype gc t, valtypes gc ts with
    | some v, some vs => some (v :: vs)
    | _, _ => none

/-- `helpers.rs` 278-290 `result_types`. -/
def resultVTs (gc : List (Ty × Nat)) (t : Ty) : Option (List VT) :=
  if t = .nil then some [] else (valtype gc t).map fun v => [v]

def typeDef (gc : List (Ty × Nat)) (s : Sig) : Option TypeDef :=
  match valtypes gc s.params, resultVTs gc s.result with
  | some ps, some rs => some (.func ps rs)
  | _, _ => none

def typeDefs (gc : List (Ty × Nat)) : List Sig → Option (List TypeDef)
  | [] => some []
  | s :: ss =>
    match typeDef gc s, typeDefs gc ss with
    | some d, some ds => some (d :: ds)
    | _, _ => none

/-- `emit.rs` 1169-1185 `region_contains_call_indirect`. -/
def hasInd : WCode → Bool
  | .num _ _ k | .add _ _ _ k | .call _ _ _ _ k => hasInd k
  | .callInd .. => true
  | .ifte _ t e k => hasInd t || hasInd e || hasInd k
  | .tailInd .. => true
  | .fall | .ret _ | .tail _ _ | .unreach => false

/-- `emit.rs` 1142-1167 `should_adjust_handler_return_to_i32`: decided by the first
branch. -/
def adjusts : WCode → Bool
  | .num _ _ k | .add _ _ _ k | .call _ _ _ _ k | .callInd _ _ _ _ _ _ k => adjusts k
  | .ifte _ _ e _ => !hasInd e
  | .fall | .ret _ | .tail _ _ | .tailInd .. | .unreach => false

/-- `emit.rs` 326-371: the type a function is emitted with. -/
def effectiveSig (f : Fn WCode) : Sig :=
  if f.sig.result = .funcref && adjusts f.body then { f.sig with result := .i32 } else f.sig

/-! ## Instructions -/

inductive Ins where
  | get (v : Nat)
  | set (v : Nat)
  | const (z : BitVec 32)
  | add
  | call (f : Nat)
  | callInd (type table : Nat)
  | ret
  | retCall (f : Nat)
  | retCallInd (type table : Nat)
  | unreach
deriving DecidableEq, Repr

/-- Emitted code: instructions, and `if` … `else` … `end` followed by the rest. -/
inductive ICode where
  | ins (i : Ins) (k : ICode)
  | ifte (t e k : ICode)
  | done

/-- Instructions before some code. -/
def pre : List Ins → ICode → ICode
  | [], k => k
  | i :: is, k => .ins i (pre is k)

/-- `value_emission.rs` `emit_operands`: the locals, in order. -/
def gets (vs : List Nat) : List Ins := vs.map .get

/-- `emit.rs` 1116-1132 `set_result_local`. -/
def setResult (rty : Ty) (d : Nat) : List Ins := if rty = .nil then [] else [.set d]

/-- The type index used by `wasm.call_indirect`: `call_handlers.rs` 186-222.  The function
type is looked up (and an error reported when it is not registered), but the attribute
`type_idx` is used when present. -/
def indTypeIdx (r : Reg) (s : Sig) (attr : Option Nat) : Option Nat :=
  match sigIdx r.map s with
  | none => none
  | some i =>
    match attr with
    | some j => some j
    | none => some i

/-- `emit.rs` 960-1115 with `call_handlers.rs` and `control_flow_handlers.rs` 65-151:
the body of a function.  Calls: `call_handlers.rs` 23-43, 46-245, 248-265, 268-311. -/
def emit (m : Mod) (r : Reg) (ty : Nat → Ty) (ret : Ty) : WCode → Option ICode
  | .num d z k => (emit m r ty ret k).map (pre [.const z, .set d])
  | .add d a b k => (emit m r ty ret k).map (pre [.get a, .get b, .add, .set d])
  | .call d rty f args k =>
    match funcIdx m f with
    | none => none
    | some i => (emit m r ty ret k).map (pre (gets args ++ [.call i] ++ setResult rty d))
  | .callInd d rty attr table callee args k =>
    if ty callee = .i32 then
      match indTypeIdx r (callSig ty ret rty args) attr with
      | none => none
      | some i =>
        (emit m r ty ret k).map
          (pre (gets args ++ [.get callee, .callInd i table] ++ setResult rty d))
    else none
  | .ifte c t e k =>
    match emit m r ty ret t, emit m r ty ret e, emit m r ty ret k with
    | some t', some e', some k' => some (.ins (.get c) (.ifte t' e' k'))
    | _, _, _ => none
  | .fall => some .done
  | .ret none => some (pre [.ret] .done)
  | .ret (some v) => some (pre [.get v, .ret] .done)
  | .tail f args =>
    match funcIdx m f with
    | none => none
    | some i => some (pre (gets args ++ [.retCall i]) .done)
  | .tailInd callee args s _ table =>
    match sigIdx r.map s with
    | none => none
    | some i => some (pre (gets args ++ [.get callee, .retCallInd i table]) .done)
  | .unreach => some (pre [.unreach] .done)

/-- An emitted function: index of its type, and code. -/
structure WFn where
  type : Nat
  code : ICode

/-- The emitted module.  `elem` is the active element segment at offset 0 of table 0, if
there is one; `tableSize` the size of table 0, if there is a table. -/
structure WMod where
  types : List TypeDef
  imports : List (String × Nat)
  fns : List WFn
  tableSize : Option Nat
  elem : List Nat

/-- `emit.rs` 499-513: the indices of the element segment; symbols without a function are
left out. -/
def elemIdxs (m : Mod) : List String → List Nat
  | [] => []
  | f :: fs =>
    match funcIdx m f with
    | some i => i :: elemIdxs m fs
    | none => elemIdxs m fs

/-- `func_to_wasm.rs` 120-170 `add_function_table` (no table without references, 42-58)
and `emit.rs` 690-699 (an empty table when there are indirect calls but no table). -/
def tableOf (m : Mod) (ws : List (Fn WCode)) : Option Nat :=
  if tableSyms m = [] then
    if ws.any fun f => hasInd f.body then some 0 else none
  else some (tableSyms m).length

/-- `emit.rs` 326-377 and 702-760: the functions, each with its own type. -/
def emitFns (m : Mod) (r : Reg) : Nat → List (Fn WCode) → Option (List WFn)
  | _, [] => some []
  | n, f :: fs =>
    match emit m r f.ty f.sig.result f.body, emitFns m r (n + 1) fs with
    | some c, some rest => some ({ type := n, code := c } :: rest)
    | _, _ => none

/-- `emit.rs` 308-324: the imports, each with its own type. -/
def emitImports (n : Nat) : List (String × Sig) → List (String × Nat)
  | [] => []
  | (name, _) :: rest => (name, n) :: emitImports (n + 1) rest

def lowerFns (tbl : List String) : List (Fn Code) → Option (List (Fn WCode))
  | [] => some []
  | f :: fs =>
    match lowerFn tbl f, lowerFns tbl fs with
    | some w, some ws => some (w :: ws)
    | _, _ => none

/-- `func_to_wasm.rs` 38-84 `lower` and `emit.rs` 255-575 `emit_wasm`. -/
def compile (m : Mod) : Option WMod :=
  match lowerFns (tableSyms m) m.fns with
  | none => none
  | some ws =>
    let r := registered m ws
    match typeDefs m.gcMap (m.imports.map (·.2) ++ ws.map effectiveSig ++ r.added),
        emitFns m r (gcCount m + m.imports.length) ws with
    | some defs, some fns =>
      some
        { types := List.replicate (gcCount m) .gc ++ defs
          imports := emitImports (gcCount m) m.imports
          fns := fns
          tableSize := tableOf m ws
          elem := elemIdxs m (tableSyms m) }
    | _, _ => none

end Verif.WasmCall
