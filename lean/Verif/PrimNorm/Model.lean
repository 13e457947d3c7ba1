import Mathlib.Data.List.Basic

/-!
Model of `crates/tribute-passes/src/wasm/normalize_primitive_types.rs` (types of the run-time
library become WebAssembly types), of the conversion of signatures it uses
(`crates/trunk-ir/src/rewrite/signature_conversion.rs`) and of the table of conversions
(`crates/tribute-passes/src/wasm/type_converter.rs` 329–502).

Simplifications: a type is its dialect, its name, its `name` attribute and a number standing for
the rest; function types have their parts.  The blocks of all regions of an operation are in one
list.  A value is a number; replacing an operation keeps the numbers of its results (the code
redirects the uses to the new results).  Attributes of an operation are a list with their keys;
a changed attribute stays in its place (the code keeps a map).
-/

namespace Verif.PrimNorm

/-- A type other than a function type. `label` is its `name` attribute (empty: none), `rest` stands
for its parameters and other attributes (0: none). -/
structure Ty where
  dialect : String
  name : String
  label : String := ""
  rest : Nat := 0
  deriving DecidableEq, Repr

/-- A `core.func` type; `rest` stands for its attributes (0: none). -/
structure FuncTy where
  result : Ty
  params : List Ty
  rest : Nat := 0
  deriving DecidableEq, Repr

/-- Attributes: function types matter. -/
inductive Attr where
  | type (t : FuncTy)
  | other (n : Nat)
  deriving DecidableEq, Repr

/-- An operation but for its regions. -/
structure OpData where
  dialect : String
  name : String
  attrs : List (String × Attr) := []
  operands : List Nat := []
  results : List (Nat × Ty) := []
  hasRegion : Bool := false
  deriving DecidableEq, Repr

mutual
/-- Operations with the blocks of their regions. -/
inductive Op where
  | mk (d : OpData) (blocks : List Block)
/-- Blocks with their arguments. -/
inductive Block where
  | mk (args : List (Nat × Ty)) (ops : List Op)
end

/-- `is_type` (normalize_primitive_types.rs 55–58, type_converter.rs 48–50). -/
def Ty.is (t : Ty) (dialect name : String) : Bool := t.dialect == dialect && t.name == name

def i32Ty : Ty := { dialect := "core", name := "i32" }
def f64Ty : Ty := { dialect := "core", name := "f64" }
def anyrefTy : Ty := { dialect := "wasm", name := "anyref" }
def i31refTy : Ty := { dialect := "wasm", name := "i31ref" }
def structrefTy : Ty := { dialect := "wasm", name := "structref" }
def arrayrefTy : Ty := { dialect := "wasm", name := "arrayref" }
/-- type_converter.rs 89–112 and ability.rs 442–461: the layouts, by name; their fields are
numbered. -/
def closureTy : Ty := { dialect := "adt", name := "struct", label := "_closure", rest := 1 }
def stepTy : Ty := { dialect := "adt", name := "struct", label := "_Step", rest := 2 }
def contTy : Ty := { dialect := "adt", name := "struct", label := "_Continuation", rest := 3 }
def rwTy : Ty := { dialect := "adt", name := "struct", label := "_ResumeWrapper", rest := 4 }
def markerTy : Ty := { dialect := "adt", name := "struct", label := "_Marker", rest := 5 }

/-- type_converter.rs 349–502: the conversions in order.  (The rule for evidence, an array of
markers, has the outcome of the rule for arrays that follows it.) -/
def conversions : List (Ty → Option Ty) :=
  [fun t => if t.is "tribute_rt" "int" then some i32Ty else none,
   fun t => if t.is "tribute_rt" "nat" then some i32Ty else none,
   fun t => if t.is "tribute_rt" "bool" then some i32Ty else none,
   fun t => if t.is "core" "i1" then some i32Ty else none,
   fun t => if t.is "tribute_rt" "float" then some f64Ty else none,
   fun t => if t.is "tribute_rt" "intref" then some i31refTy else none,
   fun t => if t.is "tribute_rt" "anyref" then some anyrefTy else none,
   fun t => if t.is "trampoline" "step" then some stepTy else none,
   fun t => if t.is "trampoline" "continuation" then some contTy else none,
   fun t => if t.is "trampoline" "resume_wrapper" then some rwTy else none,
   fun t => if t.is "adt" "typeref" then some structrefTy else none,
   fun t => if t.is "closure" "closure" then some closureTy else none,
   fun t => if t.is "core" "array" then some arrayrefTy else none,
   fun t => if t.is "adt" "struct" && t.label == "_Marker" then some markerTy else none]

/-- rewrite/type_converter.rs 60–67: `convert_type`. -/
def convertType : List (Ty → Option Ty) → Ty → Option Ty
  | [], _ => none
  | c :: cs, t => match c t with
    | some u => some u
    | none => convertType cs t

/-- rewrite/type_converter.rs 70–72: `convert_type_or_identity` with the WebAssembly table. -/
def convertOr (t : Ty) : Ty := (convertType conversions t).getD t

/-- normalize_primitive_types.rs 62–107: `convert_primitive_type`. -/
def convertPrimitive (t : Ty) : Option Ty :=
  if t.is "tribute_rt" "int" || t.is "tribute_rt" "nat" || t.is "tribute_rt" "bool" then some i32Ty
  else if t.is "tribute_rt" "float" then some f64Ty
  else if t.is "tribute_rt" "anyref" then some anyrefTy
  else if t.is "tribute_rt" "intref" then some i31refTy
  else if t.is "closure" "closure" then some closureTy
  else none

/-- signature_conversion.rs 31–66, 69–71: `convert_func_signature` with `rebuild_func_type`: the
new type and whether parameters changed. -/
def convertSignature (t : FuncTy) : Option (FuncTy × Bool) :=
  let result := convertOr t.result
  let params := t.params.map convertOr
  if params == t.params && result == t.result then none
  else some ({ result := result, params := params }, params != t.params)

/-- signature_conversion.rs 77–98: `update_entry_block_args`; `none` for `false`. -/
def updateEntry (hasRegion : Bool) (blocks : List Block) (params : List Ty) : Option (List Block) :=
  if !hasRegion then some blocks
  else match blocks with
  | [] => if params.isEmpty then some [] else none
  | .mk args ops :: bs =>
    if args.length != params.length then none
    else some (.mk (args.zipWith (fun a t => (a.1, t)) params) ops :: bs)

/-- The attributes with another `type`: `clone_attrs_except` and the constructors
(signature_conversion.rs 125–152). -/
def setType (t : FuncTy) (attrs : List (String × Attr)) : List (String × Attr) :=
  attrs.map fun e => if e.1 == "type" then (e.1, .type t) else e

/-- signature_conversion.rs 117–153: `rewrite_function_signature`. The new operation has no
operands and no results. -/
def rewriteSignature (d : OpData) (blocks : List Block) : Option Op :=
  match d.attrs.lookup "type" with
  | some (.type t) =>
    match convertSignature t with
    | none => none
    | some (t', paramsChanged) =>
      match (if paramsChanged then updateEntry d.hasRegion blocks t'.params else some blocks) with
      | none => none
      | some bs => some (.mk { d with attrs := setType t' d.attrs, operands := [], results := [] } bs)
  | _ => none

/-- signature_conversion.rs 164–200: `FuncSignatureConversionPattern`. -/
def funcSignature (d : OpData) (blocks : List Block) : Option Op :=
  if d.dialect == "func" && d.name == "func" then rewriteSignature d blocks else none

/-- signature_conversion.rs 206–243: `WasmFuncSignatureConversionPattern`. -/
def wasmFuncSignature (d : OpData) (blocks : List Block) : Option Op :=
  if d.dialect == "wasm" && d.name == "func" then rewriteSignature d blocks else none

/-- normalize_primitive_types.rs 121–160: `NormalizeCallPattern`. The new call has its callee and
no other attribute. -/
def normalizeCall (d : OpData) : Option Op :=
  if d.dialect == "func" && d.name == "call" then
    match d.results with
    | [] => none
    | (v, t) :: _ =>
      match convertPrimitive t with
      | none => none
      | some t' =>
        some (.mk { dialect := "func", name := "call", attrs := d.attrs.filter (·.1 == "callee"), operands := d.operands, results := [(v, t')] } [])
  else none

/-- normalize_primitive_types.rs 163–202: `NormalizeCallIndirectPattern`. The new call has no
attributes.  Without operands the code panics; here nothing happens. -/
def normalizeCallIndirect (d : OpData) : Option Op :=
  if d.dialect == "func" && d.name == "call_indirect" && !d.operands.isEmpty then
    match d.results with
    | [] => none
    | (v, t) :: _ =>
      match convertPrimitive t with
      | none => none
      | some t' =>
        some (.mk { dialect := "func", name := "call_indirect", operands := d.operands, results := [(v, t')] } [])
  else none

/-- normalize_primitive_types.rs 237–250: operations left to the other patterns. -/
def handledElsewhere (d : OpData) : Bool :=
  (d.dialect == "func" && (d.name == "func" || d.name == "call" || d.name == "call_indirect")) ||
  (d.dialect == "wasm" && d.name == "func")

/-- normalize_primitive_types.rs 208–293: `NormalizeOpResultPattern`. -/
def normalizeResults (d : OpData) (blocks : List Block) : Option Op :=
  if !d.results.any (fun r => (convertPrimitive r.2).isSome) then none
  else if handledElsewhere d then none
  else some (.mk { d with results := d.results.map fun r => (r.1, (convertPrimitive r.2).getD r.2) } blocks)

/-- normalize_primitive_types.rs 45–50 and applicator.rs 346–360: the first pattern that applies. -/
def patterns (d : OpData) (blocks : List Block) : Option Op :=
  (((funcSignature d blocks).or (wasmFuncSignature d blocks)).or (normalizeCall d)).or
    ((normalizeCallIndirect d).or (normalizeResults d blocks))

mutual
/-- applicator.rs 313–360: nested regions first, then the patterns; with the number of changes. -/
def visitOp : Op → Op × Nat
  | .mk d blocks =>
    let r := visitBlocks blocks
    match patterns d r.1 with
    | some o => (o, r.2 + 1)
    | none => (.mk d r.1, r.2)
/-- applicator.rs 272–284. -/
def visitBlocks : List Block → List Block × Nat
  | [] => ([], 0)
  | b :: bs =>
    let r := visitBlock b
    let rs := visitBlocks bs
    (r.1 :: rs.1, r.2 + rs.2)
/-- applicator.rs 286–362, without automatic conversion of block arguments (it is not enabled). -/
def visitBlock : Block → Block × Nat
  | .mk args ops =>
    let r := visitOps ops
    (.mk args r.1, r.2)
/-- applicator.rs 310–361. -/
def visitOps : List Op → List Op × Nat
  | [] => ([], 0)
  | o :: os =>
    let r := visitOp o
    let rs := visitOps os
    (r.1 :: rs.1, r.2 + rs.2)
end

/-- applicator.rs 195–219: rounds until nothing changes; with whether that was reached. -/
def loop : Nat → List Op → List Op × Bool
  | 0, ops => (ops, false)
  | n + 1, ops =>
    let r := visitOps ops
    if r.2 = 0 then (r.1, true) else loop n r.1

/-- normalize_primitive_types.rs 42–52: `lower`, on the operations of a module, with the ten rounds
of applicator.rs 134. -/
def lower (ops : List Op) : List Op × Bool := loop 10 ops

/-- `exact_return_call_indirect_signature` (emit/helpers.rs 111–155) as far as the arguments go: the
signature recorded with an indirect call has the types of its arguments; `typeOf` gives the types of
values. -/
def exactArguments (typeOf : Nat → Option Ty) (d : OpData) : Bool :=
  match d.attrs.lookup "func.indirect_call_signature" with
  | some (.type t) => t.params.map some == d.operands.tail.map typeOf
  | _ => false

end Verif.PrimNorm
