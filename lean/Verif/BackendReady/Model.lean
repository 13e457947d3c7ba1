/-!
# The last check before code is emitted

Models `crates/tribute-passes/src/backend_ready.rs` and the target validators it starts with
(`crates/trunk-ir-cranelift-backend/src/validation.rs`, `crates/trunk-ir-wasm-backend/src/validation.rs`).

Simplifications: names are strings; of values only their types are kept; the blocks of all regions of an
operation are one list; a module has no region but its body; error messages carry what they are about
instead of text, and the two validators report their first complaint only.
-/

namespace Verif.BackendReady

/-- A reference to an interned type (`TypeRef`, crates/trunk-ir/src/types.rs 512-534): its index. -/
abbrev TyRef := Nat

/-- crates/trunk-ir/src/types.rs 36-53; the kinds the check does not look into are `other`. -/
inductive Attr where
  | other
  | bool (b : Bool)
  | int (i : Int)
  | type (t : TyRef)
  | sym (s : String)
  | list (l : List Attr)

abbrev Attrs := List (String × Attr)

/-- crates/trunk-ir/src/types.rs 451-456. -/
structure TypeData where
  dialect : String
  name : String
  params : List TyRef
  attrs : Attrs

/-- The interned types, in the order they were interned (types.rs 512-534). -/
abbrev Store := List TypeData

/-- An operation without its regions (crates/trunk-ir/src/context.rs, `OperationData`); operands by
their types. -/
structure OpData where
  dialect : String
  name : String
  results : List TyRef
  operands : List TyRef
  attrs : Attrs

/-- A block argument (context.rs, `BlockArgData`). -/
structure Arg where
  ty : TyRef
  attrs : Attrs

mutual
/-- An operation with the blocks of its regions. -/
inductive Op where
  | mk (data : OpData) (blocks : List Block)
/-- A block. -/
inductive Block where
  | mk (args : List Arg) (ops : List Op)
end

/-- A module: the operation, its body if it has one (crates/trunk-ir/src/rewrite/mod.rs 54-56) and the
type aliases of the context (context.rs 219-221). -/
structure Module where
  aliases : List (String × TyRef)
  data : OpData
  body : Option (List Block)

/-- backend_ready.rs 22-25. -/
inductive Backend where
  | native
  | wasm
  deriving DecidableEq

/-- backend_ready.rs 35-40. -/
def Backend.dialect : Backend → String
  | .native => "clif"
  | .wasm => "wasm"

/-- backend_ready.rs 116-122. -/
inductive Surface where
  | value
  | result
  | metadata
  | signature
  deriving DecidableEq

/-- What an error is about. -/
inductive Err where
  /-- A type that does not exist, or types nested without end: cannot come up (`get` would panic, or
  the recursion would not end). -/
  | stuck
  | noBody
  | operation (dialect name : String)
  | tailCall (op : OpData)
  | illegalType (t : TyRef) (sf : Surface)
  | noResult (t : TyRef)
  | carrier
  | notAType (op : OpData)
  | badConvention (op : OpData)
  | cpsResult (op : OpData)
  | transferResult (op : OpData)

/-- `core_type_is`, backend_ready.rs 364-369. -/
def coreTypeIs (d : TypeData) (names : List String) : Bool :=
  d.dialect == "core" && names.contains d.name

/-- `get` on an attribute map (types.rs 280-297). -/
def get (a : Attrs) (k : String) : Option Attr := a.lookup k

/-- `get_bool("is_variant") == Some(true)`. -/
def isVariant (a : Attrs) : Bool :=
  match get a "is_variant" with
  | some (.bool true) => true
  | _ => false

/-- `adt_type_is`, backend_ready.rs 371-377. -/
def adtTypeIs (d : TypeData) : Bool :=
  d.dialect == "adt" && (["struct", "enum", "typeref", "variant_inst"].contains d.name || isVariant d.attrs)

/-- `wasm_reference_type`, backend_ready.rs 379-384. -/
def wasmReferenceType (d : TypeData) : Bool :=
  d.dialect == "wasm" && ["anyref", "i31ref", "structref", "arrayref", "funcref"].contains d.name

/-- `target_value_type`, backend_ready.rs 332-350. -/
def targetValueType (b : Backend) (d : TypeData) : Bool :=
  match b with
  | .native => coreTypeIs d ["nil", "i1", "i8", "i16", "i32", "i64", "f32", "f64", "ptr"]
  | .wasm => coreTypeIs d ["nil", "i1", "i32", "i64", "f32", "f64", "bytes", "ptr", "array", "func"] ||
      adtTypeIs d || wasmReferenceType d

/-- `target_metadata_type`, backend_ready.rs 352-362. -/
def targetMetadataType (b : Backend) (d : TypeData) : Bool :=
  coreTypeIs d ["func", "nil", "i1", "i8", "i16", "i32", "i64", "f32", "f64", "ptr", "bytes", "ref",
    "array"] || adtTypeIs d || (b == .wasm && wasmReferenceType d)

/-- `data.dialect == "core" && data.name == "func"`. -/
def isFunc (d : TypeData) : Bool := d.dialect == "core" && d.name == "func"

/-- `is_core_type(…, "nil")` on type data, backend_ready.rs 386-398. -/
def isNil (d : TypeData) : Bool := d.dialect == "core" && d.name == "nil"

/-- `type_is_legal`, backend_ready.rs 314-330. -/
def typeIsLegal (b : Backend) (sf : Surface) (d : TypeData) : Bool :=
  match sf with
  | .signature => isFunc d
  | .value => targetValueType b d
  | .result => isNil d || targetValueType b d
  | .metadata => targetMetadataType b d

/-- The types already looked at, with the place they were found in (backend_ready.rs 127). -/
abbrev Visited := List (TyRef × Surface)

/-- A step of the check: it extends the visited set or fails. -/
abbrev Step := Visited → Except Err Visited

/-- `for x in l { f(x)?; }`. -/
def each {α : Type} (f : α → Step) : List α → Step
  | [], v => .ok v
  | a :: l, v => match f a v with
    | .ok v' => each f l v'
    | .error e => .error e

/-- `f()?; g()`. -/
def andThen (f g : Step) : Step := fun v =>
  match f v with
  | .ok v' => g v'
  | .error e => .error e

/-- `if bad { return Err(e) }`. -/
def reject (bad : Bool) (e : Err) : Step := fun v => if bad then .error e else .ok v

/-- `verify_symbol`, backend_ready.rs 241-248. -/
def verifySymbol (s : String) : Step := reject (s == "__tribute_cps_control") .carrier

mutual
/-- `verify_attribute`, backend_ready.rs 222-239 (always called with `Metadata`); `vt` is
`verify_type`. -/
def verifyAttribute (vt : TyRef → Step) : Attr → Step
  | .type t => vt t
  | .sym s => verifySymbol s
  | .list l => verifyAttributes vt l
  | _ => .ok
/-- The loop over a list attribute. -/
def verifyAttributes (vt : TyRef → Step) : List Attr → Step
  | [] => .ok
  | a :: l => andThen (verifyAttribute vt a) (verifyAttributes vt l)
end

/-- The loop over an attribute map: its key, then its value (backend_ready.rs 208-211, 163-170). -/
def verifyAttrs (vt : TyRef → Step) (as : Attrs) : Step :=
  each (fun ka : String × Attr => andThen (verifySymbol ka.1) (verifyAttribute vt ka.2)) as

/-- `verify_type`, backend_ready.rs 178-220.  `n` bounds the recursion: a type only refers to types
interned before it, so one more than its index is enough. -/
def verifyType (s : Store) (b : Backend) : Nat → Surface → TyRef → Step
  | 0, _, _, _ => .error .stuck
  | n + 1, sf, t, v =>
    if (t, sf) ∈ v then .ok v else
    match s[t]? with
    | none => .error .stuck
    | some d =>
      if !typeIsLegal b sf d then .error (.illegalType t sf) else
      andThen
        (if isFunc d then
          match d.params with
          | [] => reject true (.noResult t)
          | r :: ps => andThen (verifyType s b n .result r) (each (verifyType s b n .value) ps)
         else each (verifyType s b n .metadata) d.params)
        (andThen (verifyAttrs (verifyType s b n .metadata) d.attrs)
          (reject (sf == .signature && !isFunc d) (.illegalType t sf)))
        ((t, sf) :: v)

/-- `verify_type` as the check calls it. -/
def verifyTypeTop (s : Store) (b : Backend) (sf : Surface) (t : TyRef) : Step :=
  verifyType s b (t + 1) sf t

/-- `is_signature_attribute`, backend_ready.rs 290-307. -/
def isSignatureAttribute (b : Backend) (d : OpData) (k : String) : Bool :=
  if d.dialect != b.dialect then false
  else if d.name == "func" then k == "type"
  else if d.name != "call_indirect" && d.name != "return_call_indirect" then false
  else k == (match b with
    | .native => "sig"
    | .wasm => "func.indirect_call_signature")

/-- `get_calling_convention`, crates/tribute-core/src/calling_convention.rs 61-88: the code if it is one
of the three. -/
def callingConvention (a : Attrs) : Option Nat :=
  match get a "tribute.calling_convention" with
  | some (.int i) => if 0 ≤ i ∧ i < 3 then some i.toNat else none
  | _ => none

/-- Whether the signature of a `Cps` function has an empty result, backend_ready.rs 261-279 (no
signature is an error as well). -/
def cpsOk (s : Store) (d : OpData) : Bool :=
  match get d.attrs "type" with
  | some (.type t) =>
    match s[t]? with
    | some sig => isFunc sig &&
        (match sig.params with
         | [] => false
         | r :: _ => match s[r]? with
           | some rd => isNil rd
           | none => false)
    | none => false
  | _ => false

/-- `verify_abi`, backend_ready.rs 250-288. -/
def verifyAbi (s : Store) (b : Backend) (d : OpData) : Step :=
  andThen
    (if (get d.attrs "tribute.calling_convention").isSome then
      match callingConvention d.attrs with
      | none => reject true (.badConvention d)
      | some c => reject (c == 2 && d.dialect == b.dialect && d.name == "func" && !cpsOk s d) (.cpsResult d)
     else .ok)
    (reject ((d.name == "return_call" || d.name == "return_call_indirect") && !d.results.isEmpty)
      (.transferResult d))

/-- One attribute of an operation, backend_ready.rs 149-159. -/
def verifyOpAttr (s : Store) (b : Backend) (d : OpData) (ka : String × Attr) : Step :=
  andThen (verifySymbol ka.1)
    (if isSignatureAttribute b d ka.1 then
      match ka.2 with
      | .type t => verifyTypeTop s b .signature t
      | _ => reject true (.notAType d)
     else verifyAttribute (verifyTypeTop s b .metadata) ka.2)

/-- One block argument, backend_ready.rs 160-173. -/
def verifyArg (s : Store) (b : Backend) (a : Arg) : Step :=
  andThen (verifyTypeTop s b .value a.ty) (verifyAttrs (verifyTypeTop s b .metadata) a.attrs)

/-- The arguments of the blocks of an operation. -/
def argsOf (bs : List Block) : List Arg := bs.flatMap fun | .mk as _ => as

/-- `verify_operation`, backend_ready.rs 139-176. -/
def verifyOperation (s : Store) (b : Backend) (o : OpData × List Block) : Step :=
  andThen (each (verifyTypeTop s b .result) o.1.results)
    (andThen (each (verifyTypeTop s b .value) o.1.operands)
      (andThen (each (verifyOpAttr s b o.1) o.1.attrs)
        (andThen (each (verifyArg s b) (argsOf o.2)) (verifyAbi s b o.1))))

mutual
/-- `collect_ops` (backend_ready.rs 107-114, crates/trunk-ir/src/walk.rs 46-60): the operation, then what
is nested in it. -/
def collectOp : Op → List (OpData × List Block)
  | .mk d bs => (d, bs) :: collectBlocks bs
def collectBlocks : List Block → List (OpData × List Block)
  | [] => []
  | b :: bs => collectBlock b ++ collectBlocks bs
def collectBlock : Block → List (OpData × List Block)
  | .mk _ ops => collectOps ops
def collectOps : List Op → List (OpData × List Block)
  | [] => []
  | o :: os => collectOp o ++ collectOps os
end

/-- `native_backend_ready_target`, trunk-ir-cranelift-backend/src/validation.rs 58-63. -/
def clifAllowed (d : OpData) : Bool := d.dialect == "clif" || (d.dialect == "core" && d.name == "module")

/-- `is_allowed_dialect`, trunk-ir-wasm-backend/src/validation.rs 94-109. -/
def wasmAllowed (depth : Nat) (d : OpData) : Bool :=
  d.dialect == "wasm" || (depth == 0 && d.dialect == "core" && d.name == "module")

/-- `exact_return_call_indirect_signature`, trunk-ir-wasm-backend/src/emit/helpers.rs 111-154. -/
def exactSignature (s : Store) (d : OpData) : Bool :=
  match get d.attrs "func.indirect_call_signature" with
  | some (.type t) =>
    match s[t]? with
    | some sig => isFunc sig &&
        (match sig.params with
         | [] => false
         | r :: ps =>
           (match s[r]? with
            | some rd => isNil rd
            | none => false) &&
           (match d.operands with
            | [] => false
            | i :: args =>
              (match s[i]? with
               | some x => x.dialect == "core" && x.name == "i32"
               | none => false) && ps == args))
    | none => false
  | _ => false

mutual
/-- `verify_full` with the native target on an operation (trunk-ir-cranelift-backend/src/validation.rs
33-55): the first complaint.  No operation is recursively legal there. -/
def clifOp : Op → Option Err
  | .mk d bs => if !clifAllowed d then some (.operation d.dialect d.name) else clifBlocks bs
def clifBlocks : List Block → Option Err
  | [] => none
  | b :: bs => (clifBlock b).or (clifBlocks bs)
def clifBlock : Block → Option Err
  | .mk _ ops => clifOps ops
def clifOps : List Op → Option Err
  | [] => none
  | o :: os => (clifOp o).or (clifOps os)
end

mutual
/-- `validate_operation`, trunk-ir-wasm-backend/src/validation.rs 65-91: the first complaint. -/
def wasmOp (s : Store) : Nat → Op → Option Err
  | depth, .mk d bs =>
    if !wasmAllowed depth d then some (.operation d.dialect d.name)
    else if d.dialect == "wasm" && d.name == "return_call_indirect" && !exactSignature s d then
      some (.tailCall d)
    else wasmBlocks s (depth + 1) bs
/-- `validate_region`, trunk-ir-wasm-backend/src/validation.rs 56-62. -/
def wasmBlocks (s : Store) : Nat → List Block → Option Err
  | _, [] => none
  | depth, b :: bs => (wasmBlock s depth b).or (wasmBlocks s depth bs)
def wasmBlock (s : Store) : Nat → Block → Option Err
  | depth, .mk _ ops => wasmOps s depth ops
def wasmOps (s : Store) : Nat → List Op → Option Err
  | _, [] => none
  | depth, o :: os => (wasmOp s depth o).or (wasmOps s depth os)
end

/-- `verify_target_operations`, backend_ready.rs 94-105. -/
def verifyTargetOperations (s : Store) (b : Backend) (m : Module) : Option Err :=
  match m.body with
  | none => some .noBody
  | some bs =>
    match b with
    | .native => clifBlocks bs
    | .wasm => wasmBlocks s 0 bs

/-- One type alias, backend_ready.rs 70-73. -/
def verifyAlias (s : Store) (b : Backend) (a : String × TyRef) : Step :=
  andThen (verifySymbol a.1) (verifyTypeTop s b .metadata a.2)

/-- All operations of the module, the module itself first. -/
def Module.all (m : Module) : List (OpData × List Block) := collectOp (.mk m.data (m.body.getD []))

/-- `verify_tribute_backend_ready`, backend_ready.rs 62-79: the error, if there is one. -/
def verify (s : Store) (b : Backend) (m : Module) : Option Err :=
  match verifyTargetOperations s b m with
  | some e => some e
  | none =>
    match andThen (each (verifyAlias s b) m.aliases) (each (verifyOperation s b) m.all) [] with
    | .ok _ => none
    | .error e => some e

/-! ## How the emitters translate types -/

/-- The types of Cranelift (`ptr` is the address type of the platform). -/
inductive ClTy where
  | i8 | i16 | i32 | i64 | f32 | f64 | ptr
  deriving DecidableEq

/-- `translate_type`, crates/trunk-ir-cranelift-backend/src/function.rs 117-143; `none` is an error. -/
def translateType (d : TypeData) : Option ClTy :=
  if d.dialect == "core" then
    if d.name == "i1" then some .i8
    else if d.name == "i8" then some .i8
    else if d.name == "i16" then some .i16
    else if d.name == "i32" then some .i32
    else if d.name == "i64" then some .i64
    else if d.name == "f32" then some .f32
    else if d.name == "f64" then some .f64
    else if d.name == "ptr" then some .ptr
    else none
  else none

/-- The loop over parameters in `translate_signature`, function.rs 173-179. -/
def translateParams (s : Store) : List TyRef → Option (List ClTy)
  | [] => some []
  | p :: ps =>
    match s[p]? with
    | none => none
    | some d =>
      if isNil d then translateParams s ps
      else match translateType d, translateParams s ps with
        | some c, some cs => some (c :: cs)
        | _, _ => none

/-- `translate_signature`, function.rs 148-189: parameters and the result, if there is one. -/
def translateSignature (s : Store) (t : TyRef) : Option (List ClTy × Option ClTy) :=
  match s[t]? with
  | none => none
  | some d =>
    if !isFunc d then none
    else match d.params with
      | [] => none
      | r :: ps =>
        match translateParams s ps, s[r]? with
        | some cs, some rd =>
          if isNil rd then some (cs, none)
          else match translateType rd with
            | some c => some (cs, some c)
            | none => none
        | _, _ => none

/-- Types of values on WebAssembly, as far as `type_to_valtype` tells them apart. -/
inductive ValTy where
  | i32 | i64 | f32 | f64
  | bytes
  | bytesArray (nullable : Bool)
  | concrete (i : Nat)
  | structref | funcref | anyref | i31ref | arrayref
  | closure
  | none
  deriving DecidableEq

/-- `is_bytes_array_ref`, crates/trunk-ir-wasm-backend/src/emit/helpers.rs 258-270. -/
def isBytesArrayRef (s : Store) (d : TypeData) : Bool :=
  d.dialect == "core" && d.name == "ref" &&
    (match d.params with
     | [p] => match s[p]? with
       | some a => a.dialect == "core" && a.name == "array" &&
           (match a.params with
            | [q] => match s[q]? with
              | some e => e.dialect == "core" && e.name == "i8"
              | _ => false
            | _ => false)
       | _ => false
     | _ => false)

/-- `is_closure_struct_type`, emit/helpers.rs 64-78. -/
def isClosureStruct (d : TypeData) : Bool :=
  d.dialect == "adt" && d.name == "struct" &&
    (match get d.attrs "name" with
     | some (.sym n) => n == "_closure"
     | _ => false)

/-- `type_to_valtype`, emit/helpers.rs 157-256; `idx` is `type_idx_by_type`; `none` is an error. -/
def typeToValtype (s : Store) (idx : TyRef → Option Nat) (t : TyRef) : Option ValTy :=
  match s[t]? with
  | none => none
  | some d =>
    if d.dialect == "core" && (d.name == "i32" || d.name == "i1") then some .i32
    else if d.dialect == "core" && d.name == "i64" then some .i64
    else if d.dialect == "core" && d.name == "f32" then some .f32
    else if d.dialect == "core" && d.name == "f64" then some .f64
    else if d.dialect == "core" && d.name == "bytes" then some .bytes
    else if isBytesArrayRef s d then
      some (.bytesArray (match get d.attrs "nullable" with
        | some (.bool true) => true
        | _ => false))
    else if d.dialect == "core" && d.name == "ptr" then some .i32
    else match idx t with
      | some i => some (.concrete i)
      | none =>
        if d.dialect == "wasm" then
          if d.name == "structref" then some .structref
          else if d.name == "funcref" then some .funcref
          else if d.name == "anyref" then some .anyref
          else if d.name == "i31ref" then some .i31ref
          else if d.name == "arrayref" then some .arrayref
          else none
        else if d.dialect == "core" && d.name == "array" then some .arrayref
        else if d.dialect == "core" && d.name == "func" then some .funcref
        else if isClosureStruct d then some .closure
        else if d.dialect == "adt" then some .anyref
        else if isNil d then some .none
        else none

/-- The function types of the type section, crates/trunk-ir-wasm-backend/src/emit.rs 315-345 with
`result_types` (emit/helpers.rs 272-285): parameters and results; `none` is an error. -/
def wasmSignature (s : Store) (idx : TyRef → Option Nat) (t : TyRef) : Option (List ValTy × List ValTy) :=
  match s[t]? with
  | none => none
  | some d =>
    if !isFunc d then none
    else match d.params with
      | [] => none
      | r :: ps =>
        match ps.mapM (typeToValtype s idx), s[r]? with
        | some vs, some rd =>
          if isNil rd then some (vs, [])
          else match typeToValtype s idx r with
            | some v => some (vs, [v])
            | none => none
        | _, _ => none

end Verif.BackendReady
