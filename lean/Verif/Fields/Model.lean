import Verif.Rtti.Model
/-!
# Values of declared types on the native target

Model of `crates/trunk-ir-cranelift-backend/src/passes/adt_to_clif.rs` 92-400 (reading and writing
fields, testing variants, null references), of the constructions of
`crates/tribute-passes/src/native/adt_rc_header.rs` 94-330 with operands of any type, and of the record
expressions that copy the other fields from a base value
(`crates/tribute-front/src/ast_to_ir/lower/expr.rs` 636-735).

Simplifications:
* the operations of a function are a straight line; control flow is C56's and C57's subject. Each
  operation is lowered and run by itself, on the machine of `Verif.Rtti`: its operands are the values
  0, 1, …;
* a value is a number with the type it has in the IR; the width of a load or store is that of the
  converted type (`clif.load` has a result type, `clif.store` takes the type of the stored value:
  crates/trunk-ir-cranelift-backend/src/function.rs 117-144 and 459-488);
* reference counts and destruction are left out (C22-C24 and C42): blocks stay allocated.
-/
namespace Verif.Fields
open Verif.Layout Verif.Rtti

/-- The operations on values of declared types. `d` is the number of the result, `r` that of the
reference operated on. -/
inductive Act where
  /-- A value from elsewhere: a constant, an argument, the result of arithmetic. -/
  | const (d : Nat) (ty : Ty) (v : Nat)
  /-- `adt.struct_new`, `adt.variant_new` (the `variant`-th variant). -/
  | new (d : Nat) (decl : Decl) (variant : Nat) (args : List Nat)
  /-- `adt.struct_get`, with its result type. -/
  | get (d r : Nat) (name : String) (fields : List (String × Ty)) (i : Nat) (ty : Ty)
  /-- `adt.struct_set`. -/
  | set (r v : Nat) (name : String) (fields : List (String × Ty)) (i : Nat)
  /-- `adt.variant_is`. -/
  | is (d r : Nat) (name : String) (variants : List (String × List Ty)) (tag : String)
  /-- `adt.variant_get`, with its result type. -/
  | vget (d r : Nat) (name : String) (variants : List (String × List Ty)) (tag : String) (i : Nat) (ty : Ty)
  /-- `adt.ref_null`. -/
  | null (d : Nat)
  /-- `adt.ref_is_null`, with its result type. -/
  | isNull (d r : Nat) (ty : Ty)
  /-- `adt.variant_cast`, `adt.ref_cast`. -/
  | cast (d r : Nat)
deriving DecidableEq, Repr

/-- The operands, in order. -/
def Act.operands : Act → List Nat
  | .const .. => []
  | .new _ _ _ args => args
  | .get _ r .. => [r]
  | .set r v .. => [r, v]
  | .is _ r .. => [r]
  | .vget _ r .. => [r]
  | .null _ => []
  | .isNull _ r _ => [r]
  | .cast _ r => [r]

/-- The code an operation becomes, and its result: the number it is given, the value it is in the
code, and its type. -/
structure Lowered where
  code : List Op
  result : Option (Nat × Nat × Ty)
deriving DecidableEq, Repr

/-- `core.ptr`. -/
def ptr : Ty := ⟨"core", "ptr"⟩

/-- `StructNewPattern`, adt_rc_header.rs 102-199: as `Verif.Rtti.structNew`, but each operand is stored
with its own type's width. -/
def structNew (rttiIdx : UInt32) (fields : List (String × Ty)) (tys : List Ty) : Option (List Op) :=
  let layout := computeStructLayout nativeConv fields
  let k := tys.length
  if k = layout.fieldOffsets.length then
    some (header layout.totalSize rttiIdx k ++
      fieldStores nativeConv (k + 5) 0 (tys.zip (layout.fieldOffsets.map asI32)) ++
      [.iconst (k + 6) 0 8, .iadd (k + 7) (k + 5) (k + 6)])
  else none

/-- `VariantNewPattern`, adt_rc_header.rs 222-327, likewise. -/
def variantNew (rttiIdx : UInt32) (variants : List (String × List Ty)) (tag : String) (tys : List Ty) :
    Option (List Op) :=
  let layout := computeEnumLayout nativeConv variants
  let k := tys.length
  match findVariantLayout layout tag with
  | some v =>
    if k = v.fieldOffsets.length then
      some (header layout.totalSize rttiIdx k ++
        [.iconst (k + 8) v.tagValue.toNat 4, .store (k + 8) (k + 5) 4 0] ++
        fieldStores nativeConv (k + 5) 0
          (tys.zip (v.fieldOffsets.map fun o => asI32 (layout.fieldsOffset + o))) ++
        [.iconst (k + 6) 0 8, .iadd (k + 7) (k + 5) (k + 6)])
    else none
  | none => none

/-- `i32::try_from(offset).expect(…)`, adt_to_clif.rs 121-122, 166-167, 282-284. -/
def checkedOffset (o : UInt32) : Option Int := if o.toNat < 2 ^ 31 then some o.toNat else none

/-- `StructGetPattern`, adt_to_clif.rs 93-137: the load has the (converted) type of the result. -/
def structGet (fields : List (String × Ty)) (i : Nat) (ty : Ty) : Option (List Op) :=
  let layout := computeStructLayout nativeConv fields
  (layout.fieldOffsets[i]?).bind fun o => (checkedOffset o).bind fun off =>
    some [.load 1 0 (width nativeConv ty) off]

/-- `StructSetPattern`, adt_to_clif.rs 139-175; `ty` is the type of the stored value. -/
def structSet (fields : List (String × Ty)) (i : Nat) (ty : Ty) : Option (List Op) :=
  let layout := computeStructLayout nativeConv fields
  (layout.fieldOffsets[i]?).bind fun o => (checkedOffset o).bind fun off =>
    some [.store 1 0 (width nativeConv ty) off]

/-- `VariantIsPattern`, adt_to_clif.rs 177-229. -/
def variantIs (variants : List (String × List Ty)) (tag : String) : Option (List Op) :=
  (findVariantLayout (computeEnumLayout nativeConv variants) tag).bind fun v =>
    some [.load 1 0 4 0, .iconst 2 v.tagValue.toNat 4, .icmpEq 3 1 2]

/-- `load_ty`, adt_to_clif.rs 287-310: the declared type of the field, else the result type. -/
def loadTy (variants : List (String × List Ty)) (tag : String) (i : Nat) (ty : Ty) : Ty :=
  match (variants.find? (fun v => v.1 == tag)).bind (fun v => v.2[i]?) with
  | some t => t
  | none => ty

/-- `VariantGetPattern`, adt_to_clif.rs 249-317. -/
def variantGet (variants : List (String × List Ty)) (tag : String) (i : Nat) (ty : Ty) :
    Option (List Op) :=
  let layout := computeEnumLayout nativeConv variants
  (findVariantLayout layout tag).bind fun v => (v.fieldOffsets[i]?).bind fun o =>
    (checkedOffset (layout.fieldsOffset + o)).bind fun off =>
      some [.load 1 0 (width nativeConv (loadTy variants tag i ty)) off]

/-- `RefIsNullPattern`, adt_to_clif.rs 357-411. The result of the comparison is zero-extended, which
leaves the number as it is. -/
def refIsNull (ty : Ty) : Option (List Op) :=
  if (nativeConv ty).dialect = "core" ∧ (nativeConv ty).name ∈ ["i8", "i16", "i32", "i64"] then
    some [.iconst 1 0 8, .icmpEq 2 0 1]
  else none

/-- The patterns of `adt_rc_header` and `adt_to_clif`, by operation: operand types to code. `none` is a
panic, or a pattern that does not apply, after which the conversion fails (adt_to_clif.rs 64-82). The
result of `adt.variant_is` is the `i8` of a Cranelift comparison; `const` is no operation of these
passes. -/
def lower (idx : Decl → UInt32) (act : Act) (tys : List Ty) : Option Lowered :=
  match act with
  | .const d ty v => some ⟨[.iconst 0 v (width nativeConv ty)], some (d, 0, ty)⟩
  | .new d (.struct n fields) _ _ =>
    (structNew (idx (.struct n fields)) fields tys).map (⟨·, some (d, tys.length + 7, ptr)⟩)
  | .new d (.enum n variants) k _ => (variants[k]?).bind fun v =>
    (variantNew (idx (.enum n variants)) variants v.1 tys).map (⟨·, some (d, tys.length + 7, ptr)⟩)
  | .get d _ _ fields i ty => (structGet fields i ty).map (⟨·, some (d, 1, ty)⟩)
  | .set _ _ _ fields i => (tys[1]?).bind fun t => (structSet fields i t).map (⟨·, none⟩)
  | .is d _ _ variants tag => (variantIs variants tag).map (⟨·, some (d, 3, ⟨"core", "i8"⟩)⟩)
  | .vget d _ _ variants tag i ty => (variantGet variants tag i ty).map
      (⟨·, some (d, 1, loadTy variants tag i ty)⟩)
  -- RefNullPattern, adt_to_clif.rs 319-337
  | .null d => some ⟨[.iconst 0 0 8], some (d, 0, ptr)⟩
  | .isNull d _ ty => (refIsNull ty).map (⟨·, some (d, 2, ty)⟩)
  -- VariantCastPattern and RefCastPattern, adt_to_clif.rs 231-247, 339-355
  | .cast d _ => (tys[0]?).map fun t => ⟨[], some (d, 0, t)⟩

/-! ## Running -/

/-- A value of the program with its type. -/
structure Reg where
  val : Nat
  ty : Ty
deriving DecidableEq, Repr

/-- The values so far, memory, and the blocks handed out (address and requested size), oldest first. -/
structure CState where
  regs : Nat → Option Reg
  mem : Mem
  blocks : List (Nat × Nat)

/-- The blocks requested by some events, all at `a`. -/
def requested (a : Nat) (events : List Event) : List (Nat × Nat) :=
  events.filterMap fun e => match e with
    | .alloc n => some (a, n)
    | _ => none

/-- One operation, lowered and run; an allocation in it returns `a`. -/
def cstep (idx : Decl → UInt32) (a : Nat) (s : CState) (act : Act) : Option CState :=
  (act.operands.mapM s.regs).bind fun args =>
  (lower idx act (args.map (·.ty))).bind fun l =>
  (steps ⟨a, fun _ m => m⟩ ⟨fun i => (args.map (·.val))[i]?, s.mem, []⟩ l.code).bind fun t =>
  match l.result with
  | none => some ⟨s.regs, t.mem, s.blocks ++ requested a t.events⟩
  | some (d, x, ty) => (t.env x).bind fun v =>
    some ⟨fun n => if n = d then some ⟨v, ty⟩ else s.regs n, t.mem, s.blocks ++ requested a t.events⟩

/-- The operations in order; `addrs n` is the address of the `n`-th block handed out. -/
def crun (idx : Decl → UInt32) (addrs : Nat → Nat) : CState → List Act → Option CState
  | s, [] => some s
  | s, act :: p => (cstep idx (addrs s.blocks.length) s act).bind fun s' => crun idx addrs s' p

/-- Before the first operation. -/
def CState.init (m : Mem) : CState := ⟨fun _ => none, m, []⟩

/-! ## Record expressions with a base -/

/-- The loop over the fields in declaration order, expr.rs 704-724: a field given in the expression has
its value, any other is read from the base, with the type `tribute_rt.anyref`. Returns the reads and
the operands of the construction; `next` is the first free number. -/
def spreadFields (name : String) (fields : List (String × Ty)) (given : String → Option Nat)
    (base : Nat) : Nat → Nat → List String → List Act × List Nat
  | _, _, [] => ([], [])
  | i, next, f :: fs =>
    match given f with
    | some v =>
      let rest := spreadFields name fields given base (i + 1) next fs
      (rest.1, v :: rest.2)
    | none =>
      let rest := spreadFields name fields given base (i + 1) (next + 1) fs
      (.get next base name fields i ⟨"tribute_rt", "anyref"⟩ :: rest.1, next :: rest.2)

/-- `ExprKind::Record` with a base, expr.rs 636-735, the parts already evaluated. -/
def recordUpdate (d : Nat) (name : String) (fields : List (String × Ty)) (given : String → Option Nat)
    (base next : Nat) : List Act :=
  let parts := spreadFields name fields given base 0 next (fields.map (·.1))
  parts.1 ++ [.new d (.struct name fields) 0 parts.2]

end Verif.Fields
