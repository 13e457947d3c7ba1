/-!
# Memory layout of structs and enums

Model of `crates/trunk-ir/src/adt_layout.rs` 60-300.

Simplifications:
* a type is its dialect and name (all that `type_size_align` reads);
* the `TypeConverter` is an arbitrary function on types (`convert_type_or_identity`);
* decoding of the attribute lists (`get_struct_fields`, `get_enum_variants`) is not modelled: the
  inputs are the decoded lists;
* `u32` arithmetic wraps (release build).
-/
namespace Verif.Layout

/-- What the layout code reads of a type. -/
structure Ty where
  dialect : String
  name : String
deriving DecidableEq, Repr

/-- `type_size_align`, adt_layout.rs 92-112. -/
def typeSizeAlign (ty : Ty) : UInt32 × UInt32 :=
  if ty.dialect ≠ "core" then (8, 8)
  else if ty.name = "i8" then (1, 1)
  else if ty.name = "i16" then (2, 2)
  else if ty.name = "i32" ∨ ty.name = "i1" then (4, 4)
  else if ty.name = "i64" then (8, 8)
  else if ty.name = "f32" then (4, 4)
  else (8, 8)

/-- `(offset + align - 1) & !(align - 1)`, adt_layout.rs 227, 234, 267, 273. -/
def alignUp (offset align : UInt32) : UInt32 := (offset + align - 1) &&& ~~~(align - 1)

/-- State of the field loop, adt_layout.rs 219-232 and 258-271. -/
structure Acc where
  offset : UInt32
  maxAlign : UInt32
  fieldOffsets : List UInt32
deriving DecidableEq, Repr

/-- Body of the field loop, adt_layout.rs 223-232 and 262-271. -/
def placeField (conv : Ty → Ty) (acc : Acc) (fieldTy : Ty) : Acc :=
  let (size, align) := typeSizeAlign (conv fieldTy)
  let offset := alignUp acc.offset align
  { offset := offset + size
    maxAlign := max acc.maxAlign align
    fieldOffsets := acc.fieldOffsets ++ [offset] }

/-- `struct StructLayout`, adt_layout.rs 43-50. -/
structure StructLayout where
  fieldOffsets : List UInt32
  totalSize : UInt32
  alignment : UInt32
deriving DecidableEq, Repr

/-- `compute_struct_layout`, adt_layout.rs 214-242. -/
def computeStructLayout (conv : Ty → Ty) (fields : List (String × Ty)) : StructLayout :=
  let acc := fields.foldl (fun acc f => placeField conv acc f.2) ⟨0, 1, []⟩
  { fieldOffsets := acc.fieldOffsets
    totalSize := alignUp acc.offset acc.maxAlign
    alignment := acc.maxAlign }

/-- `struct VariantFieldLayout`, adt_layout.rs 76-86. -/
structure VariantLayout where
  name : String
  tagValue : UInt32
  fieldOffsets : List UInt32
  fieldsSize : UInt32
deriving DecidableEq, Repr

/-- `struct EnumLayout`, adt_layout.rs 60-73. -/
structure EnumLayout where
  tagOffset : UInt32
  tagSize : UInt32
  fieldsOffset : UInt32
  variantLayouts : List VariantLayout
  totalSize : UInt32
  alignment : UInt32
deriving DecidableEq, Repr

/-- `ENUM_FIELDS_OFFSET`, adt_layout.rs 53. -/
def enumFieldsOffset : UInt32 := 8

/-- State of the variant loop, adt_layout.rs 255-257. -/
structure EnumAcc where
  variantLayouts : List VariantLayout
  maxFieldsSize : UInt32
  maxAlign : UInt32
deriving DecidableEq, Repr

/-- Body of the variant loop, adt_layout.rs 259-283; `tag` is the `enumerate` index. -/
def placeVariant (conv : Ty → Ty) (acc : EnumAcc) (tag : Nat) (v : String × List Ty) : EnumAcc :=
  let a := v.2.foldl (placeField conv) ⟨0, acc.maxAlign, []⟩
  let fieldsSize := alignUp a.offset a.maxAlign
  { variantLayouts := acc.variantLayouts ++ [⟨v.1, UInt32.ofNat tag, a.fieldOffsets, fieldsSize⟩]
    maxFieldsSize := max acc.maxFieldsSize fieldsSize
    maxAlign := a.maxAlign }

/-- The variant loop from index `tag`. -/
def placeVariants (conv : Ty → Ty) (acc : EnumAcc) (tag : Nat) : List (String × List Ty) → EnumAcc
  | [] => acc
  | v :: vs => placeVariants conv (placeVariant conv acc tag v) (tag + 1) vs

/-- `compute_enum_layout`, adt_layout.rs 248-294. -/
def computeEnumLayout (conv : Ty → Ty) (variants : List (String × List Ty)) : EnumLayout :=
  let acc := placeVariants conv ⟨[], 0, 8⟩ 0 variants
  { tagOffset := 0
    tagSize := 4
    fieldsOffset := enumFieldsOffset
    variantLayouts := acc.variantLayouts
    totalSize := enumFieldsOffset + acc.maxFieldsSize
    alignment := acc.maxAlign }

/-- `find_variant_layout`, adt_layout.rs 297-299. -/
def findVariantLayout (l : EnumLayout) (tag : String) : Option VariantLayout :=
  l.variantLayouts.find? (fun v => v.name == tag)

end Verif.Layout
