/-!
# The WebAssembly data registry

Model of `crates/trunk-ir-wasm-backend/src/data_registry.rs`. Labels (for debugging only) are left
out; the content map is a function; `u32` arithmetic wraps (release build).
-/
namespace Verif.DataReg

/-- `struct DataEntry`, data_registry.rs 25-32. -/
structure Entry where
  offset : UInt32
  data : List UInt8
deriving DecidableEq, Repr

/-- `struct DataRegistry`, data_registry.rs 13-20. -/
structure Registry where
  entries : List Entry
  currentOffset : UInt32
  contentMap : List UInt8 → Option Nat

/-- `DataRegistry::new`, data_registry.rs 36-42. -/
def Registry.new : Registry := ⟨[], 0, fun _ => none⟩

/-- `add_bytes`, data_registry.rs 54-80. Indexing `self.entries[index]` (line 60) out of bounds
panics: `none`. -/
def Registry.addBytes (r : Registry) (data : List UInt8) : Option (Registry × UInt32 × UInt32) :=
  let len := UInt32.ofNat data.length
  match r.contentMap data with
  | some index =>
    match r.entries[index]? with
    | some entry => some (r, entry.offset, len)
    | none => none
  | none =>
    let offset := r.currentOffset
    let index := r.entries.length
    some (⟨r.entries ++ [⟨offset, data⟩], r.currentOffset + len,
      fun d => if d = data then some index else r.contentMap d⟩, offset, len)

/-- `add_string`, data_registry.rs 47-49: a string is registered as its UTF-8 bytes. -/
def Registry.addString (r : Registry) (s : String) : Option (Registry × UInt32 × UInt32) :=
  r.addBytes s.toUTF8.toList

/-- A sequence of registrations with their results. -/
def Registry.addAll (r : Registry) : List (List UInt8) → Option (Registry × List (UInt32 × UInt32))
  | [] => some (r, [])
  | d :: ds =>
    match r.addBytes d with
    | none => none
    | some (r', res) =>
      match r'.addAll ds with
      | none => none
      | some (r'', rest) => some (r'', res :: rest)

/-- `total_size`, data_registry.rs 88-90. -/
def Registry.totalSize (r : Registry) : UInt32 := r.currentOffset

end Verif.DataReg
