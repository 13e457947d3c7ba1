import Verif.Layout.Model
/-!
# Specification of layouts

Sizes, alignments and offsets as natural numbers.
-/
namespace Verif.Layout

/-- Storage size in bytes of each machine type (`core` dialect); `i1` is stored as 32 bits. -/
def machineTypes : List (String × Nat) :=
  [("i1", 4), ("i8", 1), ("i16", 2), ("i32", 4), ("i64", 8), ("f32", 4), ("f64", 8), ("ptr", 8)]

/-- Everything that is not a machine type is stored as a pointer. -/
def machineSize (t : Ty) : Nat :=
  match t.dialect == "core", machineTypes.lookup t.name with
  | true, some n => n
  | _, _ => 8

/-- Size in bytes of the machine type a field is stored as. -/
def fieldSize (conv : Ty → Ty) (t : Ty) : Nat := machineSize (conv t)
/-- Machine types are naturally aligned. -/
def fieldAlign (conv : Ty → Ty) (t : Ty) : Nat := machineSize (conv t)

/-- An assignment of offsets to fields, in declaration order: every field is aligned, starts at or
after the end of every earlier field, and ends within `total`. -/
structure Fits (conv : Ty → Ty) (tys : List Ty) (offs : List Nat) (total : Nat) : Prop where
  count : offs.length = tys.length
  aligned : ∀ (i : Nat) t o, tys[i]? = some t → offs[i]? = some o → o % fieldAlign conv t = 0
  disjoint : ∀ (i j : Nat) t o o', i < j → tys[i]? = some t → offs[i]? = some o → offs[j]? = some o' →
    o + fieldSize conv t ≤ o'
  inside : ∀ (i : Nat) t o, tys[i]? = some t → offs[i]? = some o → o + fieldSize conv t ≤ total

end Verif.Layout
