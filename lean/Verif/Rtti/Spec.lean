import Verif.Rtti.Model
import Verif.Layout.Spec
import Mathlib.Data.List.Forall2
/-!
# What destroying an object should do
-/
namespace Verif.Rtti
open Verif.Layout

/-- Types whose values are references to counted heap objects (or null). -/
def isReference (t : Ty) : Bool :=
  t.dialect == "adt" || t == ⟨"core", "bytes"⟩ || t == ⟨"core", "array"⟩ || t == ⟨"closure", "closure"⟩ ||
  t == ⟨"tribute_rt", "intref"⟩ || t == ⟨"tribute_rt", "anyref"⟩

/-- Types whose values are raw addresses: of code, or of unknown provenance. -/
def isRawPointer (t : Ty) : Bool := t == ⟨"core", "func"⟩ || t == ⟨"core", "ptr"⟩

/-- The references among some values: each once, in field order, without null. -/
def references (tys : List Ty) (vals : List Nat) : List Nat :=
  (tys.zip vals).filterMap fun f => if isReference f.1 ∧ f.2 ≠ 0 then some f.2 else none

/-- A value that fits its field. -/
def FitField (t : Ty) (v : Nat) : Prop := v < 256 ^ fieldSize nativeConv t

/-- `vals` are values for fields of types `tys`. -/
def FitFields (tys : List Ty) (vals : List Nat) : Prop := List.Forall₂ FitField tys vals

/-- The machine when a construction starts: operand `i` has number `i`. -/
def operands (vals : List Nat) (m : Mem) : State := ⟨fun i => vals[i]?, m, []⟩

/-- The machine when a destructor is called. -/
def called (payload : Nat) (m : Mem) : State := ⟨fun i => if i = 0 then some payload else none, m, []⟩

/-- The code returns, having shown the world these events. -/
def Returns (w : World) (code : Code) (payload : Nat) (m : Mem) (events : List Event) : Prop :=
  ∃ fuel s, run w code fuel .entry (called payload m) = some s ∧ s.events = events

/-- Two memories agree on an address range. -/
def AgreeOn (lo hi : Nat) (m m' : Mem) : Prop := ∀ a, lo ≤ a → a < hi → m a = m' a

/-- Releasing other objects leaves this address range alone. -/
def Leaves (w : World) (lo hi : Nat) : Prop := ∀ p m, AgreeOn lo hi (w.released p m) m

/-- The construction code, run on these operand values, allocates once, returns the address 8 bytes
into the block, and leaves a block that — whatever happens to the rest of memory and to the block's
count afterwards, as long as releasing other objects does not touch this one — the destructor
treats as follows: it releases `refs`, in that order, once each, and nothing else, and gives back
exactly the allocated block. -/
def BuildsAndDestroys (construct : List Op) (result : Nat) (destructor : Code) (vals refs : List Nat)
    (w : World) (m0 : Mem) : Prop :=
  ∃ s size, steps w (operands vals m0) construct = some s ∧ s.events = [.alloc size] ∧
    s.env result = some (w.allocated + 8) ∧ 8 ≤ size ∧
    ∀ m w', AgreeOn (w.allocated + 8) (w.allocated + size) m s.mem →
      Leaves w' (w.allocated + 8) (w.allocated + size) →
      Returns w' destructor (w.allocated + 8) m
        (refs.map (.release · 0) ++ [.dealloc w.allocated size])

/-- `entries` lists the index map. -/
def Entries (entries : List (Decl × UInt32)) (m : RttiMap Decl) : Prop :=
  (entries.map (·.1)).Nodup ∧ ∀ d i, (d, i) ∈ entries ↔ m.get d = some i

/-- The code constructing a value of a declared type (for an enum: of its `variant`-th variant). -/
def construct (d : Decl) (idx : Option UInt32) (variant operands : Nat) : Option (List Op) :=
  match d with
  | .struct _ fields => structNew nativeConv idx fields operands
  | .enum _ variants =>
    variants[variant]?.bind fun v => variantNew nativeConv idx variants v.1 v.2 operands

/-- The field types of such a value. -/
def fieldTypes (d : Decl) (variant : Nat) : Option (List Ty) :=
  match d with
  | .struct _ fields => some (fields.map (·.2))
  | .enum _ variants => variants[variant]?.map (·.2)

/-- A declaration a 32-bit layout has room for. -/
def Sized : Decl → Prop
  | .struct _ fields => fields.length < 2 ^ 27
  | .enum _ variants => variants.length < 2 ^ 32 ∧ (∀ v ∈ variants, v.2.length < 2 ^ 27) ∧
      (variants.map (·.1)).Nodup

/-- The field types for which the destructor tells references from other words: no erased
(`anyref`) fields; raw pointers only in struct fields called `func_ptr`, which hold nothing else. -/
def Typed : Decl → Prop
  | .struct _ fields => ∀ f ∈ fields, f.2 ≠ ⟨"tribute_rt", "anyref"⟩ ∧
      (f.1 = "func_ptr" ↔ isRawPointer f.2 = true)
  | .enum _ variants => ∀ v ∈ variants, ∀ t ∈ v.2, t ≠ ⟨"tribute_rt", "anyref"⟩ ∧ isRawPointer t = false

/-- The functions of the compiled module: the user's, none of which has the name of a destructor,
and the generated ones, in any order. -/
def ModuleFunctions (constructed : List Decl) (funcs : List (List Char × Code)) : Prop :=
  ∃ entries user, Entries entries (collectTypes constructed) ∧
    (∀ f ∈ user, releaseIndex f.1 = none) ∧
    funcs.Perm (user ++ generateDestructors nativeConv entries)

end Verif.Rtti
