import Verif.Rtti.Spec
import Verif.Fields.Model
/-!
# What operations on values of declared types should do

Objects with fields, references to them, and no bytes.
-/
namespace Verif.Fields
open Verif.Layout Verif.Rtti

/-- A value: a number, a reference to the `id`-th object created, or null. -/
inductive Val where
  | word (n : Nat)
  | ref (id : Nat)
  | null
deriving DecidableEq, Repr

structure Obj where
  decl : Decl
  variant : Nat
  fields : List Val
deriving DecidableEq, Repr

structure AState where
  regs : Nat → Option Val
  heap : List Obj

def AState.bindReg (σ : AState) (d : Nat) (v : Val) : AState :=
  { σ with regs := fun n => if n = d then some v else σ.regs n }

/-- The object a value refers to. -/
def AState.deref (σ : AState) (r : Nat) : Option (Nat × Obj) :=
  match σ.regs r with
  | some (.ref id) => (σ.heap[id]?).map (id, ·)
  | _ => none

/-- One operation; `none` if it does not make sense: a field of something else than a struct of this
type, a field of another variant than the tested one, a dereference of null. -/
def astep (σ : AState) : Act → Option AState
  | .const d _ v => some (σ.bindReg d (.word v))
  | .new d decl k args => (args.mapM σ.regs).bind fun vals =>
    some (({ σ with heap := σ.heap ++ [⟨decl, k, vals⟩] } : AState).bindReg d (.ref σ.heap.length))
  | .get d r name fields i _ => (σ.deref r).bind fun o =>
    if o.2.decl = .struct name fields then (o.2.fields[i]?).map (σ.bindReg d) else none
  | .set r v name fields i => (σ.deref r).bind fun o => (σ.regs v).bind fun x =>
    if o.2.decl = .struct name fields ∧ i < o.2.fields.length then
      some { σ with heap := σ.heap.set o.1 { o.2 with fields := o.2.fields.set i x } } else none
  | .is d r name variants tag => (σ.deref r).bind fun o =>
    if o.2.decl = .enum name variants then
      (variants[o.2.variant]?).map fun v => σ.bindReg d (.word (if v.1 = tag then 1 else 0))
    else none
  | .vget d r name variants tag i _ => (σ.deref r).bind fun o =>
    if o.2.decl = .enum name variants ∧ (variants[o.2.variant]?).map (·.1) = some tag then
      (o.2.fields[i]?).map (σ.bindReg d)
    else none
  | .null d => some (σ.bindReg d .null)
  | .isNull d r _ =>
    match σ.regs r with
    | some .null => some (σ.bindReg d (.word 1))
    | some (.ref _) => some (σ.bindReg d (.word 0))
    | _ => none
  | .cast d r => (σ.regs r).map (σ.bindReg d)

def arun : AState → List Act → Option AState
  | σ, [] => some σ
  | σ, act :: p => (astep σ act).bind fun σ' => arun σ' p

def AState.init : AState := ⟨fun _ => none, []⟩

/-! ## Well-typed programs -/

/-- Two types with values of the same width. -/
def SameSize (t u : Ty) : Prop := fieldSize nativeConv t = fieldSize nativeConv u

instance (t u : Ty) : Decidable (SameSize t u) := inferInstanceAs (Decidable (_ = _))

/-- The types a test for null can have. -/
def isInteger (t : Ty) : Prop :=
  nativeConv t ∈ [⟨"core", "i8"⟩, ⟨"core", "i16"⟩, ⟨"core", "i32"⟩, (⟨"core", "i64"⟩ : Ty)]

/-- An operation is well typed: declarations fit in memory, constants in their types; fields are there,
and what is stored in a field, or read from a struct's field, has the width of the field. -/
def ActOk (Γ : Nat → Option Ty) : Act → Prop
  | .const _ ty v => v < 256 ^ fieldSize nativeConv ty
  | .new _ decl k args => Sized decl ∧ ∃ tys, fieldTypes decl k = some tys ∧
      List.Forall₂ (fun r t => ∃ u, Γ r = some u ∧ SameSize u t) args tys
  | .get _ _ name fields i ty => Sized (.struct name fields) ∧ ∃ f, fields[i]? = some f ∧ SameSize ty f.2
  | .set _ v name fields i => Sized (.struct name fields) ∧
      ∃ f u, fields[i]? = some f ∧ Γ v = some u ∧ SameSize u f.2
  | .is _ _ name variants tag => Sized (.enum name variants) ∧ tag ∈ variants.map (·.1)
  | .vget _ _ name variants tag i _ => Sized (.enum name variants) ∧
      ∃ v, v ∈ variants ∧ v.1 = tag ∧ i < v.2.length
  | .null _ => True
  | .isNull _ _ ty => isInteger ty
  | .cast _ _ => True

/-- The result of an operation and its type. -/
def resultTy (Γ : Nat → Option Ty) : Act → Option (Nat × Option Ty)
  | .const d ty _ => some (d, some ty)
  | .new d _ _ _ => some (d, some ⟨"core", "ptr"⟩)
  | .get d _ _ _ _ ty => some (d, some ty)
  | .set .. => none
  | .is d .. => some (d, some ⟨"core", "i8"⟩)
  | .vget d _ _ variants tag i _ => some (d, (variants.lookup tag).bind fun tys => tys[i]?)
  | .null d => some (d, some ⟨"core", "ptr"⟩)
  | .isNull d _ ty => some (d, some ty)
  | .cast d r => some (d, Γ r)

/-- The types after an operation. -/
def typed (Γ : Nat → Option Ty) (act : Act) : Nat → Option Ty :=
  match resultTy Γ act with
  | none => Γ
  | some (d, t) => fun n => if n = d then t else Γ n

def ProgramOk : (Nat → Option Ty) → List Act → Prop
  | _, [] => True
  | Γ, act :: p => ActOk Γ act ∧ ProgramOk (typed Γ act) p

/-! ## Agreement -/

/-- The blocks handed out do not overlap. -/
def Separate (blocks : List (Nat × Nat)) : Prop :=
  blocks.Pairwise fun b c => b.1 + b.2 ≤ c.1 ∨ c.1 + c.2 ≤ b.1

/-- How a value looks in memory: a reference is an address 8 bytes into the object's block. -/
def Rep (blocks : List (Nat × Nat)) : Val → Nat → Prop
  | .word n, x => x = n
  | .ref id, x => ∃ b, blocks[id]? = some b ∧ x = b.1 + 8
  | .null, x => x = 0

/-- The machine is where the objects are: one block per object, every value as it should be, the count
of every object still 1 and its type index in place, and nothing changed outside the blocks. -/
structure Agrees (idx : Decl → UInt32) (m0 : Mem) (σ : AState) (s : CState) : Prop where
  blocks : s.blocks.length = σ.heap.length
  values : ∀ d v, σ.regs d = some v → ∃ r, s.regs d = some r ∧ Rep s.blocks v r.val
  headers : ∀ (id : Nat) o b, σ.heap[id]? = some o → s.blocks[id]? = some b → 8 ≤ b.2 ∧
    loadN s.mem b.1 4 = 1 ∧ loadN s.mem (b.1 + 4) 4 = (idx o.decl).toNat
  outside : ∀ a, (∀ b ∈ s.blocks, a < b.1 ∨ b.1 + b.2 ≤ a) → s.mem a = m0 a

end Verif.Fields
