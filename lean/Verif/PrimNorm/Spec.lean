import Verif.PrimNorm.Model
import Mathlib.Data.List.Forall2

/-! What the normalisation has to do, without reference to its patterns. -/

namespace Verif.PrimNorm

/-- The table of the documentation (normalize_primitive_types.rs 9–16), with closures: the type of
the WebAssembly world for a type of the run-time library. -/
inductive Prim : Ty → Ty → Prop
  | int (l r) : Prim ⟨"tribute_rt", "int", l, r⟩ i32Ty
  | nat (l r) : Prim ⟨"tribute_rt", "nat", l, r⟩ i32Ty
  | bool (l r) : Prim ⟨"tribute_rt", "bool", l, r⟩ i32Ty
  | float (l r) : Prim ⟨"tribute_rt", "float", l, r⟩ f64Ty
  | anyref (l r) : Prim ⟨"tribute_rt", "anyref", l, r⟩ anyrefTy
  | intref (l r) : Prim ⟨"tribute_rt", "intref", l, r⟩ i31refTy
  | closure (l r) : Prim ⟨"closure", "closure", l, r⟩ closureTy

/-- The further conversions that signatures undergo. -/
inductive Further : Ty → Ty → Prop
  | i1 (l r) : Further ⟨"core", "i1", l, r⟩ i32Ty
  | step (l r) : Further ⟨"trampoline", "step", l, r⟩ stepTy
  | cont (l r) : Further ⟨"trampoline", "continuation", l, r⟩ contTy
  | wrapper (l r) : Further ⟨"trampoline", "resume_wrapper", l, r⟩ rwTy
  | typeref (l r) : Further ⟨"adt", "typeref", l, r⟩ structrefTy
  | array (l r) : Further ⟨"core", "array", l, r⟩ arrayrefTy
  | marker (r) : Further ⟨"adt", "struct", "_Marker", r⟩ markerTy

/-- What becomes of a type in a result: the table, and nothing for other types. -/
def BecomesPrim (t u : Ty) : Prop := Prim t u ∨ ((¬ ∃ x, Prim t x) ∧ u = t)

/-- What becomes of a type in a signature. -/
def BecomesSig (t u : Ty) : Prop :=
  Prim t u ∨ Further t u ∨ ((¬ ∃ x, Prim t x ∨ Further t x) ∧ u = t)

mutual
/-- All operations of a tree, outermost first. -/
def Op.all : Op → List (OpData × List Block)
  | .mk d bs => (d, bs) :: blocksAll bs
def blocksAll : List Block → List (OpData × List Block)
  | [] => []
  | b :: bs => b.all ++ blocksAll bs
def Block.all : Block → List (OpData × List Block)
  | .mk _ ops => opsAll ops
def opsAll : List Op → List (OpData × List Block)
  | [] => []
  | o :: os => o.all ++ opsAll os
end

/-- Functions of both dialects. -/
def IsFunc (d : OpData) : Prop := (d.dialect = "func" ∨ d.dialect = "wasm") ∧ d.name = "func"

/-- Calls, direct or indirect, that return. -/
def IsCall (d : OpData) : Prop := d.dialect = "func" ∧ (d.name = "call" ∨ d.name = "call_indirect")

instance (d : OpData) : Decidable (IsFunc d) := by unfold IsFunc; infer_instance
instance (d : OpData) : Decidable (IsCall d) := by unfold IsCall; infer_instance

/-- The arguments of the first block. -/
def entryArgs : List Block → List (Nat × Ty)
  | [] => []
  | .mk args _ :: _ => args

/-- An operation as the front end makes it: a function has a signature, and, unless it is a
declaration, an entry block with arguments of the types in it; functions have no operands and no
results; calls have one result and no regions, indirect calls have the callee among their
operands. -/
structure WellFormed (d : OpData) (bs : List Block) : Prop where
  func : IsFunc d → d.operands = [] ∧ d.results = [] ∧
    ∃ t, d.attrs.lookup "type" = some (.type t) ∧
      (d.hasRegion = true → bs ≠ [] ∧ (entryArgs bs).map (·.2) = t.params) ∧
      (d.hasRegion = false → bs = [])
  call : IsCall d → (∃ r, d.results = [r]) ∧ bs = [] ∧ d.hasRegion = false
  callee : d.dialect = "func" → d.name = "call_indirect" → d.operands ≠ []

/-- All operations are well-formed. -/
def WF (ops : List Op) : Prop := ∀ e ∈ opsAll ops, WellFormed e.1 e.2

/-- The arguments of a block. -/
def Block.args : Block → List (Nat × Ty)
  | .mk args _ => args

/-- What has to become of an operation `e` of the module: `e'`. -/
structure Normalised (e e' : OpData × List Block) : Prop where
  same : e'.1.dialect = e.1.dialect ∧ e'.1.name = e.1.name ∧ e'.1.operands = e.1.operands ∧
    e'.1.hasRegion = e.1.hasRegion
  results : List.Forall₂ (fun r r' => r'.1 = r.1 ∧ BecomesPrim r.2 r'.2) e.1.results e'.1.results
  plain : ¬ IsFunc e.1 → ¬ IsCall e.1 → e'.1.attrs = e.1.attrs
  func : IsFunc e.1 → (∀ k, k ≠ "type" → e'.1.attrs.lookup k = e.1.attrs.lookup k) ∧
    ∀ t, e.1.attrs.lookup "type" = some (.type t) →
      ∃ t', e'.1.attrs.lookup "type" = some (.type t') ∧ BecomesSig t.result t'.result ∧
        List.Forall₂ BecomesSig t.params t'.params
  call : IsCall e.1 → e.1.name = "call" → e'.1.attrs.lookup "callee" = e.1.attrs.lookup "callee"
  callPlain : IsCall e.1 → (∀ r ∈ e.1.results, ¬ ∃ u, Prim r.2 u) → e'.1.attrs = e.1.attrs
  entry : IsFunc e.1 →
    List.Forall₂ (fun a a' => a'.1 = a.1 ∧ BecomesSig a.2 a'.2) (entryArgs e.2) (entryArgs e'.2)
  later : (e'.2.drop 1).map Block.args = (e.2.drop 1).map Block.args
  args : ¬ IsFunc e.1 → e'.2.map Block.args = e.2.map Block.args

/-- All values of a module with their types: results of operations and arguments of blocks. -/
def values (ops : List Op) : List (Nat × Ty) :=
  (opsAll ops).flatMap fun e => e.1.results ++ e.2.flatMap Block.args

/-- The type of a value. -/
def typeOf (ops : List Op) (v : Nat) : Option Ty := (values ops).lookup v

/-- Is the type one that the normalisation replaces? -/
def Convertible (t : Ty) : Prop := ∃ u, Prim t u ∨ Further t u

end Verif.PrimNorm
