import Verif.Rtti.Lifecycle
import Verif.Fields.Spec
/-!
# The machine stays where the objects are
-/
namespace Verif.Fields
open Verif.Layout Verif.Rtti

/-! ## Layouts -/

/-- Payload size of a declared type. -/
def total : Decl → UInt32
  | .struct _ fields => (computeStructLayout nativeConv fields).totalSize
  | .enum _ variants => (computeEnumLayout nativeConv variants).totalSize

/-- Field offsets from the payload. -/
def offsets : Decl → Nat → List Nat
  | .struct _ fields, _ => (computeStructLayout nativeConv fields).fieldOffsets.map UInt32.toNat
  | .enum _ variants, k =>
    match (computeEnumLayout nativeConv variants).variantLayouts[k]? with
    | some v => v.fieldOffsets.map fun o => (computeEnumLayout nativeConv variants).fieldsOffset.toNat + o.toNat
    | none => []

theorem layout_ok {d : Decl} {k : Nat} {tys : List Ty} (hd : Sized d) (h : fieldTypes d k = some tys) :
    Fits nativeConv tys (offsets d k) (total d).toNat ∧ (total d).toNat ≤ 2 ^ 31 := by
  cases d with
  | struct n fields =>
    cases h
    exact ⟨C13_fields_fit nativeConv fields hd, Nat.le_of_lt (struct_total_le nativeConv fields hd)⟩
  | enum n variants =>
    obtain ⟨h1, h2, h3⟩ := hd
    simp only [fieldTypes, Option.map_eq_some_iff] at h
    obtain ⟨⟨name, ts⟩, hk, rfl⟩ := h
    obtain ⟨v, w1, w2, w3, hf, w5⟩ := C14_variant_fits nativeConv variants h1 h2 k name ts hk
    refine ⟨?_, enum_total_le nativeConv variants h2⟩
    simp only [offsets, w1]
    exact hf

/-- The layout found by name is the one at the variant's position. -/
theorem find_at {variants : List (String × List Ty)} (h : Sized (.enum n variants)) {k : Nat} {name : String}
    {tys : List Ty} (hk : variants[k]? = some (name, tys)) :
    ∃ v, findVariantLayout (computeEnumLayout nativeConv variants) name = some v ∧
      (computeEnumLayout nativeConv variants).variantLayouts[k]? = some v ∧ v.tagValue.toNat = k := by
  obtain ⟨hcount, hlen, hn⟩ := h
  obtain ⟨v, f1, f2, f3⟩ := C14_find_variant nativeConv variants hcount hlen hn k name tys hk
  have hm := List.mem_of_find?_eq_some f1
  obtain ⟨j, hj, hje⟩ := List.mem_iff_getElem.mp hm
  have hls := (C14_shape nativeConv variants hlen).1
  have hj' : j < variants.length := by rw [← hls]; exact hj
  obtain ⟨v'', g1, g2, g3, _⟩ := C14_variant_fits nativeConv variants hcount hlen j variants[j].1
    variants[j].2 (by simp [hj'])
  have g1' := g1
  rw [List.getElem?_eq_getElem hj, hje] at g1
  cases g1
  have : j = k := by omega
  subst this
  exact ⟨v, f1, g1', g3⟩

/-! ## Construction -/

theorem fieldStores_congr (p : Nat) : ∀ (us ts : List Ty) (offs : List Int) (i : Nat),
    List.Forall₂ SameSize us ts →
    fieldStores nativeConv p i (us.zip offs) = fieldStores nativeConv p i (ts.zip offs)
  | _, _, _, _, .nil => rfl
  | _, _, [], _, .cons _ _ => by simp
  | u :: us, t :: ts, o :: offs, i, .cons h hs => by
    have hw : width nativeConv u = width nativeConv t := by rw [width_eq, width_eq]; exact h
    simp only [List.zip_cons_cons, fieldStores, hw, fieldStores_congr p us ts offs (i + 1) hs]

/-- The code of a construction, by declaration. -/
def newCode (idx : Decl → UInt32) (d : Decl) (k : Nat) (tys : List Ty) : Option (List Op) :=
  match d with
  | .struct n fields => structNew (idx (.struct n fields)) fields tys
  | .enum n variants => (variants[k]?).bind fun v => variantNew (idx (.enum n variants)) variants v.1 tys

theorem lower_new (idx : Decl → UInt32) (d : Nat) (decl : Decl) (k : Nat) (args : List Nat) (tys : List Ty) :
    lower idx (.new d decl k args) tys =
      (newCode idx decl k tys).map (⟨·, some (d, tys.length + 7, ptr)⟩) := by
  cases decl with
  | struct n fields => rfl
  | enum n variants =>
    simp only [lower, newCode]
    cases variants[k]? <;> rfl

theorem new_run (idx : Decl → UInt32) {d : Decl} {k : Nat} {tys us : List Ty} {vals : List Nat} (hd : Sized d)
    (h : fieldTypes d k = some tys) (hs : List.Forall₂ SameSize us tys) (hv : FitFields tys vals)
    (w : World) (hw : w.allocated + 2 ^ 32 ≤ 2 ^ 64) (m0 : Mem) :
    ∃ code s, newCode idx d k us = some code ∧ steps w (operands vals m0) code = some s ∧
      Built w m0 (total d) (idx d) tys (offsets d k) vals (us.length + 7) s ∧
      ∀ n vs, d = .enum n vs → loadN s.mem (w.allocated + 8) 4 = k := by
  have hl1 : us.length = tys.length := hs.length_eq
  have hl2 : tys.length = vals.length := List.Forall₂.length_eq hv
  cases d with
  | struct n fields =>
    cases h
    obtain ⟨code, s, h1, h2, h3⟩ := struct_built w hw m0 (idx (.struct n fields)) fields hd vals hv
    refine ⟨code, s, ?_, h2, ?_, fun _ _ h => by cases h⟩
    · rw [← h1]
      simp only [newCode, structNew, Rtti.structNew, hl1, hl2]
      congr 4
      exact fieldStores_congr _ _ _ _ _ hs
    · rw [hl1, hl2]; exact h3
  | enum n variants =>
    have hd' := hd
    obtain ⟨h1, h2, h3⟩ := hd
    simp only [fieldTypes, Option.map_eq_some_iff] at h
    obtain ⟨⟨name, ts⟩, hk, rfl⟩ := h
    obtain ⟨v, f1, f2, f3⟩ := find_at hd' hk
    obtain ⟨code, s, g1, g2, g3, g4⟩ := enum_built w hw m0 (idx (.enum n variants)) variants h1 h2 h3 k name ts
      hk vals hv v f2
    refine ⟨code, s, ?_, g2, ?_, fun _ _ _ => g3⟩
    · rw [← g1]
      simp only [newCode, hk, Option.bind_some, variantNew, Rtti.variantNew, f1, hl1, hl2]
      congr 4
      exact fieldStores_congr _ _ _ _ _ hs
    · rw [hl1, hl2]
      simp only [offsets, f2]
      exact g4

/-! ## The invariant -/

theorem loadN_lt (m : Mem) : ∀ (n a : Nat), loadN m a n < 256 ^ n
  | 0, a => by simp [loadN]
  | n + 1, a => by
    have := loadN_lt m n (a + 1)
    have h2 := (m a).toNat_lt
    rw [loadN, Nat.pow_succ]
    omega

/-- Every value has its type and fits it; one block per object. -/
structure Shape (Γ : Nat → Option Ty) (σ : AState) (s : CState) : Prop where
  blocks : s.blocks.length = σ.heap.length
  types : ∀ d v, σ.regs d = some v → ∃ r, s.regs d = some r ∧ Γ d = some r.ty ∧
    r.val < 256 ^ fieldSize nativeConv r.ty

/-- An object lies in its block. -/
structure InBlock (idx : Decl → UInt32) (blocks : List (Nat × Nat)) (m : Mem) (b : Nat × Nat) (o : Obj) :
    Prop where
  sized : Sized o.decl
  size : b.2 = (total o.decl).toNat + 8
  bound : b.1 < 2 ^ 63
  count : loadN m b.1 4 = 1
  index : loadN m (b.1 + 4) 4 = (idx o.decl).toNat
  tag : ∀ n vs, o.decl = .enum n vs → loadN m (b.1 + 8) 4 = o.variant ∧ 8 ≤ (total o.decl).toNat
  fields : ∃ tys, fieldTypes o.decl o.variant = some tys ∧ o.fields.length = tys.length ∧
    ∀ (i : Nat) t off v, tys[i]? = some t → (offsets o.decl o.variant)[i]? = some off → o.fields[i]? = some v →
      Rep blocks v (loadN m (b.1 + 8 + off) (fieldSize nativeConv t))

structure Holds (idx : Decl → UInt32) (m0 : Mem) (σ : AState) (s : CState) : Prop where
  values : ∀ d v r, σ.regs d = some v → s.regs d = some r → Rep s.blocks v r.val
  objs : ∀ (id : Nat) o b, σ.heap[id]? = some o → s.blocks[id]? = some b → InBlock idx s.blocks s.mem b o
  outside : ∀ a, (∀ b ∈ s.blocks, a < b.1 ∨ b.1 + b.2 ≤ a) → s.mem a = m0 a

theorem Rep.append {blocks more : List (Nat × Nat)} {v : Val} {x : Nat} (h : Rep blocks v x) :
    Rep (blocks ++ more) v x := by
  cases v with
  | word n => exact h
  | null => exact h
  | ref id =>
    obtain ⟨b, h1, h2⟩ := h
    exact ⟨b, by rw [List.getElem?_append_left (List.getElem?_eq_some_iff.mp h1).1]; exact h1, h2⟩

/-- The block of an object is unaffected by changes elsewhere, and by more blocks. -/
theorem InBlock.frame {idx : Decl → UInt32} {blocks more : List (Nat × Nat)} {m m' : Mem} {b : Nat × Nat}
    {o : Obj} (h : InBlock idx blocks m b o) (hm : ∀ a, b.1 ≤ a → a < b.1 + b.2 → m' a = m a) :
    InBlock idx (blocks ++ more) m' b o := by
  have hs := h.size
  obtain ⟨tys, t1, t2, t3⟩ := h.fields
  have hf := (layout_ok h.sized t1).1
  refine ⟨h.sized, h.size, h.bound, ?_, ?_, fun n vs e => ⟨?_, (h.tag n vs e).2⟩, tys, t1, t2, ?_⟩
  · rw [← h.count]; exact loadN_congr _ _ fun x h1 h2 => hm x (by omega) (by omega)
  · rw [← h.index]; exact loadN_congr _ _ fun x h1 h2 => hm x (by omega) (by omega)
  · rw [← (h.tag n vs e).1]
    have := (h.tag n vs e).2
    exact loadN_congr _ _ fun x h1 h2 => hm x (by omega) (by omega)
  · intro i t off v e1 e2 e3
    have := hf.inside i t off e1 e2
    rw [loadN_congr (m' := m) _ _ fun x h1 h2 => hm x (by omega) (by omega)]
    exact (t3 i t off v e1 e2 e3).append

theorem Shape.bind {Γ : Nat → Option Ty} {σ : AState} {s : CState} (h : Shape Γ σ s) (d : Nat) (v : Val) (x : Nat)
    (ty : Ty) (hx : x < 256 ^ fieldSize nativeConv ty) :
    Shape (fun n => if n = d then some ty else Γ n) (σ.bindReg d v)
      ⟨fun n => if n = d then some ⟨x, ty⟩ else s.regs n, s.mem, s.blocks⟩ := by
  refine ⟨h.blocks, fun d' v' h' => ?_⟩
  simp only [AState.bindReg] at h'
  by_cases hd : d' = d
  · simp [hd, hx]
  · simp only [hd, if_false] at h' ⊢
    exact h.types d' v' h'

theorem Holds.bind {idx : Decl → UInt32} {m0 : Mem} {σ : AState} {s : CState} (h : Holds idx m0 σ s) (d : Nat)
    (v : Val) (x : Nat) (ty : Ty) (hx : Rep s.blocks v x) :
    Holds idx m0 (σ.bindReg d v) ⟨fun n => if n = d then some ⟨x, ty⟩ else s.regs n, s.mem, s.blocks⟩ := by
  refine ⟨fun d' v' r' h1 h2 => ?_, h.objs, h.outside⟩
  simp only [AState.bindReg] at h1
  simp only at h2
  by_cases hd : d' = d
  · simp only [hd, if_true, Option.some.injEq] at h1 h2
    subst h1 h2
    exact hx
  · simp only [hd, if_false] at h1 h2
    exact h.values d' v' r' h1 h2

end Verif.Fields
