import Verif.Layout.Proofs
/-!
# Properties C13 and C14: layouts
-/
namespace Verif.Layout

/-- C13: in a struct layout the fields, in declaration order, are aligned, do not overlap and lie
inside the object. -/
theorem C13_fields_fit (conv : Ty → Ty) (fields : List (String × Ty))
    (h : fields.length < 2 ^ 27) :
    Fits conv (fields.map (·.2)) ((computeStructLayout conv fields).fieldOffsets.map UInt32.toNat)
      (computeStructLayout conv fields).totalSize.toNat := by
  obtain ⟨offs, e, m, h1, h2, h3, h4, h5, h6, h7⟩ :=
    fold_spec conv (fields.map (·.2)) ⟨0, 1, []⟩ (by unfold Pow; simp) (by simp; omega)
  rw [List.foldl_map] at h1
  simp only [UInt32.toNat_zero, List.length_map] at h2 h3
  have hu := alignUp_nat (o := e) h4 (by omega)
  have hs := up_spec e.toNat m.toNat h4.toNat.1
  simp only [computeStructLayout, h1, List.nil_append]
  exact h2.fits.2.2.mono (by rw [hu]; exact hs.1)

/-- C13: the size is a multiple of the alignment, and the alignment is a multiple of every field's
alignment. -/
theorem C13_alignment (conv : Ty → Ty) (fields : List (String × Ty)) (h : fields.length < 2 ^ 27) :
    let l := computeStructLayout conv fields
    0 < l.alignment.toNat ∧ l.totalSize.toNat % l.alignment.toNat = 0 ∧
    (∀ f ∈ fields, l.alignment.toNat % fieldAlign conv f.2 = 0) ∧
    (l.alignment.toNat = 1 ∨ ∃ f ∈ fields, l.alignment.toNat = fieldAlign conv f.2) := by
  obtain ⟨offs, e, m, h1, h2, h3, h4, h5, h6, h7⟩ :=
    fold_spec conv (fields.map (·.2)) ⟨0, 1, []⟩ (by unfold Pow; simp) (by simp; omega)
  rw [List.foldl_map] at h1
  simp only [UInt32.toNat_zero, List.length_map] at h2 h3
  have hu := alignUp_nat (o := e) h4 (by omega)
  have hs := up_spec e.toNat m.toNat h4.toNat.1
  simp only [computeStructLayout, h1]
  refine ⟨h4.toNat.1, by rw [hu]; exact hs.2.2.1, ?_, ?_⟩
  · intro f hf
    have e := (sizeAlign_nat (conv f.2)).2
    have := h6 f.2 (List.mem_map_of_mem hf)
    have := (sizeAlign_cases (conv f.2)).1.dvd h4 (by rw [e]; exact this)
    rw [e] at this
    exact this
  · rcases h7 with h7 | ⟨t, ht, he⟩
    · left; rw [h7]; rfl
    · right
      obtain ⟨f, hf, rfl⟩ := List.mem_map.mp ht
      exact ⟨f, hf, he⟩

/-- C13: no other placement in declaration order puts any field earlier or is smaller. -/
theorem C13_minimal (conv : Ty → Ty) (fields : List (String × Ty)) (h : fields.length < 2 ^ 27)
    (offs : List Nat) (total : Nat) (hf : Fits conv (fields.map (·.2)) offs total)
    (ht : total % (computeStructLayout conv fields).alignment.toNat = 0) :
    (computeStructLayout conv fields).totalSize.toNat ≤ total ∧
    ∀ (i : Nat) o o', ((computeStructLayout conv fields).fieldOffsets.map UInt32.toNat)[i]? = some o →
      offs[i]? = some o' → o ≤ o' := by
  obtain ⟨os, e, m, h1, h2, h3, h4, h5, h6, h7⟩ :=
    fold_spec conv (fields.map (·.2)) ⟨0, 1, []⟩ (by unfold Pow; simp) (by simp; omega)
  rw [List.foldl_map] at h1
  simp only [UInt32.toNat_zero, List.length_map] at h2 h3
  have hu := alignUp_nat (o := e) h4 (by omega)
  have hs := up_spec e.toNat m.toNat h4.toNat.1
  obtain ⟨m1, m2⟩ := h2.minimal hf (by simp) (by omega)
  simp only [computeStructLayout, h1, List.nil_append] at ht ⊢
  exact ⟨by rw [hu]; exact hs.2.2.2 total m2 ht, m1⟩

/-- struct { a: i8, b: i64, c: i16, d: i32 } -/
example : computeStructLayout id
    [("a", ⟨"core", "i8"⟩), ("b", ⟨"core", "i64"⟩), ("c", ⟨"core", "i16"⟩), ("d", ⟨"core", "i32"⟩)]
    = ⟨[0, 8, 16, 20], 24, 8⟩ := by decide

/-- C14: for every variant, its fields (at their absolute positions) are aligned, do not overlap
each other or the tag, and lie inside the object; its tag is its position in the declaration. -/
theorem C14_variant_fits (conv : Ty → Ty) (variants : List (String × List Ty))
    (hv : variants.length < 2 ^ 32) (hf : ∀ v ∈ variants, v.2.length < 2 ^ 27)
    (k : Nat) (name : String) (tys : List Ty) (hk : variants[k]? = some (name, tys)) :
    let l := computeEnumLayout conv variants
    ∃ v, l.variantLayouts[k]? = some v ∧ v.name = name ∧ v.tagValue.toNat = k ∧
      Fits conv tys (v.fieldOffsets.map fun o => l.fieldsOffset.toNat + o.toNat) l.totalSize.toNat ∧
      ∀ o ∈ v.fieldOffsets, l.tagOffset.toNat + l.tagSize.toNat ≤ l.fieldsOffset.toNat + o.toNat := by
  obtain ⟨ls, mx, h1, h2, h3, h4, h5, h6⟩ := variants_spec conv variants ⟨[], 0, 8⟩ 0 rfl
    (by decide) (by decide) (fun v hv => by have := hf v hv; omega)
  obtain ⟨v, j1, j2, j3, j4, j5⟩ := h6 k name tys hk
  have hkl : k < variants.length := by
    obtain ⟨hlt, _⟩ := List.getElem?_eq_some_iff.mp hk; exact hlt
  simp only [computeEnumLayout, h1, List.nil_append]
  refine ⟨v, j1, j2, ?_, ?_, ?_⟩
  · rw [j3]; simp; omega
  · have h8 : enumFieldsOffset.toNat = 8 := rfl
    have htot : (enumFieldsOffset + mx).toNat = 8 + mx.toNat := by
      rw [UInt32.toNat_add, h8]; omega
    rw [h8, htot]
    refine ⟨by have := j4.count; simpa using this, ?_, ?_, ?_⟩
    · intro i t o ht ho
      simp only [List.getElem?_map, Option.map_eq_some_iff] at ho
      obtain ⟨o', ho', rfl⟩ := ho
      have := j4.aligned i t o'.toNat ht (by simp [ho'])
      have h8 := (sizeAlign_cases (conv t)).1.toNat.2.2
      have e : fieldAlign conv t = (typeSizeAlign (conv t)).2.toNat := (sizeAlign_nat (conv t)).2.symm
      rw [e] at this ⊢
      rw [Nat.add_mod, this, h8]; simp
    · intro i j t o o' hij ht ho ho'
      simp only [List.getElem?_map, Option.map_eq_some_iff] at ho ho'
      obtain ⟨a, ha, rfl⟩ := ho
      obtain ⟨b, hb, rfl⟩ := ho'
      have := j4.disjoint i j t a.toNat b.toNat hij ht (by simp [ha]) (by simp [hb])
      omega
    · intro i t o ht ho
      simp only [List.getElem?_map, Option.map_eq_some_iff] at ho
      obtain ⟨a, ha, rfl⟩ := ho
      have := j4.inside i t a.toNat ht (by simp [ha])
      omega
  · intro o _
    show 0 + 4 ≤ 8 + o.toNat
    omega

/-- C14: there is one layout per variant, so different variants have different tags; the size is a
multiple of the alignment, which suits the tag and every field. -/
theorem C14_shape (conv : Ty → Ty) (variants : List (String × List Ty))
    (hf : ∀ v ∈ variants, v.2.length < 2 ^ 27) :
    let l := computeEnumLayout conv variants
    l.variantLayouts.length = variants.length ∧
    l.totalSize.toNat % l.alignment.toNat = 0 ∧ l.alignment.toNat % l.tagSize.toNat = 0 ∧
    ∀ v ∈ variants, ∀ t ∈ v.2, l.alignment.toNat % fieldAlign conv t = 0 := by
  obtain ⟨ls, mx, h1, h2, h3, h4, h5, h6⟩ := variants_spec conv variants ⟨[], 0, 8⟩ 0 rfl
    (by decide) (by decide) (fun v hv => by have := hf v hv; omega)
  simp only [computeEnumLayout, h1, List.nil_append]
  refine ⟨h2, ?_, by decide, ?_⟩
  · have h8 : enumFieldsOffset.toNat = 8 := rfl
    have h8' : (8 : UInt32).toNat = 8 := rfl
    rw [UInt32.toNat_add, h8, h8']; omega
  · intro v _ t _
    have e := (sizeAlign_nat (conv t)).2
    have := (sizeAlign_cases (conv t)).1.toNat.2.2
    rw [e] at this
    exact this

/-- C14: variants found by name are the declared ones (names in one enum are distinct). -/
theorem C14_find_variant (conv : Ty → Ty) (variants : List (String × List Ty))
    (hv : variants.length < 2 ^ 32) (hf : ∀ v ∈ variants, v.2.length < 2 ^ 27)
    (hn : (variants.map (·.1)).Nodup) (k : Nat) (name : String) (tys : List Ty)
    (hk : variants[k]? = some (name, tys)) :
    ∃ v, findVariantLayout (computeEnumLayout conv variants) name = some v ∧ v.name = name ∧
      v.tagValue.toNat = k := by
  obtain ⟨v, j1, j2, j3, _⟩ := C14_variant_fits conv variants hv hf k name tys hk
  refine ⟨v, ?_, j2, j3⟩
  have hlen := (C14_shape conv variants hf).1
  rw [findVariantLayout, List.find?_eq_some_iff_getElem]
  refine ⟨by simp [j2], k, ?_⟩
  obtain ⟨hlt, hget⟩ := List.getElem?_eq_some_iff.mp j1
  refine ⟨hlt, hget, ?_⟩
  intro j hj
  have hjv : j < variants.length := by rw [← hlen]; omega
  obtain ⟨w, w1, w2, w3, _⟩ := C14_variant_fits conv variants hv hf j variants[j].1 variants[j].2
    (by simp [hjv])
  obtain ⟨hlt', hget'⟩ := List.getElem?_eq_some_iff.mp w1
  rw [hget']
  simp only [w2, Bool.not_eq_true', beq_eq_false_iff_ne, ne_eq]
  intro he
  have hk' : k < variants.length := (List.getElem?_eq_some_iff.mp hk).1
  have := (List.getElem_inj (i := j) (j := k) (h₀ := by simpa using hjv) (h₁ := by simpa using hk') hn).mp
    (by
      have := (List.getElem?_eq_some_iff.mp hk).2
      simp [he, this])
  omega

/-- enum { None, Pair(i8, i64), One(i32) } -/
example : computeEnumLayout id
    [("None", []), ("Pair", [⟨"core", "i8"⟩, ⟨"core", "i64"⟩]), ("One", [⟨"core", "i32"⟩])]
    = ⟨0, 4, 8, [⟨"None", 0, [], 0⟩, ⟨"Pair", 1, [0, 8], 16⟩, ⟨"One", 2, [0], 8⟩], 24, 8⟩ := by
  decide

end Verif.Layout
