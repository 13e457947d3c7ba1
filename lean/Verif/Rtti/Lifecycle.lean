import Verif.Rtti.Proofs
import Mathlib.Tactic.ByContra
/-!
# Construction followed by destruction
-/
namespace Verif.Rtti
open Verif.Layout

theorem struct_total_le (conv : Ty → Ty) (fields : List (String × Ty)) (h : fields.length < 2 ^ 27) :
    (computeStructLayout conv fields).totalSize.toNat < 2 ^ 31 := by
  obtain ⟨offs, e, m, h1, h2, h3, h4, h5, h6, h7⟩ :=
    fold_spec conv (fields.map (·.2)) ⟨0, 1, []⟩ (by unfold Layout.Pow; simp) (by simp; omega)
  rw [List.foldl_map] at h1
  simp only [UInt32.toNat_zero, List.length_map] at h2 h3
  have hu := alignUp_nat (o := e) h4 (by omega)
  have hs := up_spec e.toNat m.toNat h4.toNat.1
  have := h4.toNat.2.1
  simp only [computeStructLayout, h1]
  have hu' : (alignUp e m).toNat = up e.toNat m.toNat := hu
  rw [hu']
  omega

theorem variants_max_le (conv : Ty → Ty) : ∀ (vs : List (String × List Ty)) (acc : EnumAcc) (tag : Nat),
    acc.maxAlign = 8 → acc.maxFieldsSize.toNat + 8 ≤ 2 ^ 31 → (∀ v ∈ vs, v.2.length < 2 ^ 27) →
    (placeVariants conv acc tag vs).maxFieldsSize.toNat + 8 ≤ 2 ^ 31
  | [], acc, tag, _, hm, _ => hm
  | v :: vs, acc, tag, ha, hm, hb => by
    have hv := hb v List.mem_cons_self
    obtain ⟨offs, e, m, h1, h2, h3, h4, h5, h6, h7⟩ :=
      fold_spec conv v.2 ⟨0, acc.maxAlign, []⟩ (by rw [ha]; unfold Layout.Pow; simp) (by simp; omega)
    simp only [UInt32.toNat_zero] at h2 h3
    have hm8 : m = 8 := max8 h4 (by rw [ha] at h5; exact h5)
    subst hm8
    have hsz : (alignUp e 8).toNat = up e.toNat 8 := alignUp_nat h4 (by omega)
    obtain ⟨u1, u2, u3, _⟩ := up_spec e.toNat 8 (by decide)
    rw [placeVariants]
    refine variants_max_le conv vs _ (tag + 1) ?_ ?_ (fun v hv => hb v (List.mem_cons_of_mem _ hv))
    · simp [placeVariant, h1]
    · simp only [placeVariant, h1]
      rw [max_toNat, hsz]
      omega

theorem enum_total_le (conv : Ty → Ty) (vs : List (String × List Ty)) (h : ∀ v ∈ vs, v.2.length < 2 ^ 27) :
    (computeEnumLayout conv vs).totalSize.toNat ≤ 2 ^ 31 := by
  have := variants_max_le conv vs ⟨[], 0, 8⟩ 0 rfl (by decide) h
  simp only [computeEnumLayout]
  rw [UInt32.toNat_add]
  have h8 : enumFieldsOffset.toNat = 8 := rfl
  omega

theorem enum_total_ge (conv : Ty → Ty) (vs : List (String × List Ty)) (h : ∀ v ∈ vs, v.2.length < 2 ^ 27) :
    8 ≤ (computeEnumLayout conv vs).totalSize.toNat := by
  have := variants_max_le conv vs ⟨[], 0, 8⟩ 0 rfl (by decide) h
  simp only [computeEnumLayout]
  rw [UInt32.toNat_add]
  have h8 : enumFieldsOffset.toNat = 8 := rfl
  omega

theorem header_run (w : World) (s : State) (total idx : UInt32) (k : Nat)
    (hr : w.allocated + 2 ^ 32 ≤ 2 ^ 64) :
    ∃ s1, steps w s (header total idx k) = some s1 ∧ s1.events = s.events ++ [.alloc (total.toNat + 8)] ∧
      s1.env (k + 5) = some (w.allocated + 8) ∧ (∀ x, x < k → s1.env x = s.env x) ∧
      s1.mem = storeN (storeN s.mem w.allocated 1 4) (w.allocated + 4) idx.toNat 4 := by
  have h1 : (((total.toNat : Int) + 8) % 18446744073709551616).toNat = total.toNat + 8 := by
    have := total.toNat_lt; omega
  have h2 : ((idx.toNat : Int) % 4294967296).toNat = idx.toNat := by
    have := idx.toNat_lt; omega
  have h3 : addr w.allocated 0 = w.allocated := by unfold addr; omega
  have h4 : addr w.allocated 4 = w.allocated + 4 := by unfold addr; omega
  have h5 : addr w.allocated 8 = w.allocated + 8 := by unfold addr; omega
  refine ⟨{ ((((((s.set k (total.toNat + 8)).set (k + 1) w.allocated).set (k + 2) 1).set (k + 3)
      idx.toNat).set (k + 4) 8).set (k + 5) (w.allocated + 8)) with
      events := s.events ++ [.alloc (total.toNat + 8)]
      mem := storeN (storeN s.mem w.allocated 1 4) (w.allocated + 4) idx.toNat 4 }, ?_, rfl, ?_, ?_, rfl⟩
  · simp [header, steps, step, State.set, h1, h2, h3, h4, h5]
  · simp [State.set]
  · intro x hx
    simp [State.set, show x ≠ k from by omega, show x ≠ k + 1 from by omega,
      show x ≠ k + 2 from by omega, show x ≠ k + 3 from by omega, show x ≠ k + 4 from by omega,
      show x ≠ k + 5 from by omega]

theorem finish_run (w : World) (s : State) (k pl : Nat) (h : s.env (k + 5) = some pl) (hp : pl < 2 ^ 64) :
    ∃ s1, steps w s [.iconst (k + 6) 0 8, .iadd (k + 7) (k + 5) (k + 6)] = some s1 ∧
      s1.env (k + 7) = some pl ∧ s1.mem = s.mem ∧ s1.events = s.events := by
  have h0 : addr pl 0 = pl := by unfold addr; omega
  refine ⟨(s.set (k + 6) 0).set (k + 7) pl, ?_, by simp [State.set], rfl, rfl⟩
  simp [steps, step, State.set, h, h0]

theorem fits_off {tys : List Ty} {offs : List Nat} {total : Nat} (hf : Fits nativeConv tys offs total) :
    ∀ o ∈ offs, o + 1 ≤ total := by
  intro o ho
  obtain ⟨i, hi, rfl⟩ := List.mem_iff_getElem.mp ho
  have hi' : i < tys.length := by rw [← hf.count]; exact hi
  have := hf.inside i _ _ (List.getElem?_eq_getElem hi') (List.getElem?_eq_getElem hi)
  have : 0 < fieldSize nativeConv tys[i] := fieldAlign_pos nativeConv _
  omega

/-- What is left after both constructions: the fields hold the values, the count and the type index are
stored, and memory outside the block is as it was. -/
structure Built (w : World) (m0 : Mem) (total idx : UInt32) (tys : List Ty) (offs vals : List Nat) (result : Nat)
    (s : State) : Prop where
  events : s.events = [.alloc (total.toNat + 8)]
  result : s.env result = some (w.allocated + 8)
  index : loadN s.mem (w.allocated + 4) 4 = idx.toNat
  fields : ∀ x ∈ (tys.zip offs).zip vals,
      loadN s.mem (w.allocated + 8 + x.1.2) (width nativeConv x.1.1) = x.2 ∧
      x.1.2 + width nativeConv x.1.1 ≤ total.toNat
  count : loadN s.mem w.allocated 4 = 1
  frame : ∀ a, (a < w.allocated ∨ w.allocated + 8 + total.toNat ≤ a) → s.mem a = m0 a

theorem count_stored (m : Mem) (raw idx : Nat) :
    loadN (storeN (storeN m raw 1 4) (raw + 4) idx 4) raw 4 = 1 := by
  rw [loadN_congr (m' := storeN m raw 1 4) 4 raw fun x h1 h2 => storeN_other (by omega)]
  exact loadN_storeN _ _ _ _ (by omega)

theorem fields_frame {tys : List Ty} {offs : List Nat} {total : Nat} (pl : Nat)
    (hf : Fits nativeConv tys offs total) (vals : List Nat) (m : Mem) (a : Nat)
    (ha : a < pl ∨ pl + total ≤ a) : storeAll m (fieldList pl tys offs vals) a = m a := by
  refine storeAll_other _ m a fun e he => ?_
  obtain ⟨x, hx, rfl⟩ := List.mem_map.mp he
  obtain ⟨i, hi, rfl⟩ := List.mem_iff_getElem.mp hx
  have hz := List.getElem?_eq_getElem hi
  rw [List.getElem?_zip_eq_some] at hz
  obtain ⟨h1, _⟩ := hz
  rw [List.getElem?_zip_eq_some] at h1
  have := hf.inside i _ _ h1.1 h1.2
  simp only [width_eq]
  omega

theorem index_stored (m : Mem) (raw idx : Nat) (h : idx < 2 ^ 32) :
    loadN (storeN (storeN m raw 1 4) (raw + 4) idx 4) (raw + 4) 4 = idx :=
  loadN_storeN _ _ _ _ (by omega)

theorem struct_built (w : World) (hw : w.allocated + 2 ^ 32 ≤ 2 ^ 64) (m0 : Mem) (idx : UInt32)
    (fields : List (String × Ty)) (hlen : fields.length < 2 ^ 27) (vals : List Nat)
    (hv : FitFields (fields.map (·.2)) vals) :
    ∃ code s, structNew nativeConv (some idx) fields vals.length = some code ∧
      steps w (operands vals m0) code = some s ∧
      Built w m0 (computeStructLayout nativeConv fields).totalSize idx (fields.map (·.2))
        ((computeStructLayout nativeConv fields).fieldOffsets.map UInt32.toNat) vals (vals.length + 7) s := by
  have hf := C13_fields_fit nativeConv fields hlen
  have ht := struct_total_le nativeConv fields hlen
  generalize hL : computeStructLayout nativeConv fields = L at *
  have hl2 : (fields.map (·.2)).length = vals.length := List.Forall₂.length_eq hv
  have hc := hf.count
  simp only [List.length_map] at hc hl2
  have hoff := fits_off hf
  have hconv : L.fieldOffsets.map asI32 = (L.fieldOffsets.map UInt32.toNat).map Int.ofNat := by
    rw [List.map_map]
    refine List.map_congr_left fun o ho => ?_
    have := hoff o.toNat (List.mem_map_of_mem ho)
    exact asI32_nat (by omega)
  obtain ⟨s1, a1, a2, a3, a4, a5⟩ := header_run w (operands vals m0) L.totalSize idx vals.length hw
  have b1 := fieldStores_run w (vals.length + 5) (w.allocated + 8) (fields.map (·.2))
    (L.fieldOffsets.map UInt32.toNat) vals 0 s1 (by simpa using hc) (by simpa using hl2.symm) a3
    (fun k hk => by rw [a4 _ (by omega)]; simp [operands])
    (fun o ho => by have := hoff o ho; omega)
  obtain ⟨s3, c1, c2, c3, c4⟩ := finish_run w { s1 with mem := storeAll s1.mem (fieldList (w.allocated + 8)
    (fields.map (·.2)) (L.fieldOffsets.map UInt32.toNat) vals) } vals.length (w.allocated + 8) a3 (by omega)
  obtain ⟨d1, d2⟩ := fields_stored (w.allocated + 8) hf hv s1.mem
  refine ⟨header L.totalSize idx vals.length ++
        fieldStores nativeConv (vals.length + 5) 0 ((fields.map (·.2)).zip (L.fieldOffsets.map asI32)) ++
        [.iconst (vals.length + 6) 0 8, .iadd (vals.length + 7) (vals.length + 5) (vals.length + 6)],
    s3, ?_, ?_, ⟨by rw [c4]; simp [a2, operands], c2, ?_, ?_, ?_, ?_⟩⟩
  · rw [structNew, hL]
    rw [if_pos (by omega)]
  · rw [steps_append, steps_append, a1, Option.bind_some, hconv, b1, Option.bind_some, c1]
  · rw [c3, ← index_stored (operands vals m0).mem w.allocated idx.toNat idx.toNat_lt, ← a5]
    exact loadN_congr 4 _ fun x h1 h2 => d2 x fun o _ => by omega
  · rw [c3]; exact d1
  · rw [c3, ← count_stored (operands vals m0).mem w.allocated idx.toNat, ← a5]
    exact loadN_congr 4 _ fun x h1 h2 => d2 x fun o _ => by omega
  · intro a ha
    rw [c3]
    show storeAll s1.mem _ a = _
    rw [fields_frame _ hf vals s1.mem a (by omega), a5, storeN_other (by omega), storeN_other (by omega)]
    rfl

theorem enum_built (w : World) (hw : w.allocated + 2 ^ 32 ≤ 2 ^ 64) (m0 : Mem) (idx : UInt32)
    (variants : List (String × List Ty)) (hcount : variants.length < 2 ^ 32)
    (hlen : ∀ v ∈ variants, v.2.length < 2 ^ 27) (hn : (variants.map (·.1)).Nodup)
    (k : Nat) (name : String) (tys : List Ty) (hk : variants[k]? = some (name, tys)) (vals : List Nat)
    (hv : FitFields tys vals) (v : VariantLayout)
    (hvl : (computeEnumLayout nativeConv variants).variantLayouts[k]? = some v) :
    ∃ code s, variantNew nativeConv (some idx) variants name tys vals.length = some code ∧
      steps w (operands vals m0) code = some s ∧
      loadN s.mem (w.allocated + 8) 4 = k ∧
      Built w m0 (computeEnumLayout nativeConv variants).totalSize idx tys
        (v.fieldOffsets.map fun o => (computeEnumLayout nativeConv variants).fieldsOffset.toNat + o.toNat)
        vals (vals.length + 7) s := by
  obtain ⟨v', w1, w2, w3, hf, w5⟩ := C14_variant_fits nativeConv variants hcount hlen k name tys hk
  rw [hvl] at w1; cases w1
  have ht := enum_total_le nativeConv variants hlen
  have hge := enum_total_ge nativeConv variants hlen
  have hkl : k < 2 ^ 32 := by
    obtain ⟨hlt, _⟩ := List.getElem?_eq_some_iff.mp hk; omega
  have hfind : findVariantLayout (computeEnumLayout nativeConv variants) name = some v := by
    obtain ⟨v', f1, f2, f3⟩ := C14_find_variant nativeConv variants hcount hlen hn k name tys hk
    have hm := List.mem_of_find?_eq_some f1
    obtain ⟨j, hj, hje⟩ := List.mem_iff_getElem.mp hm
    have hls := (C14_shape nativeConv variants hlen).1
    have hj' : j < variants.length := by rw [← hls]; exact hj
    obtain ⟨v'', g1, g2, g3, _⟩ := C14_variant_fits nativeConv variants hcount hlen j variants[j].1
      variants[j].2 (by simp [hj'])
    rw [List.getElem?_eq_getElem hj, hje] at g1
    cases g1
    have : j = k := by omega
    subst this
    rw [List.getElem?_eq_getElem hj, hje] at hvl
    cases hvl
    exact f1
  generalize hL : computeEnumLayout nativeConv variants = L at *
  have hto : L.tagOffset.toNat = 0 := by rw [← hL]; rfl
  have hts : L.tagSize.toNat = 4 := by rw [← hL]; rfl
  have hl2 : tys.length = vals.length := List.Forall₂.length_eq hv
  have hc := hf.count
  simp only [List.length_map] at hc
  have hoff := fits_off hf
  have hconv : (v.fieldOffsets.map fun o => asI32 (L.fieldsOffset + o)) =
      (v.fieldOffsets.map fun o => L.fieldsOffset.toNat + o.toNat).map Int.ofNat := by
    rw [List.map_map]
    refine List.map_congr_left fun o ho => ?_
    have := hoff (L.fieldsOffset.toNat + o.toNat) (List.mem_map.mpr ⟨o, ho, rfl⟩)
    have h5 : (L.fieldsOffset + o).toNat = L.fieldsOffset.toNat + o.toNat := by
      rw [UInt32.toNat_add]; omega
    rw [asI32_nat (by omega), h5]
    rfl
  obtain ⟨s1, a1, a2, a3, a4, a5⟩ := header_run w (operands vals m0) L.totalSize idx vals.length hw
  let s2 : State := { (s1.set (vals.length + 8) k) with mem := storeN s1.mem (w.allocated + 8) k 4 }
  have htag : steps w s1 [.iconst (vals.length + 8) v.tagValue.toNat 4,
      .store (vals.length + 8) (vals.length + 5) 4 0] = some s2 := by
    have h0 : addr (w.allocated + 8) 0 = w.allocated + 8 := by unfold addr; omega
    have h1 : ((v.tagValue.toNat : Int) % 4294967296).toNat = k := by omega
    simp [steps, step, State.set, a3, h0, h1, s2]
  have b1 := fieldStores_run w (vals.length + 5) (w.allocated + 8) tys
    (v.fieldOffsets.map fun o => L.fieldsOffset.toNat + o.toNat) vals 0 s2 (by simpa using hc) hl2.symm
    (by simp [s2, State.set, a3])
    (fun j hj => by
      simp only [s2, State.set, Nat.zero_add]
      rw [if_neg (by omega), a4 _ hj]; simp [operands])
    (fun o ho => by have := hoff o ho; omega)
  obtain ⟨s3, c1, c2, c3, c4⟩ := finish_run w { s2 with mem := storeAll s2.mem (fieldList (w.allocated + 8)
    tys (v.fieldOffsets.map fun o => L.fieldsOffset.toNat + o.toNat) vals) } vals.length
    (w.allocated + 8) (by simp [s2, State.set, a3]) (by omega)
  obtain ⟨d1, d2⟩ := fields_stored (w.allocated + 8) hf hv s2.mem
  have hbefore : ∀ a, a < w.allocated + 8 + 4 → s3.mem a = s2.mem a := by
    intro a ha
    rw [c3]
    refine d2 a fun o ho => ?_
    obtain ⟨u, hu, rfl⟩ := List.mem_map.mp ho
    have := w5 u hu
    omega
  refine ⟨header L.totalSize idx vals.length ++
        [.iconst (vals.length + 8) v.tagValue.toNat 4, .store (vals.length + 8) (vals.length + 5) 4 0] ++
        fieldStores nativeConv (vals.length + 5) 0
          (tys.zip (v.fieldOffsets.map fun o => asI32 (L.fieldsOffset + o))) ++
        [.iconst (vals.length + 6) 0 8, .iadd (vals.length + 7) (vals.length + 5) (vals.length + 6)],
    s3, ?_, ?_, ?_, ⟨by rw [c4]; simp [s2, State.set, a2, operands], c2, ?_, ?_, ?_, ?_⟩⟩
  · simp only [variantNew, hL, hfind]
    rw [if_pos (by omega)]
  · rw [steps_append, steps_append, steps_append, a1, Option.bind_some, htag, Option.bind_some, hconv, b1,
      Option.bind_some, c1]
  · rw [loadN_congr (m' := s2.mem) 4 _ fun x h1 h2 => hbefore x (by omega)]
    exact loadN_storeN _ _ _ _ (by omega)
  · rw [← index_stored (operands vals m0).mem w.allocated idx.toNat idx.toNat_lt, ← a5]
    refine loadN_congr 4 _ fun x h1 h2 => ?_
    rw [hbefore x (by omega)]
    exact storeN_other (by omega)
  · rw [c3]; exact d1
  · rw [← count_stored (operands vals m0).mem w.allocated idx.toNat, ← a5]
    refine loadN_congr 4 _ fun x h1 h2 => ?_
    rw [hbefore x (by omega)]
    exact storeN_other (by omega)
  · intro a ha
    rw [c3]
    show storeAll s2.mem _ a = _
    rw [fields_frame _ hf vals s2.mem a (by omega)]
    show storeN s1.mem (w.allocated + 8) k 4 a = _
    rw [storeN_other (by omega), a5, storeN_other (by omega), storeN_other (by omega)]
    rfl

/-! ## Destruction -/

theorem called_inv (payload : Nat) (hi : Nat) (m : Mem) : Inv payload hi m (called payload m) :=
  ⟨rfl, fun _ _ _ => rfl⟩

theorem struct_destroyed {w : World} {raw : Nat} (fields : List (String × Ty)) {m : Mem}
    (hlen : fields.length < 2 ^ 27)
    (hs : ∀ f ∈ fields, f.2 ≠ ⟨"tribute_rt", "anyref"⟩ ∧ (f.1 = "func_ptr" ↔ isRawPointer f.2 = true))
    (hraw : raw + 2 ^ 32 ≤ 2 ^ 64)
    (hw : Leaves w (raw + 8) (raw + 8 + (computeStructLayout nativeConv fields).totalSize.toNat)) :
    Returns w (structDestructor nativeConv fields) (raw + 8) m
      (relOf m (raw + 8) (refOffsets (fields.map (·.2))
        ((computeStructLayout nativeConv fields).fieldOffsets.map UInt32.toNat)) ++
        [.dealloc raw ((computeStructLayout nativeConv fields).totalSize.toNat + 8)]) := by
  have hf := C13_fields_fit nativeConv fields hlen
  have ht := struct_total_le nativeConv fields hlen
  have hoff := fits_off hf
  have hp : structPtrOffsets nativeConv fields = (refOffsets (fields.map (·.2))
      ((computeStructLayout nativeConv fields).fieldOffsets.map UInt32.toNat)).map Int.ofNat :=
    structPtrOffsets_eq fields _ hs fun o ho => by
      have := hoff o.toNat (List.mem_map_of_mem ho); omega
  have hro : ∀ o ∈ refOffsets (fields.map (·.2))
      ((computeStructLayout nativeConv fields).fieldOffsets.map UInt32.toNat),
      o + 8 ≤ (computeStructLayout nativeConv fields).totalSize.toNat := by
    intro o ho
    obtain ⟨x, hx, hxo⟩ := List.mem_filterMap.mp ho
    split at hxo
    · rename_i hr
      cases hxo
      obtain ⟨i, hi, rfl⟩ := List.mem_iff_getElem.mp hx
      have hz := List.getElem?_eq_getElem hi
      rw [List.getElem?_zip_eq_some] at hz
      have := hf.inside i _ _ hz.1 hz.2
      have hw8 : fieldSize nativeConv (((fields.map (·.2)).zip
          ((computeStructLayout nativeConv fields).fieldOffsets.map UInt32.toNat))[i]).1 = 8 := by
        rw [← width_eq]
        refine width_ptr ?_
        have hmem : (((fields.map (·.2)).zip
          ((computeStructLayout nativeConv fields).fieldOffsets.map UInt32.toNat))[i]).1 ∈
          fields.map (·.2) := List.mem_of_getElem? hz.1
        obtain ⟨f, hf, hfe⟩ := List.mem_map.mp hmem
        rw [isPtr_eq (by rw [← hfe]; exact (hs f hf).1), hr]; rfl
      omega
    · cases hxo
  rw [structDestructor.eq_1, hp]
  generalize hro' : refOffsets (fields.map (·.2))
      ((computeStructLayout nativeConv fields).fieldOffsets.map UInt32.toNat) = ro at *
  generalize (computeStructLayout nativeConv fields).totalSize = total at *
  have hi0 := called_inv (raw + 8) (raw + 8 + total.toNat) m
  cases ro with
  | nil =>
    obtain ⟨s', ⟨fuel, r1⟩, r2⟩ := dealloc_run (w := w) (code := [(Label.entry, deallocBlock total)])
      (l := .entry) (by rfl) (by omega) (by omega) hi0
    exact ⟨fuel, s', r1, r2⟩
  | cons o ro =>
    simp only [List.map_cons]
    generalize hcode : (Label.entry, checkBlock (Int.ofNat o) (chain 0 1 (ro.map Int.ofNat)).1
      (.release 0 0)) :: (Label.release 0 0, releaseBlock (Int.ofNat o) (chain 0 1 (ro.map Int.ofNat)).1) ::
      (chain 0 1 (ro.map Int.ofNat)).2 ++ [(Label.dealloc, deallocBlock total)] = code
    have hnd : (code.map (·.1)).Nodup := by
      rw [← hcode]
      simp only [List.map_cons, List.map_append, List.cons_append, List.nodup_cons, List.mem_cons,
        List.mem_append, List.map_nil, List.not_mem_nil, or_false]
      refine ⟨?_, ?_, ?_⟩
      · rintro (h | h | h)
        · cases h
        · obtain ⟨j', _, h2 | h2⟩ := chain_keys 0 _ _ _ h <;> cases h2
        · cases h
      · rintro (h | h)
        · obtain ⟨j', h1, h2 | h2⟩ := chain_keys 0 _ _ _ h
          · cases h2
          · cases h2; omega
        · cases h
      · refine List.nodup_append.mpr ⟨chain_nodup _ _ _, by simp, ?_⟩
        intro a ha b hb hab
        subst hab
        obtain ⟨j', _, h2⟩ := chain_keys 0 _ _ _ ha
        simp only [List.mem_singleton] at hb
        subst hb
        rcases h2 with h2 | h2 <;> cases h2
    have hlk : ∀ l b, (l, b) ∈ code → code.lookup l = some b := fun l b h => lookup_of_nodup hnd h
    have hchain : ∀ x ∈ (chain 0 1 (ro.map Int.ofNat)).2, code.lookup x.1 = some x.2 := by
      intro x hx
      refine hlk _ _ ?_
      rw [← hcode]
      simp [hx]
    have hentry : code.lookup .entry = some (checkBlock (Int.ofNat o) (chain 0 1 (ro.map Int.ofNat)).1
      (.release 0 0)) := by rw [← hcode]; rfl
    have hrel : code.lookup (.release 0 0) = some (releaseBlock (Int.ofNat o)
      (chain 0 1 (ro.map Int.ofNat)).1) := hlk _ _ (by rw [← hcode]; simp)
    have hde : code.lookup .dealloc = some (deallocBlock total) := hlk _ _ (by rw [← hcode]; simp)
    have hob := hro o List.mem_cons_self
    obtain ⟨s1, i1, e1, r1⟩ := field_run hw (by omega) (by omega) hentry hrel hi0
    obtain ⟨s2, i2, e2, r2⟩ := chain_run hw (by omega) 0 ro 1
      (fun x hx => by have := hro x (List.mem_cons_of_mem _ hx); omega) hchain s1 i1
    obtain ⟨s3, r3, e3⟩ := dealloc_run (w := w) hde (by omega) (by omega) i2
    obtain ⟨fuel, hrun⟩ := r1 s3 (r2 s3 r3)
    refine ⟨fuel, s3, hrun, ?_⟩
    rw [e3, e2, e1]
    show ([] ++ relOf m (raw + 8) [o]) ++ relOf m (raw + 8) ro ++ _ = _
    rw [List.nil_append, ← relOf_append]
    rfl

/-- The first entry for a tag. -/
def firstMatch (tag : Nat) (vs : List (UInt32 × List Nat)) : List Nat :=
  match vs.find? fun v => v.1.toNat == tag with
  | some v => v.2
  | none => []

/-- Offsets as the code has them. -/
def asCode (vs : List (UInt32 × List Nat)) : List (UInt32 × List Int) :=
  vs.map fun v => (v.1, v.2.map Int.ofNat)

/-- One test of the tag. -/
theorem test_run {w : World} {code : Code} {lo hi : Nat} {m0 : Mem} {l t e : Label} {tv : UInt32}
    {tag : Nat} (hl : code.lookup l = some ⟨tagTest tv, .brif 3 t e⟩) {s : State} (hs : Inv lo hi m0 s)
    (ht : s.env 1 = some tag) :
    ∃ s2, Inv lo hi m0 s2 ∧ s2.env 1 = some tag ∧ s2.events = s.events ∧
      ∀ s', Runs w code (if tv.toNat = tag then t else e) s2 s' → Runs w code l s s' := by
  have h1 : ((tv.toNat : Int) % 4294967296).toNat = tv.toNat := by
    have := tv.toNat_lt; omega
  let s2 : State := (s.set 2 tv.toNat).set 3 (if tag = tv.toNat then 1 else 0)
  refine ⟨s2, ⟨by simp [s2, State.set, hs.payload], hs.mem⟩, by simp [s2, State.set, ht], rfl, fun s' h => ?_⟩
  refine Runs.brif hl (s1 := s2) (v := if tag = tv.toNat then 1 else 0) ?_ rfl (by simp [s2, State.set]) ?_
  · simp [tagTest, steps, step, State.set, ht, h1, s2]
  · by_cases hc : tv.toNat = tag
    · rw [if_pos hc] at h
      rw [if_pos hc.symm, if_neg (by decide)]
      exact h
    · rw [if_neg hc] at h
      have hc' : ¬ tag = tv.toNat := fun e => hc e.symm
      simp only [hc', if_false, if_true]
      exact h

theorem tagChain_run {w : World} {code : Code} {lo hi : Nat} {m0 : Mem} (hw : Leaves w lo hi)
    (hhi : hi ≤ 2 ^ 64) (tag : Nat) :
    ∀ (vs : List (UInt32 × List Nat)) (i : Nat), (∀ v ∈ vs, ∀ o ∈ v.2, lo + o + 8 ≤ hi) →
    (∀ x ∈ (tagChain i (asCode vs)).2, code.lookup x.1 = some x.2) →
    (∀ x ∈ chains i (asCode vs), code.lookup x.1 = some x.2) →
    ∀ s, Inv lo hi m0 s → s.env 1 = some tag → ∃ s2, Inv lo hi m0 s2 ∧
      s2.events = s.events ++ relOf m0 lo (firstMatch tag vs) ∧
      ∀ s', Runs w code .dealloc s2 s' → Runs w code (tagChain i (asCode vs)).1 s s'
  | [], i, _, _, _, s, hs, _ => ⟨s, hs, by simp [firstMatch, relOf], fun _ h => h⟩
  | (tv, offs) :: vs, i, ho, ht, hc, s, hs, htag => by
    simp only [asCode, List.map_cons, tagChain, chains] at ht hc ⊢
    obtain ⟨s1, i1, t1, e1, r1⟩ := test_run (ht _ List.mem_cons_self) hs htag
    by_cases hm : tv.toNat = tag
    · obtain ⟨s2, i2, e2, r2⟩ := chain_run hw hhi i offs 0 (ho _ List.mem_cons_self)
        (fun x hx => hc x (List.mem_append_left _ hx)) s1 i1
      refine ⟨s2, i2, ?_, fun s' h => r1 s' ?_⟩
      · rw [e2, e1]; simp [firstMatch, hm]
      · rw [if_pos hm]; exact r2 s' h
    · obtain ⟨s2, i2, e2, r2⟩ := tagChain_run hw hhi tag vs (i + 1)
        (fun v hv => ho v (List.mem_cons_of_mem _ hv)) (fun x hx => ht x (List.mem_cons_of_mem _ hx))
        (fun x hx => hc x (List.mem_append_right _ hx)) s1 i1 t1
      refine ⟨s2, i2, ?_, fun s' h => r1 s' ?_⟩
      · rw [e2, e1]; simp [firstMatch, hm]
      · rw [if_neg hm]; exact r2 s' h

/-- The code of an enum destructor from the pointer offsets of its variants. -/
def enumCode (total : UInt32) : List (UInt32 × List Int) → Code
  | [] => [(.entry, ⟨[], .jump .dealloc⟩), (.dealloc, deallocBlock total)]
  | (tagValue, offs) :: rest =>
    (.entry, ⟨.load 1 0 4 0 :: tagTest tagValue, .brif 3 (chain 0 0 offs).1 (tagChain 1 rest).1⟩) ::
      (tagChain 1 rest).2 ++ (chain 0 0 offs).2 ++ chains 1 rest ++ [(.dealloc, deallocBlock total)]

theorem enumDestructor_eq (conv : Ty → Ty) (variants : List (String × List Ty)) :
    enumDestructor conv variants =
      enumCode (computeEnumLayout conv variants).totalSize (variantsWithPtrs conv variants) := by
  rw [enumDestructor.eq_1, enumCode.eq_def]
  cases variantsWithPtrs conv variants with
  | nil => rfl
  | cons v rest => rfl

theorem enumCode_run {w : World} {raw : Nat} {m : Mem} {total : UInt32}
    (hw : Leaves w (raw + 8) (raw + 8 + total.toNat)) (hraw : raw + 2 ^ 33 ≤ 2 ^ 64) (ht4 : 4 ≤ total.toNat)
    (vs : List (UInt32 × List Nat)) (ho : ∀ v ∈ vs, ∀ o ∈ v.2, o + 8 ≤ total.toNat) :
    Returns w (enumCode total (asCode vs)) (raw + 8) m
      (relOf m (raw + 8) (firstMatch (loadN m (raw + 8) 4) vs) ++ [.dealloc raw (total.toNat + 8)]) := by
  have hi0 := called_inv (raw + 8) (raw + 8 + total.toNat) m
  have hlt := total.toNat_lt
  cases vs with
  | nil =>
    have hj : ∀ s s', Runs w (enumCode total (asCode [])) .dealloc s s' →
        Runs w (enumCode total (asCode [])) .entry s s' :=
      fun s s' h => Runs.jump (s1 := s) (b := ⟨[], .jump .dealloc⟩) rfl rfl rfl h
    obtain ⟨s', r1, r2⟩ := dealloc_run (w := w) (code := enumCode total (asCode []))
      (l := .dealloc) (by rfl) (by omega) (by omega) hi0
    obtain ⟨fuel, hf⟩ := hj _ _ r1
    exact ⟨fuel, s', hf, by rw [r2]; rfl⟩
  | cons v vs =>
    obtain ⟨tv, offs⟩ := v
    generalize hcode : enumCode total (asCode ((tv, offs) :: vs)) = code
    simp only [asCode, List.map_cons, enumCode] at hcode
    have hnd : (code.map (·.1)).Nodup := by
      rw [← hcode]
      simp only [List.map_cons, List.map_append, List.cons_append, List.nodup_cons, List.mem_append,
        List.map_nil, List.mem_singleton]
      refine ⟨?_, ?_⟩
      · rintro (((h | h) | h) | h)
        · obtain ⟨i', _, h2⟩ := tagChain_keys _ _ _ h; cases h2
        · obtain ⟨j', _, h2 | h2⟩ := chain_keys 0 _ _ _ h <;> cases h2
        · obtain ⟨i', j', _, h2 | h2⟩ := chains_keys _ _ _ h <;> cases h2
        · cases h
      · refine List.nodup_append.mpr ⟨List.nodup_append.mpr ⟨List.nodup_append.mpr
          ⟨tagChain_nodup _ _, chain_nodup _ _ _, ?_⟩, chains_nodup _ _, ?_⟩, by simp, ?_⟩
        · intro a ha b hb hab
          subst hab
          obtain ⟨i', _, rfl⟩ := tagChain_keys _ _ _ ha
          obtain ⟨j', _, h2 | h2⟩ := chain_keys 0 _ _ _ hb <;> cases h2
        · intro a ha b hb hab
          subst hab
          obtain ⟨i', j', h3, h2⟩ := chains_keys _ _ _ hb
          rcases List.mem_append.mp ha with ha | ha
          · obtain ⟨i', _, rfl⟩ := tagChain_keys _ _ _ ha
            rcases h2 with h2 | h2 <;> cases h2
          · obtain ⟨j', _, h4⟩ := chain_keys 0 _ _ _ ha
            rcases h2 with rfl | rfl <;> rcases h4 with h4 | h4 <;> cases h4 <;> omega
        · intro a ha b hb hab
          subst hab
          simp only [List.mem_singleton] at hb
          subst hb
          rcases List.mem_append.mp ha with ha | ha
          · rcases List.mem_append.mp ha with ha | ha
            · obtain ⟨i', _, h2⟩ := tagChain_keys _ _ _ ha; cases h2
            · obtain ⟨j', _, h2 | h2⟩ := chain_keys 0 _ _ _ ha <;> cases h2
          · obtain ⟨i', j', _, h2 | h2⟩ := chains_keys _ _ _ ha <;> cases h2
    have hlk : ∀ l b, (l, b) ∈ code → code.lookup l = some b := fun l b h => lookup_of_nodup hnd h
    have hentry : code.lookup .entry = some ⟨.load 1 0 4 0 :: tagTest tv,
        .brif 3 (chain 0 0 (offs.map Int.ofNat)).1 (tagChain 1 (asCode vs)).1⟩ := by
      rw [← hcode]; rfl
    have hde : code.lookup .dealloc = some (deallocBlock total) := hlk _ _ (by rw [← hcode]; simp)
    have htags : ∀ x ∈ (tagChain 1 (asCode vs)).2, code.lookup x.1 = some x.2 := by
      intro x hx
      refine hlk _ _ ?_
      rw [← hcode]
      simp only [List.cons_append, List.mem_cons, List.mem_append]
      exact .inr (.inl (.inl (.inl hx)))
    have hc0 : ∀ x ∈ (chain 0 0 (offs.map Int.ofNat)).2, code.lookup x.1 = some x.2 := by
      intro x hx
      refine hlk _ _ ?_
      rw [← hcode]
      simp only [List.cons_append, List.mem_cons, List.mem_append]
      exact .inr (.inl (.inl (.inr hx)))
    have hcs : ∀ x ∈ chains 1 (asCode vs), code.lookup x.1 = some x.2 := by
      intro x hx
      refine hlk _ _ ?_
      rw [← hcode]
      simp only [List.cons_append, List.mem_cons, List.mem_append]
      exact .inr (.inl (.inr hx))
    generalize htg : loadN m (raw + 8) 4 = tag
    have h0 : addr (raw + 8) 0 = raw + 8 := by unfold addr; omega
    have h1 : ((tv.toNat : Int) % 4294967296).toNat = tv.toNat := by
      have := tv.toNat_lt; omega
    let s1 : State := ((called (raw + 8) m).set 1 tag)
    let s2 : State := (s1.set 2 tv.toNat).set 3 (if tag = tv.toNat then 1 else 0)
    have hrun : steps w (called (raw + 8) m) (.load 1 0 4 0 :: tagTest tv) = some s2 := by
      simp [tagTest, steps, step, State.set, called, h0, h1, htg, s2, s1]
    have i2 : Inv (raw + 8) (raw + 8 + total.toNat) m s2 :=
      ⟨by simp [s2, s1, State.set, called], fun _ _ _ => rfl⟩
    have t2 : s2.env 1 = some tag := by simp [s2, s1, State.set]
    have hgo : ∀ s', Runs w code (if tv.toNat = tag then (chain 0 0 (offs.map Int.ofNat)).1
        else (tagChain 1 (asCode vs)).1) s2 s' → Runs w code .entry (called (raw + 8) m) s' := by
      intro s' h
      refine Runs.brif hentry hrun rfl (v := if tag = tv.toNat then 1 else 0) (by simp [s2, State.set]) ?_
      by_cases hc : tv.toNat = tag
      · rw [if_pos hc] at h
        rw [if_pos hc.symm, if_neg (by decide)]
        exact h
      · rw [if_neg hc] at h
        have hc' : ¬ tag = tv.toNat := fun e => hc e.symm
        simp only [hc', if_false, if_true]
        exact h
    have key : ∃ s3, Inv (raw + 8) (raw + 8 + total.toNat) m s3 ∧
        s3.events = relOf m (raw + 8) (firstMatch tag ((tv, offs) :: vs)) ∧
        ∀ s', Runs w code .dealloc s3 s' → Runs w code .entry (called (raw + 8) m) s' := by
      by_cases hm : tv.toNat = tag
      · obtain ⟨s3, i3, e3, r3⟩ := chain_run hw (by omega) 0 offs 0
          (fun o h => by have := ho _ List.mem_cons_self o h; omega) hc0 s2 i2
        refine ⟨s3, i3, ?_, fun s' h => hgo s' (by rw [if_pos hm]; exact r3 s' h)⟩
        rw [e3]; simp [firstMatch, hm, s2, s1, State.set, called]
      · obtain ⟨s3, i3, e3, r3⟩ := tagChain_run hw (by omega) tag vs 1
          (fun v hv o h => by have := ho v (List.mem_cons_of_mem _ hv) o h; omega) htags hcs s2 i2 t2
        refine ⟨s3, i3, ?_, fun s' h => hgo s' (by rw [if_neg hm]; exact r3 s' h)⟩
        rw [e3]; simp [firstMatch, hm, s2, s1, State.set, called]
    obtain ⟨s3, i3, e3, r3⟩ := key
    obtain ⟨s4, r4, e4⟩ := dealloc_run (w := w) hde (by omega) (by omega) i3
    obtain ⟨fuel, hf⟩ := r3 s4 r4
    exact ⟨fuel, s4, hf, by rw [e4, e3]⟩

/-- The pointer offsets of the variants that have some. -/
def enumOffsets (variants : List (String × List Ty)) : List (UInt32 × List Nat) :=
  (variants.zip (computeEnumLayout nativeConv variants).variantLayouts).filterMap fun v =>
    let offs := refOffsets v.1.2 (v.2.fieldOffsets.map fun o =>
      (computeEnumLayout nativeConv variants).fieldsOffset.toNat + o.toNat)
    if offs.isEmpty then none else some (v.2.tagValue, offs)

theorem mem_zip_variant {variants : List (String × List Ty)} (hcount : variants.length < 2 ^ 32)
    (hlen : ∀ v ∈ variants, v.2.length < 2 ^ 27) {x : (String × List Ty) × VariantLayout}
    (hx : x ∈ variants.zip (computeEnumLayout nativeConv variants).variantLayouts) :
    ∃ k, variants[k]? = some x.1 ∧ (computeEnumLayout nativeConv variants).variantLayouts[k]? = some x.2 ∧
      x.2.tagValue.toNat = k ∧
      Fits nativeConv x.1.2 (x.2.fieldOffsets.map fun o =>
        (computeEnumLayout nativeConv variants).fieldsOffset.toNat + o.toNat)
        (computeEnumLayout nativeConv variants).totalSize.toNat := by
  obtain ⟨k, hk, rfl⟩ := List.mem_iff_getElem.mp hx
  have hz := List.getElem?_eq_getElem hk
  rw [List.getElem?_zip_eq_some] at hz
  obtain ⟨v, w1, w2, w3, hf, w5⟩ := C14_variant_fits nativeConv variants hcount hlen k _ _ hz.1
  rw [hz.2] at w1
  cases w1
  exact ⟨k, hz.1, hz.2, w3, hf⟩

theorem variantsWithPtrs_eq {variants : List (String × List Ty)} (hcount : variants.length < 2 ^ 32)
    (hlen : ∀ v ∈ variants, v.2.length < 2 ^ 27)
    (hs : ∀ v ∈ variants, ∀ t ∈ v.2, t ≠ ⟨"tribute_rt", "anyref"⟩ ∧ isRawPointer t = false) :
    variantsWithPtrs nativeConv variants = asCode (enumOffsets variants) := by
  have ht := enum_total_le nativeConv variants hlen
  rw [variantsWithPtrs, asCode, enumOffsets, List.map_filterMap]
  refine List.filterMap_congr fun x hx => ?_
  obtain ⟨k, h1, h2, h3, hf⟩ := mem_zip_variant hcount hlen hx
  have hoff := fits_off hf
  have hp : variantPtrOffsets nativeConv (computeEnumLayout nativeConv variants).fieldsOffset x.1.2 x.2 = _ :=
    variantPtrOffsets_eq (computeEnumLayout nativeConv variants).fieldsOffset x.1.2
    x.2.fieldOffsets (hs _ (List.mem_of_getElem? h1)) (fun o ho => by
      have := hoff _ (List.mem_map.mpr ⟨o, ho, rfl⟩); omega)
  simp only
  rw [hp]
  cases refOffsets x.1.2 (x.2.fieldOffsets.map fun o =>
      (computeEnumLayout nativeConv variants).fieldsOffset.toNat + o.toNat) with
  | nil => rfl
  | cons o os => rfl

theorem enum_destroyed {w : World} {raw : Nat} (variants : List (String × List Ty)) {m : Mem}
    (hcount : variants.length < 2 ^ 32) (hlen : ∀ v ∈ variants, v.2.length < 2 ^ 27)
    (hs : ∀ v ∈ variants, ∀ t ∈ v.2, t ≠ ⟨"tribute_rt", "anyref"⟩ ∧ isRawPointer t = false)
    (hraw : raw + 2 ^ 33 ≤ 2 ^ 64)
    (hw : Leaves w (raw + 8) (raw + 8 + (computeEnumLayout nativeConv variants).totalSize.toNat))
    (k : Nat) (name : String) (tys : List Ty) (hk : variants[k]? = some (name, tys)) (v : VariantLayout)
    (hvl : (computeEnumLayout nativeConv variants).variantLayouts[k]? = some v)
    (htag : loadN m (raw + 8) 4 = k) :
    Returns w (enumDestructor nativeConv variants) (raw + 8) m
      (relOf m (raw + 8) (refOffsets tys (v.fieldOffsets.map fun o =>
        (computeEnumLayout nativeConv variants).fieldsOffset.toNat + o.toNat)) ++
        [.dealloc raw ((computeEnumLayout nativeConv variants).totalSize.toNat + 8)]) := by
  rw [enumDestructor_eq, variantsWithPtrs_eq hcount hlen hs]
  have ht4 : 4 ≤ (computeEnumLayout nativeConv variants).totalSize.toNat := by
    obtain ⟨v', w1, w2, w3, hf, w5⟩ := C14_variant_fits nativeConv variants hcount hlen k name tys hk
    have := variants_max_le nativeConv variants ⟨[], 0, 8⟩ 0 rfl (by decide) hlen
    simp only [computeEnumLayout]
    rw [UInt32.toNat_add]
    have h8 : enumFieldsOffset.toNat = 8 := rfl
    omega
  have hro : ∀ x ∈ enumOffsets variants, ∀ o ∈ x.2,
      o + 8 ≤ (computeEnumLayout nativeConv variants).totalSize.toNat := by
    intro x hx o ho
    obtain ⟨y, hy, hye⟩ := List.mem_filterMap.mp hx
    obtain ⟨k', h1, h2, h3, hf⟩ := mem_zip_variant hcount hlen hy
    simp only at hye
    split at hye
    · cases hye
    · cases hye
      obtain ⟨z, hz, hzo⟩ := List.mem_filterMap.mp ho
      split at hzo
      · rename_i hr
        cases hzo
        obtain ⟨i, hi, rfl⟩ := List.mem_iff_getElem.mp hz
        have hz' := List.getElem?_eq_getElem hi
        rw [List.getElem?_zip_eq_some] at hz'
        have := hf.inside i _ _ hz'.1 hz'.2
        rw [← width_eq, width_ptr (by
          obtain ⟨q1, q2⟩ := hs _ (List.mem_of_getElem? h1) _ (List.mem_of_getElem? hz'.1)
          rw [isPtr_eq q1, hr]; rfl)] at this
        exact this
      · cases hzo
  have hfm : firstMatch (loadN m (raw + 8) 4) (enumOffsets variants) =
      refOffsets tys (v.fieldOffsets.map fun o =>
        (computeEnumLayout nativeConv variants).fieldsOffset.toNat + o.toNat) := by
    have hv : (⟨(name, tys), v⟩ : (String × List Ty) × VariantLayout) ∈
        variants.zip (computeEnumLayout nativeConv variants).variantLayouts := by
      refine List.mem_of_getElem? (i := k) ?_
      rw [List.getElem?_zip_eq_some]
      exact ⟨hk, hvl⟩
    obtain ⟨v', w1, w2, w3, _⟩ := C14_variant_fits nativeConv variants hcount hlen k name tys hk
    rw [hvl] at w1; cases w1
    have huniq : ∀ x ∈ enumOffsets variants, x.1.toNat = k → x.2 =
        refOffsets tys (v.fieldOffsets.map fun o =>
          (computeEnumLayout nativeConv variants).fieldsOffset.toNat + o.toNat) := by
      intro x hx hxk
      obtain ⟨y, hy, hye⟩ := List.mem_filterMap.mp hx
      obtain ⟨k', h1, h2, h3, hf⟩ := mem_zip_variant hcount hlen hy
      simp only at hye
      split at hye
      · cases hye
      · cases hye
        simp only at hxk
        have : k' = k := by omega
        subst this
        rw [hk] at h1; rw [hvl] at h2
        obtain ⟨y1, y2⟩ := y
        cases h1; cases h2
        rfl
    rw [htag, firstMatch]
    split
    · rename_i x hx
      have h1 := List.mem_of_find?_eq_some hx
      have h2 := List.find?_some hx
      exact huniq x h1 (by simpa using h2)
    · rename_i hx
      rw [List.find?_eq_none] at hx
      symm
      rw [← List.isEmpty_iff]
      by_contra hne
      refine hx (v.tagValue, refOffsets tys (v.fieldOffsets.map fun o =>
          (computeEnumLayout nativeConv variants).fieldsOffset.toNat + o.toNat))
          (List.mem_filterMap.mpr ⟨_, hv, ?_⟩) ?_
      · simp only
        rw [if_neg hne]
      · simp [w3]
  have := enumCode_run (m := m) hw hraw ht4 (enumOffsets variants) hro
  rw [hfm] at this
  exact this

end Verif.Rtti
