import Verif.Rtti.Table
/-!
# Properties C25 (type indices) and C42 (destructors)
-/
namespace Verif.Rtti
open Verif.Layout

/-! ## C25 -/

/-- C25: after registering any sequence of types (at most 2^32 - 32 different ones), exactly these
types have an index; the index is at least 32, so not a reserved one; different types have
different indices. -/
theorem C25_indices {T : Type} [DecidableEq T] (constructed : List T)
    (h : constructed.dedup.length ≤ 2 ^ 32 - 32) :
    (∀ t, ((collectTypes constructed).get t).isSome ↔ t ∈ constructed) ∧
    (∀ t i, (collectTypes constructed).get t = some i → 32 ≤ i.toNat) ∧
    (∀ t u i, (collectTypes constructed).get t = some i → (collectTypes constructed).get u = some i →
      t = u) := by
  obtain ⟨acc, h1, h2, h3⟩ := collect_numbered constructed
  have key : ∀ t i, (collectTypes constructed).get t = some i →
      ∃ k : Nat, acc[k]? = some t ∧ i.toNat = 32 + k := by
    intro t i hi
    obtain ⟨k, hk, rfl⟩ := (h1.idx t i).mp hi
    have := (List.getElem?_eq_some_iff.mp hk).1
    exact ⟨k, hk, by rw [UInt32.toNat_ofNat']; omega⟩
  refine ⟨fun t => ?_, fun t i hi => ?_, fun t u i ht hu => ?_⟩
  · rw [← h2 t]
    constructor
    · intro hs
      obtain ⟨i, hi⟩ := Option.isSome_iff_exists.mp hs
      obtain ⟨k, hk, _⟩ := key t i hi
      exact List.mem_of_getElem? hk
    · intro ht
      obtain ⟨k, hk, hke⟩ := List.mem_iff_getElem.mp ht
      exact Option.isSome_iff_exists.mpr ⟨_, (h1.idx t _).mpr ⟨k, by
        rw [List.getElem?_eq_getElem hk, hke], rfl⟩⟩
  · obtain ⟨k, _, hk⟩ := key t i hi; omega
  · obtain ⟨k, hk, e1⟩ := key t i ht
    obtain ⟨k', hk', e2⟩ := key u i hu
    have : k = k' := by omega
    subst this
    rw [hk] at hk'; exact Option.some.inj hk'

example : (collectTypes ["A", "B", "A", "C"]).get "B" = some 33 ∧
    (collectTypes ["A", "B", "A", "C"]).get "C" = some 34 ∧
    (collectTypes ["A", "B", "A", "C"]).get "D" = none ∧
    (["A", "B", "A", "C"] : List String).dedup.length ≤ 2 ^ 32 - 32 := by decide

/-- C25: registering a type returns the index it has from then on, whatever is registered before
and after. -/
theorem C25_stable {T : Type} [DecidableEq T] (before after : List T) (t : T) :
    (collectTypes (before ++ t :: after)).get t = some ((collectTypes before).getOrInsert t).2 ∧
    ∀ u i, (collectTypes before).get u = some i → (collectTypes (before ++ after)).get u = some i := by
  have keep : ∀ (l : List T) (m : RttiMap T) (acc : List T), Numbered m acc → ∀ u i, m.get u = some i →
      (l.foldl (fun m t => (m.getOrInsert t).1) m).get u = some i := by
    intro l
    induction l with
    | nil => intro m acc _ u i h; exact h
    | cons x l ih =>
      intro m acc hm u i h
      have hx := numbered_insert hm x
      have hg := hx.2.2.2 u i h
      rw [List.foldl_cons]
      by_cases hxa : x ∈ acc
      · exact ih _ acc (by rw [hx.1 hxa]; exact hm) u i hg
      · exact ih _ _ (hx.2.1 hxa).1 u i hg
  obtain ⟨acc, h1, _, _⟩ := collect_numbered before
  have hx := numbered_insert h1 t
  constructor
  · simp only [collectTypes, List.foldl_append, List.foldl_cons]
    have hg := hx.2.2.1
    by_cases hxa : t ∈ acc
    · exact keep _ _ acc (by have := hx.1 hxa; rw [collectTypes] at this; rw [this]; exact h1) t _ hg
    · exact keep _ _ _ (hx.2.1 hxa).1 t _ hg
  · intro u i hu
    simp only [collectTypes, List.foldl_append]
    exact keep _ _ acc h1 u i hu

/-- The functions found by name in the module are the destructors, at their types' indices. -/
theorem module_functions {constructed : List Decl} (h : constructed.dedup.length ≤ 2 ^ 32 - 32)
    {funcs : List (List Char × Code)} (hf : ModuleFunctions constructed funcs) :
    ((releaseFunctions funcs).map (·.1)).Nodup ∧
    ∀ (i : Nat) f, (i, f) ∈ releaseFunctions funcs ↔
      ∃ d j, (collectTypes constructed).get d = some j ∧ j.toNat = i ∧ f = d.destructor nativeConv := by
  obtain ⟨entries, user, he, hu, hp⟩ := hf
  obtain ⟨_, _, hinj⟩ := C25_indices constructed h
  have hp1 : (releaseFunctions funcs).Perm
      (entries.map fun e => (e.2.toNat, e.1.destructor nativeConv)) := by
    refine (hp.filterMap _).trans ?_
    rw [List.filterMap_append, List.filterMap_eq_nil_iff.mpr (by
      intro f hf; rw [hu f hf]; rfl), List.nil_append, generateDestructors, List.filterMap_map]
    have : (fun x : Decl × UInt32 => ((fun f : List Char × Code =>
        (releaseIndex f.1).map fun i => (i, f.2)) ∘
        fun e : Decl × UInt32 => (destructorName e.2, e.1.destructor nativeConv)) x) =
        fun e => some (e.2.toNat, e.1.destructor nativeConv) := by
      funext e
      simp [releaseIndex_destructor]
    rw [show ((fun f : List Char × Code =>
        (releaseIndex f.1).map fun i => (i, f.2)) ∘
        fun e : Decl × UInt32 => (destructorName e.2, e.1.destructor nativeConv)) = _ from this,
      ← List.filterMap_eq_map]
    exact (List.mergeSort_perm _ _).filterMap _
  constructor
  · refine (hp1.map _).nodup_iff.mpr ?_
    rw [List.map_map]
    have hn : entries.Pairwise fun a b => a.1 ≠ b.1 := List.pairwise_map.mp he.1
    refine List.pairwise_map.mpr (hn.imp_of_mem ?_)
    intro a b ha hb hab heq
    have e : a.2 = b.2 := UInt32.toNat_inj.mp heq
    refine hab (hinj a.1 b.1 a.2 ((he.2 a.1 a.2).mp ha) ?_)
    rw [e]; exact (he.2 b.1 b.2).mp hb
  · intro i f
    rw [hp1.mem_iff, List.mem_map]
    constructor
    · rintro ⟨⟨d, j⟩, hm, hx⟩
      cases hx
      exact ⟨d, j, (he.2 d j).mp hm, rfl, rfl⟩
    · rintro ⟨d, j, h1, h2, h3⟩
      exact ⟨(d, j), (he.2 d j).mpr h1, by rw [h2, h3]⟩

/-- C25: in the table used at run time, the entry at a constructed type's index is that type's
destructor, and no other entry holds one. -/
theorem C25_table (constructed : List Decl) (h : constructed.dedup.length ≤ 2 ^ 32 - 32)
    (funcs : List (List Char × Code)) (hf : ModuleFunctions constructed funcs) :
    (∀ d ∈ constructed, ∃ i, (collectTypes constructed).get d = some i ∧
      (rttiTable (releaseFunctions funcs))[i.toNat]? = some (some (d.destructor nativeConv))) ∧
    ∀ (i : Nat) f, (rttiTable (releaseFunctions funcs))[i]? = some (some f) →
      ∃ d ∈ constructed, ∃ j, (collectTypes constructed).get d = some j ∧ j.toNat = i ∧
        f = d.destructor nativeConv := by
  obtain ⟨h1, h2⟩ := module_functions h hf
  obtain ⟨t1, t2⟩ := table_spec _ h1
  obtain ⟨c1, _, _⟩ := C25_indices constructed h
  constructor
  · intro d hd
    obtain ⟨i, hi⟩ := Option.isSome_iff_exists.mp ((c1 d).mpr hd)
    exact ⟨i, hi, t1 _ _ ((h2 _ _).mpr ⟨d, i, hi, rfl, rfl⟩)⟩
  · intro i f hif
    obtain ⟨d, j, e1, e2, e3⟩ := (h2 _ _).mp (t2 i f hif)
    exact ⟨d, (c1 d).mp (by rw [e1]; rfl), j, e1, e2, e3⟩

/-! ## C42 -/

/-- C42, for declarations whose fields have known types (`Typed`). Missing: fields of erased type,
raw pointers in enums, and struct fields called `func_ptr` holding objects; for those the property is
false, see below. Constructing a value and later destroying it releases exactly the references among
its fields (of the constructed variant), once each, and gives back exactly the allocated block. -/
theorem C42_lifecycle_partial (d : Decl) (hsz : Sized d) (hty : Typed d) (idx : UInt32) (variant : Nat)
    (tys : List Ty) (htys : fieldTypes d variant = some tys) (vals : List Nat) (hv : FitFields tys vals)
    (w : World) (hw : w.allocated + 2 ^ 33 ≤ 2 ^ 64) (m0 : Mem) :
    ∃ code, construct d (some idx) variant vals.length = some code ∧
      BuildsAndDestroys code (vals.length + 7) (d.destructor nativeConv) vals (references tys vals) w m0 := by
  have hvlen := List.Forall₂.length_eq hv
  -- both cases end the same way
  have finish : ∀ (total : UInt32) (offs : List Nat) (s : State) (m : Mem),
      Built w m0 total idx tys offs vals (vals.length + 7) s →
      offs.length = tys.length →
      AgreeOn (w.allocated + 8) (w.allocated + (total.toNat + 8)) m s.mem →
      relOf m (w.allocated + 8) (refOffsets tys offs) = (references tys vals).map (.release · 0) := by
    intro total offs s m hb hl ha
    refine relOf_refs m _ tys offs vals hl hvlen.symm ?_
    intro x hx hr
    obtain ⟨f1, f2⟩ := hb.fields x hx
    have hp : width nativeConv x.1.1 = 8 := by
      by_cases hany : x.1.1 = ⟨"tribute_rt", "anyref"⟩
      · rw [hany]; decide
      · exact width_ptr (by rw [isPtr_eq hany, hr]; rfl)
    rw [hp] at f1 f2
    rw [← f1]
    refine loadN_congr 8 _ fun a h1 h2 => ha a ?_ ?_ <;> omega
  cases d with
  | struct name fields =>
    simp only [fieldTypes, Option.some.injEq] at htys
    subst htys
    obtain ⟨code, s, h1, h2, h3⟩ := struct_built w (by omega) m0 idx fields hsz vals hv
    have hc := (C13_fields_fit nativeConv fields hsz).count
    refine ⟨code, h1, s, _, h2, h3.events, h3.result, by omega, ?_⟩
    intro m w' ha hl
    rw [← finish _ _ s m h3 hc ha]
    refine struct_destroyed fields hsz hty (by omega) ?_
    rw [show w.allocated + 8 + (computeStructLayout nativeConv fields).totalSize.toNat =
      w.allocated + ((computeStructLayout nativeConv fields).totalSize.toNat + 8) from by omega]
    exact hl
  | enum name variants =>
    obtain ⟨z1, z2, z3⟩ := hsz
    simp only [fieldTypes, Option.map_eq_some_iff] at htys
    obtain ⟨⟨vname, tys'⟩, hk, htys⟩ := htys
    simp only at htys; subst htys
    obtain ⟨v, w1, w2, w3, hf, w5⟩ := C14_variant_fits nativeConv variants z1 z2 variant vname tys' hk
    obtain ⟨code, s, h1, h2, htag, h3⟩ := enum_built w (by omega) m0 idx variants z1 z2 z3 variant vname tys' hk
      vals hv v w1
    have hc := hf.count
    refine ⟨code, by simp only [construct, hk, Option.bind_some]; exact h1, s, _, h2, h3.events, h3.result,
      by omega, ?_⟩
    intro m w' ha hl
    rw [← finish _ _ s m h3 (by simpa using hc) ha]
    refine enum_destroyed variants z1 z2 hty (by omega) ?_ variant vname tys' hk v w1 ?_
    · rw [show w.allocated + 8 + (computeEnumLayout nativeConv variants).totalSize.toNat =
        w.allocated + ((computeEnumLayout nativeConv variants).totalSize.toNat + 8) from by omega]
      exact hl
    · rw [← htag]
      have : 4 ≤ (computeEnumLayout nativeConv variants).totalSize.toNat := by
        have := variants_max_le nativeConv variants ⟨[], 0, 8⟩ 0 rfl (by decide) z2
        simp only [computeEnumLayout]
        rw [UInt32.toNat_add]
        have h8 : enumFieldsOffset.toNat = 8 := rfl
        omega
      refine loadN_congr 4 _ fun a h1 h2 => ha a ?_ ?_ <;> omega

/-- The hypotheses are met by a list cell with a null tail and by both variants of an option, and
the references are what one expects. -/
example : Typed (.enum "List" [("Nil", []), ("Cons", [⟨"tribute_rt", "int"⟩, ⟨"adt", "typeref"⟩])]) ∧
    Sized (.enum "List" [("Nil", []), ("Cons", [⟨"tribute_rt", "int"⟩, ⟨"adt", "typeref"⟩])]) ∧
    Typed (.struct "Closure" [("func_ptr", ⟨"core", "ptr"⟩), ("name", ⟨"core", "bytes"⟩)]) ∧
    references [⟨"core", "bytes"⟩, ⟨"tribute_rt", "int"⟩, ⟨"adt", "typeref"⟩, ⟨"adt", "enum"⟩]
      [4096, 17, 0, 8192] = [4096, 8192] := by
  refine ⟨?_, ?_, ?_, ?_⟩
  · simp [Typed, isRawPointer]
  · simp [Sized]
  · simp [Typed, isRawPointer]
  · decide

/-- A two-field struct, run: both references are released, the integer is not, 40 bytes are freed. -/
example : (∃ s, run ⟨4096, fun _ m => m⟩ (structDestructor nativeConv
      [("a", ⟨"adt", "typeref"⟩), ("n", ⟨"tribute_rt", "int"⟩), ("b", ⟨"core", "bytes"⟩),
        ("c", ⟨"adt", "enum"⟩)]) 7 .entry
      (called 4104 (storeN (storeN (storeN (fun _ => 0) 4104 65536 8) 4112 77 4) 4120 131072 8)) = some s ∧
    s.events = [.release 65536 0, .release 131072 0, .dealloc 4096 40]) := ⟨_, rfl, by decide⟩

/-- C42: an object built by the compiled program is handed to the destructor of its own type: as long
as its type word is intact, the runtime's release entry calls that destructor on it, whatever size it
is given. -/
theorem C42_dispatch (constructed : List Decl) (h : constructed.dedup.length ≤ 2 ^ 32 - 32)
    (funcs : List (List Char × Code)) (hf : ModuleFunctions constructed funcs)
    (d : Decl) (hd : d ∈ constructed) (hsz : Sized d) (variant : Nat)
    (tys : List Ty) (htys : fieldTypes d variant = some tys) (vals : List Nat) (hv : FitFields tys vals)
    (w : World) (hw : w.allocated + 2 ^ 33 ≤ 2 ^ 64) (m0 : Mem) :
    ∃ code s, construct d ((collectTypes constructed).get d) variant vals.length = some code ∧
      steps w (operands vals m0) code = some s ∧ s.env (vals.length + 7) = some (w.allocated + 8) ∧
      ∀ m size, AgreeOn (w.allocated + 4) (w.allocated + 8) m s.mem →
        deepRelease (releaseFunctions funcs) m (w.allocated + 8) size =
          some (.call (d.destructor nativeConv) (w.allocated + 8)) := by
  obtain ⟨i, hi, hti⟩ := (C25_table constructed h funcs hf).1 d hd
  have hne : (releaseFunctions funcs).isEmpty = false := by
    obtain ⟨_, h2⟩ := module_functions h hf
    have := (h2 i.toNat (d.destructor nativeConv)).mpr ⟨d, i, hi, rfl, rfl⟩
    cases hr : releaseFunctions funcs with
    | nil => rw [hr] at this; cases this
    | cons => rfl
  have fin : ∀ (total : UInt32) (offs : List Nat) (s : State),
      Built w m0 total i tys offs vals (vals.length + 7) s →
      ∀ m size, AgreeOn (w.allocated + 4) (w.allocated + 8) m s.mem →
        deepRelease (releaseFunctions funcs) m (w.allocated + 8) size =
          some (.call (d.destructor nativeConv) (w.allocated + 8)) := by
    intro total offs s hb m size ha
    have a1 : addr (w.allocated + 8) (-8) = w.allocated := by unfold addr; omega
    have a2 : addr w.allocated 4 = w.allocated + 4 := by unfold addr; omega
    have a3 : loadN m (w.allocated + 4) 4 = i.toNat := by
      rw [← hb.index]
      exact loadN_congr 4 _ fun a h1 h2 => ha a (by omega) (by omega)
    simp only [deepRelease, hne, a1, a2, a3, hti]
    simp
  rw [hi]
  cases d with
  | struct name fields =>
    simp only [fieldTypes, Option.some.injEq] at htys
    subst htys
    obtain ⟨code, s, h1, h2, h3⟩ := struct_built w (by omega) m0 i fields hsz vals hv
    exact ⟨code, s, h1, h2, h3.result, fin _ _ s h3⟩
  | enum name variants =>
    obtain ⟨z1, z2, z3⟩ := hsz
    simp only [fieldTypes, Option.map_eq_some_iff] at htys
    obtain ⟨⟨vname, tys'⟩, hk, htys⟩ := htys
    simp only at htys; subst htys
    obtain ⟨v, w1, _⟩ := C14_variant_fits nativeConv variants z1 z2 variant vname tys' hk
    obtain ⟨code, s, h1, h2, _, h3⟩ := enum_built w (by omega) m0 i variants z1 z2 z3 variant vname tys' hk
      vals hv v w1
    exact ⟨code, s, by simp only [construct, hk, Option.bind_some]; exact h1, h2, h3.result, fin _ _ s h3⟩

/-- A module with a user function and the destructors of two types. -/
example : ModuleFunctions [.struct "P" [], .enum "E" [("A", [])], .struct "P" []]
    ([("main".toList, [])] ++ generateDestructors nativeConv
      [(.enum "E" [("A", [])], 33), (.struct "P" [], 32)]) := by
  refine ⟨[(.enum "E" [("A", [])], 33), (.struct "P" [], 32)], [("main".toList, [])],
    ⟨by decide, ?_⟩, by decide, .refl _⟩
  intro d i
  simp only [collectTypes, RttiMap.get, List.foldl_cons, List.foldl_nil, RttiMap.getOrInsert, RttiMap.new,
    rttiUserStart, List.mem_cons, List.not_mem_nil, Prod.mk.injEq, or_false]
  by_cases h1 : d = .struct "P" []
  · subst h1; simp [eq_comm]
  · by_cases h2 : d = .enum "E" [("A", [])]
    · subst h2; simp [eq_comm]
    · simp [h1, h2]

theorem run_mono {w : World} {code : Code} : ∀ (f : Nat) (l : Label) (s s' : State),
    run w code f l s = some s' → ∀ f', f ≤ f' → run w code f' l s = some s'
  | 0, _, _, _, h, _, _ => by cases h
  | f + 1, l, s, s', h, f', hf => by
    obtain ⟨g, rfl⟩ : ∃ g, f' = g + 1 := ⟨f' - 1, by omega⟩
    rw [run] at h ⊢
    obtain ⟨b, hb, h⟩ := Option.bind_eq_some_iff.mp h
    obtain ⟨s1, hs, h⟩ := Option.bind_eq_some_iff.mp h
    rw [hb, Option.bind_some, hs, Option.bind_some]
    cases ht : b.term with
    | ret => rw [ht] at h; exact h
    | jump l' => rw [ht] at h; exact run_mono f l' s1 s' h g (by omega)
    | brif c t e =>
      rw [ht] at h
      obtain ⟨v, hv, h⟩ := Option.bind_eq_some_iff.mp h
      simp only [hv, Option.bind_some]
      exact run_mono f _ s1 s' h g (by omega)

/-- A run shows the world one sequence of events. -/
theorem returns_unique {w : World} {code : Code} {p : Nat} {m : Mem} {e e' : List Event}
    (h : Returns w code p m e) (h' : Returns w code p m e') : e = e' := by
  obtain ⟨f, s, h1, rfl⟩ := h
  obtain ⟨f', s', h1', rfl⟩ := h'
  have a := run_mono _ _ _ _ h1 (max f f') (Nat.le_max_left _ _)
  have b := run_mono _ _ _ _ h1' (max f f') (Nat.le_max_right _ _)
  rw [a] at b; cases b; rfl

/-- The destructor of a struct without pointer fields only frees it. -/
theorem plain_returns {w : World} {total : UInt32} {p : Nat} {m : Mem} {evs : List Event}
    (h : Returns w [(.entry, deallocBlock total)] p m evs) : evs = [.dealloc (addr p (-8)) (total.toNat + 8)] := by
  obtain ⟨fuel, s, h1, rfl⟩ := h
  cases fuel with
  | zero => simp [run] at h1
  | succ n =>
    have ht := total.toNat_lt
    have h2 : (((total.toNat : Int) + 8) % 18446744073709551616).toNat = total.toNat + 8 := by omega
    simp [run, deallocBlock, steps, step, State.set, called, h2] at h1
    subst h1
    rfl

/-- C42 is false for a field of erased type, which is what the front end gives every field of a
user-defined type: the object it refers to is not released. -/
theorem C42_erased_field_violated (v : Nat) (hv : v ≠ 0) (idx : UInt32) (w : World) (m0 : Mem) :
    ∃ code, construct (.struct "Node" [("next", ⟨"tribute_rt", "anyref"⟩)]) (some idx) 0 1 = some code ∧
    ¬ BuildsAndDestroys code 8
      (Decl.destructor nativeConv (.struct "Node" [("next", ⟨"tribute_rt", "anyref"⟩)]))
      [v] (references [⟨"tribute_rt", "anyref"⟩] [v]) w m0 := by
  refine ⟨_, rfl, ?_⟩
  rintro ⟨s, size, _, _, _, _, h⟩
  have := h s.mem ⟨0, fun _ m => m⟩ (fun _ _ _ => rfl) (fun _ _ _ _ _ => rfl)
  have hd : Decl.destructor nativeConv (.struct "Node" [("next", ⟨"tribute_rt", "anyref"⟩)]) =
      [(.entry, deallocBlock 8)] := by decide
  rw [hd] at this
  have := plain_returns this
  simp [references, isReference, hv] at this

/-- C42 is false for a struct field that the user happens to call `func_ptr`. -/
theorem C42_func_ptr_field_violated (v : Nat) (hv : v ≠ 0) (idx : UInt32) (w : World) (m0 : Mem) :
    ∃ code, construct (.struct "Node" [("func_ptr", ⟨"core", "bytes"⟩)]) (some idx) 0 1 = some code ∧
    ¬ BuildsAndDestroys code 8
      (Decl.destructor nativeConv (.struct "Node" [("func_ptr", ⟨"core", "bytes"⟩)]))
      [v] (references [⟨"core", "bytes"⟩] [v]) w m0 := by
  refine ⟨_, rfl, ?_⟩
  rintro ⟨s, size, _, _, _, _, h⟩
  have := h s.mem ⟨0, fun _ m => m⟩ (fun _ _ _ => rfl) (fun _ _ _ _ _ => rfl)
  have hd : Decl.destructor nativeConv (.struct "Node" [("func_ptr", ⟨"core", "bytes"⟩)]) =
      [(.entry, deallocBlock 8)] := by decide
  rw [hd] at this
  have := plain_returns this
  simp [references, isReference, hv] at this

/-- C42 is false of objects without destructor (byte strings and boxed numbers have reserved indices)
that other objects refer to: a destructor releases a field with size 0, and then nothing is freed. -/
theorem C42_untyped_object_violated (constructed : List Decl)
    (h : constructed.dedup.length ≤ 2 ^ 32 - 32) (hne : constructed ≠ [])
    (funcs : List (List Char × Code)) (hf : ModuleFunctions constructed funcs)
    (m : Mem) (raw : Nat) (hraw : raw + 8 < 2 ^ 64) (hidx : loadN m (raw + 4) 4 < 32) :
    deepRelease (releaseFunctions funcs) m (raw + 8) 0 = some (.free raw 0) ∧
    runtimeDealloc raw 0 = none := by
  refine ⟨?_, by simp [runtimeDealloc]⟩
  have a1 : addr (raw + 8) (-8) = raw := by unfold addr; omega
  have a2 : addr raw 4 = raw + 4 := by unfold addr; omega
  obtain ⟨t1, t2⟩ := C25_table constructed h funcs hf
  obtain ⟨_, c2, _⟩ := C25_indices constructed h
  obtain ⟨d, rest, rfl⟩ := List.exists_cons_of_ne_nil hne
  obtain ⟨i, hi, hti⟩ := t1 d List.mem_cons_self
  have hlen := (List.getElem?_eq_some_iff.mp hti).1
  have h32 := c2 d i hi
  have hlt : loadN m (raw + 4) 4 < (rttiTable (releaseFunctions funcs)).length := by omega
  have hnone : (rttiTable (releaseFunctions funcs))[loadN m (raw + 4) 4]? = some none := by
    rw [List.getElem?_eq_getElem hlt]
    cases he : (rttiTable (releaseFunctions funcs))[loadN m (raw + 4) 4] with
    | none => rfl
    | some f =>
      obtain ⟨d', _, j, hj, hji, _⟩ := t2 _ f (by rw [List.getElem?_eq_getElem hlt, he])
      have := c2 d' j hj
      omega
  have hne' : (releaseFunctions funcs).isEmpty = false := by
    cases hr : releaseFunctions funcs with
    | nil => rw [hr] at hlen; simp [rttiTable] at hlen; omega
    | cons => rfl
  simp only [deepRelease, hne', a1, a2, hnone]
  simp

/-- C42 is false of an enum payload of function type: the code address is released as if it were an
object. -/
theorem C42_function_payload_violated (v : Nat) (hv : v ≠ 0) (hv' : v < 2 ^ 64) (idx : UInt32) (w : World)
    (hw : w.allocated + 2 ^ 33 ≤ 2 ^ 64) (m0 : Mem) :
    ∃ code, construct (.enum "F" [("A", [⟨"core", "func"⟩])]) (some idx) 0 1 = some code ∧
    ¬ BuildsAndDestroys code 8 (Decl.destructor nativeConv (.enum "F" [("A", [⟨"core", "func"⟩])]))
      [v] (references [⟨"core", "func"⟩] [v]) w m0 := by
  obtain ⟨code, s, h1, h2, h3, h4⟩ := enum_built w (by omega) m0 idx [("A", [⟨"core", "func"⟩])] (by decide)
    (by simp) (by simp) 0 "A" [⟨"core", "func"⟩] rfl [v]
    (.cons (by have : fieldSize nativeConv ⟨"core", "func"⟩ = 8 := by decide
               rw [FitField, this]; omega) .nil)
    ⟨"A", 0, [0], 8⟩ (by decide)
  refine ⟨code, h1, ?_⟩
  rintro ⟨s', size, g1, g2, _, _, h⟩
  rw [h2] at g1; cases g1
  have hr := h s.mem ⟨0, fun _ m => m⟩ (fun _ _ _ => rfl) (fun _ _ _ _ _ => rfl)
  have hd : Decl.destructor nativeConv (.enum "F" [("A", [⟨"core", "func"⟩])]) =
      [(.entry, ⟨.load 1 0 4 0 :: tagTest 0, .brif 3 (.check 0 0) .dealloc⟩),
        (.check 0 0, checkBlock 8 .dealloc (.release 0 0)), (.release 0 0, releaseBlock 8 .dealloc),
        (.dealloc, deallocBlock 16)] := by decide
  have hfo : (computeEnumLayout nativeConv [("A", [⟨"core", "func"⟩])]).fieldsOffset.toNat = 8 := by decide
  have hfield := (h4.fields ((⟨"core", "func"⟩, 8), v) (by simp [hfo])).1
  have hw8 : width nativeConv ⟨"core", "func"⟩ = 8 := by decide
  simp only [hw8] at hfield
  rw [hd] at hr
  have ha0 : addr (w.allocated + 8) 0 = w.allocated + 8 := by unfold addr; omega
  have ha8 : addr (w.allocated + 8) 8 = w.allocated + 8 + 8 := by unfold addr; omega
  generalize hc : ([(.entry, ⟨.load 1 0 4 0 :: tagTest 0, .brif 3 (.check 0 0) .dealloc⟩),
        (.check 0 0, checkBlock 8 .dealloc (.release 0 0)), (.release 0 0, releaseBlock 8 .dealloc),
        (.dealloc, deallocBlock 16)] : Code) = dtor at hr
  have b1 : dtor.lookup .entry = some ⟨.load 1 0 4 0 :: tagTest 0, .brif 3 (.check 0 0) .dealloc⟩ := by
    subst hc; rfl
  have b2 : dtor.lookup (.check 0 0) = some (checkBlock 8 .dealloc (.release 0 0)) := by subst hc; rfl
  have b3 : dtor.lookup (.release 0 0) = some (releaseBlock 8 .dealloc) := by subst hc; rfl
  have b4 : dtor.lookup .dealloc = some (deallocBlock 16) := by subst hc; rfl
  have hrun : Returns ⟨0, fun _ m => m⟩ dtor (w.allocated + 8) s.mem
      [.release v 0, .dealloc (addr (w.allocated + 8) (-8)) 24] := by
    obtain ⟨s1, hs1, he1, h01, hm1, hv1⟩ : ∃ s1, steps ⟨0, fun _ m => m⟩ (called (w.allocated + 8) s.mem)
        (.load 1 0 4 0 :: tagTest 0) = some s1 ∧ s1.env 3 = some 1 ∧ s1.env 0 = some (w.allocated + 8) ∧
        s1.mem = s.mem ∧ s1.events = [] := by
      simp [called, steps, step, State.set, tagTest, ha0, h3]
    obtain ⟨s2, hs2, he2, h02, hm2, hv2⟩ : ∃ s2, steps ⟨0, fun _ m => m⟩ s1
        (checkBlock 8 .dealloc (.release 0 0)).ops = some s2 ∧ s2.env 4 = some 0 ∧
        s2.env 0 = some (w.allocated + 8) ∧ s2.mem = s.mem ∧ s2.events = [] := by
      simp [steps, step, State.set, checkBlock, ha8, h01, hm1, hfield, hv, hv1]
    obtain ⟨s3, hs3, h03, hv3⟩ : ∃ s3, steps ⟨0, fun _ m => m⟩ s2
        (releaseBlock 8 .dealloc).ops = some s3 ∧
        s3.env 0 = some (w.allocated + 8) ∧ s3.events = [.release v 0] := by
      simp [steps, step, State.set, releaseBlock, ha8, h02, hm2, hfield, hv2]
    obtain ⟨s4, hs4, hv4⟩ : ∃ s4, steps ⟨0, fun _ m => m⟩ s3 (deallocBlock 16).ops = some s4 ∧
        s4.events = [.release v 0, .dealloc (addr (w.allocated + 8) (-8)) 24] := by
      simp [steps, step, State.set, deallocBlock, h03, hv3]
    obtain ⟨fuel, hf⟩ : Runs ⟨0, fun _ m => m⟩ dtor .entry (called (w.allocated + 8) s.mem) s4 :=
      Runs.brif b1 hs1 rfl he1 (Runs.brif b2 hs2 rfl he2 (Runs.jump b3 hs3 rfl (Runs.ret b4 hs4 rfl)))
    exact ⟨fuel, s4, hf, hv4⟩
  have := returns_unique hr hrun
  simp [references, isReference] at this

end Verif.Rtti
