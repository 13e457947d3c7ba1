import Verif.Fields.Proofs
/-!
# One operation
-/
namespace Verif.Fields
open Verif.Layout Verif.Rtti

/-- What one operation achieves. -/
def StepOk (idx : Decl → UInt32) (a : Nat) (m0 : Mem) (Γ : Nat → Option Ty) (σ σ' : AState) (s : CState)
    (act : Act) : Prop :=
  ∃ s', cstep idx a s act = some s' ∧ Shape (typed Γ act) σ' s' ∧ (∃ more, s'.blocks = s.blocks ++ more) ∧
    (Separate s'.blocks → Holds idx m0 σ s → Holds idx m0 σ' s')

/-- Operations that only compute a value. -/
theorem pure_ok {idx : Decl → UInt32} {a : Nat} {m0 : Mem} {Γ : Nat → Option Ty} {σ : AState} {s : CState}
    {act : Act} {d : Nat} {v : Val} {x : Nat} {ty : Ty} (hs : Shape Γ σ s)
    (hstep : cstep idx a s act =
      some ⟨fun n => if n = d then some ⟨x, ty⟩ else s.regs n, s.mem, s.blocks⟩)
    (hty : typed Γ act = fun n => if n = d then some ty else Γ n)
    (hx : x < 256 ^ fieldSize nativeConv ty) (hr : Holds idx m0 σ s → Rep s.blocks v x) :
    StepOk idx a m0 Γ σ (σ.bindReg d v) s act := by
  refine ⟨_, hstep, ?_, ⟨[], by simp⟩, fun _ hh => hh.bind d v x ty (hr hh)⟩
  rw [hty]
  exact hs.bind d v x ty hx

theorem mapM_one {α β : Type} (f : α → Option β) (a : α) (b : β) (h : f a = some b) :
    [a].mapM f = some [b] := by simp [h]

theorem mapM_two {α β : Type} (f : α → Option β) (a a' : α) (b b' : β) (h : f a = some b) (h' : f a' = some b') :
    [a, a'].mapM f = some [b, b'] := by simp [h, h']

theorem deref_some {σ : AState} {r : Nat} {o : Nat × Obj} (h : σ.deref r = some o) :
    σ.regs r = some (.ref o.1) ∧ σ.heap[o.1]? = some o.2 := by
  unfold AState.deref at h
  split at h
  · rename_i id hid
    simp only [Option.map_eq_some_iff] at h
    obtain ⟨o', h1, rfl⟩ := h
    exact ⟨hid, h1⟩
  · cases h

/-- A reference in a value: the address of its object's payload. -/
theorem Holds.ref {idx : Decl → UInt32} {m0 : Mem} {σ : AState} {s : CState} (h : Holds idx m0 σ s) {r id : Nat}
    {o : Obj} {x : Reg} (hr : σ.regs r = some (.ref id)) (ho : σ.heap[id]? = some o) (hx : s.regs r = some x) :
    ∃ b, s.blocks[id]? = some b ∧ x.val = b.1 + 8 ∧ InBlock idx s.blocks s.mem b o := by
  obtain ⟨b, h1, h2⟩ := h.values r _ x hr hx
  exact ⟨b, h1, h2, h.objs id o b ho h1⟩

theorem const_ok {idx : Decl → UInt32} {a : Nat} {m0 : Mem} {Γ : Nat → Option Ty} {σ : AState} {s : CState}
    (hs : Shape Γ σ s) (d : Nat) (ty : Ty) (v : Nat) (hv : v < 256 ^ fieldSize nativeConv ty) :
    StepOk idx a m0 Γ σ (σ.bindReg d (.word v)) s (.const d ty v) := by
  have hm : (((v : Int)) % 2 ^ (8 * width nativeConv ty)).toNat = v := by
    rw [width_eq]
    have : (256 : Nat) ^ fieldSize nativeConv ty = 2 ^ (8 * fieldSize nativeConv ty) := by
      rw [Nat.pow_mul]
    rw [this] at hv
    have h2 : ((2 : Int) ^ (8 * fieldSize nativeConv ty)) = ((2 ^ (8 * fieldSize nativeConv ty) : Nat) : Int) := by
      simp
    rw [h2, Int.emod_eq_of_lt (by omega) (by exact_mod_cast hv)]
    simp
  refine pure_ok (v := .word v) (x := v) hs ?_ rfl hv (fun _ => rfl)
  simp [cstep, Act.operands, lower, steps, step, State.set, requested, hm]

theorem null_ok {idx : Decl → UInt32} {a : Nat} {m0 : Mem} {Γ : Nat → Option Ty} {σ : AState} {s : CState}
    (hs : Shape Γ σ s) (d : Nat) : StepOk idx a m0 Γ σ (σ.bindReg d .null) s (.null d) := by
  refine pure_ok (v := .null) (x := 0) (ty := ptr) hs ?_ rfl (by decide) (fun _ => rfl)
  simp [cstep, Act.operands, lower, steps, step, State.set, requested]

theorem cast_ok {idx : Decl → UInt32} {a : Nat} {m0 : Mem} {Γ : Nat → Option Ty} {σ : AState} {s : CState}
    (hs : Shape Γ σ s) (d r : Nat) {v : Val} (hv : σ.regs r = some v) :
    StepOk idx a m0 Γ σ (σ.bindReg d v) s (.cast d r) := by
  obtain ⟨x, h1, h2, h3⟩ := hs.types r v hv
  refine pure_ok (v := v) (x := x.val) (ty := x.ty) hs ?_ ?_ h3 (fun hh => hh.values r v x hv h1)
  · simp [cstep, Act.operands, h1, lower, steps, requested]
  · simp [typed, resultTy, h2]

theorem integer_lower {ty : Ty} (h : isInteger ty) :
    ((nativeConv ty).dialect = "core" ∧ (nativeConv ty).name ∈ ["i8", "i16", "i32", "i64"]) ∧
    0 < fieldSize nativeConv ty := by
  unfold isInteger at h
  simp only [List.mem_cons, List.not_mem_nil, or_false] at h
  unfold fieldSize
  rcases h with h | h | h | h <;> rw [h] <;> decide

theorem one_lt_pow {n : Nat} (h : 0 < n) : 1 < 256 ^ n := Nat.one_lt_pow (by omega) (by decide)

theorem isNull_ok {idx : Decl → UInt32} {a : Nat} {m0 : Mem} {Γ : Nat → Option Ty} {σ : AState} {s : CState}
    (hs : Shape Γ σ s) (d r : Nat) {ty : Ty} (hi : isInteger ty) {v : Val} (hv : σ.regs r = some v) {n : Nat}
    (hn : (v = .null ∧ n = 1) ∨ ∃ id, v = .ref id ∧ n = 0) :
    StepOk idx a m0 Γ σ (σ.bindReg d (.word n)) s (.isNull d r ty) := by
  obtain ⟨x, h1, h2, h3⟩ := hs.types r v hv
  obtain ⟨i1, i2⟩ := integer_lower hi
  refine pure_ok (v := .word n) (x := if x.val = 0 then 1 else 0) (ty := ty) hs ?_ rfl ?_ (fun hh => ?_)
  · simp only [cstep, Act.operands, mapM_one _ _ _ h1, Option.bind_some, lower, refIsNull, i1, and_self,
      if_true, Option.map_some]
    simp [steps, step, State.set, requested]
  · have := one_lt_pow i2
    split <;> omega
  · have := hh.values r v x hv h1
    rcases hn with ⟨rfl, rfl⟩ | ⟨id, rfl, rfl⟩
    · simp only [Rep] at this ⊢
      rw [if_pos this]
    · obtain ⟨b, _, h5⟩ := this
      simp only [Rep]
      rw [if_neg (by omega)]

/-- A load from the first operand. -/
theorem load_step {s : CState} {r : Nat} {x : Reg} (h1 : s.regs r = some x) {idx : Decl → UInt32} {a : Nat}
    {act : Act} (ho : act.operands = [r]) {d : Nat} {ty : Ty} {w : Nat} {off : Int}
    (hl : lower idx act [x.ty] = some ⟨[.load 1 0 w off], some (d, 1, ty)⟩) :
    cstep idx a s act = some ⟨fun n => if n = d then some ⟨loadN s.mem (addr x.val off) w, ty⟩ else s.regs n,
      s.mem, s.blocks⟩ := by
  simp [cstep, ho, h1, hl, steps, step, State.set, requested]

theorem getElem?_of_fits {conv : Ty → Ty} {tys : List Ty} {offs : List Nat} {t : Nat} (h : Fits conv tys offs t)
    {i : Nat} {ty : Ty} (hi : tys[i]? = some ty) : ∃ o, offs[i]? = some o := by
  have := (List.getElem?_eq_some_iff.mp hi).1
  exact ⟨_, List.getElem?_eq_getElem (by rw [h.count]; exact this)⟩

theorem struct_offset {n : String} {fields : List (String × Ty)} (hd : Sized (.struct n fields)) {i : Nat}
    {f : String × Ty} (hi : fields[i]? = some f) :
    ∃ o, (computeStructLayout nativeConv fields).fieldOffsets[i]? = some o ∧ o.toNat < 2 ^ 31 ∧
      ∀ k, (offsets (.struct n fields) k)[i]? = some o.toNat := by
  obtain ⟨hf, ht⟩ := layout_ok (k := 0) hd rfl
  have hi' : (fields.map (·.2))[i]? = some f.2 := by simp [hi]
  obtain ⟨o, ho⟩ := getElem?_of_fits hf hi'
  have h1 := hf.inside i _ _ hi' ho
  have h2 : 0 < fieldSize nativeConv f.2 := fieldAlign_pos nativeConv _
  simp only [offsets, List.getElem?_map, Option.map_eq_some_iff] at ho
  obtain ⟨o', ho', rfl⟩ := ho
  exact ⟨o', ho', by omega, fun k => by simp [offsets, ho']⟩

theorem get_ok {idx : Decl → UInt32} {a : Nat} {m0 : Mem} {Γ : Nat → Option Ty} {σ : AState} {s : CState}
    (hs : Shape Γ σ s) {d r : Nat} {name : String} {fields : List (String × Ty)} {i : Nat} {ty : Ty}
    (hd : Sized (.struct name fields)) {f : String × Ty} (hf : fields[i]? = some f) (hty : SameSize ty f.2)
    {o : Nat × Obj} (ho : σ.deref r = some o) (hdecl : o.2.decl = .struct name fields) {v : Val}
    (hv : o.2.fields[i]? = some v) :
    StepOk idx a m0 Γ σ (σ.bindReg d v) s (.get d r name fields i ty) := by
  obtain ⟨d1, d2⟩ := deref_some ho
  obtain ⟨x, h1, h2, h3⟩ := hs.types r _ d1
  obtain ⟨off, o1, o2, o3⟩ := struct_offset hd hf
  have hl : lower idx (.get d r name fields i ty) [x.ty] =
      some ⟨[.load 1 0 (width nativeConv ty) off.toNat], some (d, 1, ty)⟩ := by
    simp [lower, structGet, o1, checkedOffset, o2]
  refine pure_ok (v := v) hs (load_step h1 rfl hl) rfl (by rw [← width_eq]; exact loadN_lt _ _ _) (fun hh => ?_)
  obtain ⟨b, b1, b2, b3⟩ := hh.ref d1 d2 h1
  obtain ⟨tys, t1, t2, t3⟩ := b3.fields
  rw [hdecl] at t1 t3
  cases t1
  have := t3 i f.2 off.toNat v (by simp [hf]) (o3 _) hv
  rw [b2, addr_nat (by have := b3.bound; omega), width_eq, show fieldSize nativeConv ty = _ from hty]
  exact this

theorem name_inj {variants : List (String × List Ty)} (hn : (variants.map (·.1)).Nodup) {i j : Nat}
    {u v : String × List Ty} (hi : variants[i]? = some u) (hj : variants[j]? = some v) (h : u.1 = v.1) :
    i = j := by
  have hp := List.pairwise_iff_getElem.mp hn
  obtain ⟨hi1, hi2⟩ := List.getElem?_eq_some_iff.mp hi
  obtain ⟨hj1, hj2⟩ := List.getElem?_eq_some_iff.mp hj
  rcases Nat.lt_trichotomy i j with hlt | heq | hlt
  · have := hp i j (by simpa using hi1) (by simpa using hj1) hlt
    simp [hi2, hj2, h] at this
  · exact heq
  · have := hp j i (by simpa using hj1) (by simpa using hi1) hlt
    simp [hi2, hj2, h] at this

theorem find_name {variants : List (String × List Ty)} : ∀ {k : Nat} {v : String × List Ty},
    (variants.map (·.1)).Nodup → variants[k]? = some v →
    variants.find? (fun u => u.1 == v.1) = some v ∧ variants.lookup v.1 = some v.2 := by
  induction variants with
  | nil => intro k v _ h; simp at h
  | cons u us ih =>
    intro k v hn h
    simp only [List.map_cons, List.nodup_cons] at hn
    cases k with
    | zero => 
      simp at h; subst h
      obtain ⟨un, ut⟩ := u
      simp
    | succ k =>
      simp only [List.getElem?_cons_succ] at h
      obtain ⟨i1, i2⟩ := ih hn.2 h
      have hne : u.1 ≠ v.1 := fun e => hn.1 (e ▸ List.mem_map_of_mem (List.mem_of_getElem? h))
      obtain ⟨un, ut⟩ := u
      simp only at hne
      constructor
      · rw [List.find?_cons_of_neg (by simpa using hne)]; exact i1
      · rw [List.lookup_cons]
        have : (v.1 == un) = false := by simpa using fun e => hne e.symm
        rw [this]; exact i2

theorem enum_offset {n : String} {variants : List (String × List Ty)} (hd : Sized (.enum n variants)) {k i : Nat}
    {v : String × List Ty} (hk : variants[k]? = some v) {t : Ty} (hi : v.2[i]? = some t) :
    ∃ l o, findVariantLayout (computeEnumLayout nativeConv variants) v.1 = some l ∧
      l.fieldOffsets[i]? = some o ∧
      ((computeEnumLayout nativeConv variants).fieldsOffset + o).toNat < 2 ^ 31 ∧
      (offsets (.enum n variants) k)[i]? = some
        ((computeEnumLayout nativeConv variants).fieldsOffset + o).toNat := by
  have hft : fieldTypes (.enum n variants) k = some v.2 := by simp [fieldTypes, hk]
  obtain ⟨hf, ht⟩ := layout_ok hd hft
  obtain ⟨l, f1, f2, f3⟩ := find_at hd (name := v.1) (tys := v.2) (by rw [hk])
  obtain ⟨o, ho⟩ := getElem?_of_fits hf hi
  have h1 := hf.inside i _ _ hi ho
  have h2 : 0 < fieldSize nativeConv t := fieldAlign_pos nativeConv _
  have ho2 := ho
  simp only [offsets, f2, List.getElem?_map, Option.map_eq_some_iff] at ho
  obtain ⟨o', ho', rfl⟩ := ho
  have h5 : ((computeEnumLayout nativeConv variants).fieldsOffset + o').toNat =
      (computeEnumLayout nativeConv variants).fieldsOffset.toNat + o'.toNat := by
    rw [UInt32.toNat_add]; omega
  exact ⟨l, o', f1, ho', by omega, by rw [h5]; exact ho2⟩

theorem vget_ok {idx : Decl → UInt32} {a : Nat} {m0 : Mem} {Γ : Nat → Option Ty} {σ : AState} {s : CState}
    (hs : Shape Γ σ s) {d r : Nat} {name : String} {variants : List (String × List Ty)} {tag : String} {i : Nat}
    {ty : Ty} (hd : Sized (.enum name variants)) (hex : ∃ v, v ∈ variants ∧ v.1 = tag ∧ i < v.2.length)
    {o : Nat × Obj} (ho : σ.deref r = some o) (hdecl : o.2.decl = .enum name variants)
    (hvar : (variants[o.2.variant]?).map (·.1) = some tag) {v : Val} (hv : o.2.fields[i]? = some v) :
    StepOk idx a m0 Γ σ (σ.bindReg d v) s (.vget d r name variants tag i ty) := by
  obtain ⟨d1, d2⟩ := deref_some ho
  obtain ⟨x, h1, h2, h3⟩ := hs.types r _ d1
  obtain ⟨u, hu, rfl, hiu⟩ := hex
  obtain ⟨k, hk, hke⟩ := List.mem_iff_getElem.mp hu
  have hk' : variants[k]? = some u := by rw [List.getElem?_eq_getElem hk, hke]
  obtain ⟨n1, n2⟩ := find_name hd.2.2 hk'
  have hkeq : o.2.variant = k := by
    simp only [Option.map_eq_some_iff] at hvar
    obtain ⟨u', e1, e2⟩ := hvar
    exact name_inj hd.2.2 e1 hk' e2
  have hi : u.2[i]? = some u.2[i] := List.getElem?_eq_getElem hiu
  obtain ⟨l, off, o1, o2, o3, o4⟩ := enum_offset hd hk' hi
  have hlt : loadTy variants u.1 i ty = u.2[i] := by
    simp only [loadTy, n1, Option.bind_some, hi]
  have hl : lower idx (.vget d r name variants u.1 i ty) [x.ty] =
      some ⟨[.load 1 0 (width nativeConv u.2[i])
        ((computeEnumLayout nativeConv variants).fieldsOffset + off).toNat], some (d, 1, u.2[i])⟩ := by
    simp only [lower, variantGet, o1, Option.bind_some, o2, checkedOffset, o3, if_true, hlt, Option.map_some]
  refine pure_ok (v := v) hs (load_step h1 rfl hl) ?_ (by rw [← width_eq]; exact loadN_lt _ _ _) (fun hh => ?_)
  · simp [typed, resultTy, n2, hi]
  obtain ⟨b, b1, b2, b3⟩ := hh.ref d1 d2 h1
  obtain ⟨tys, t1, t2, t3⟩ := b3.fields
  rw [hdecl, hkeq] at t1 t3
  simp only [fieldTypes, hk', Option.map_some, Option.some.injEq] at t1
  subst t1
  have := t3 i _ _ v hi o4 hv
  rw [b2, addr_nat (by have := b3.bound; omega), width_eq]
  exact this

theorem is_ok {idx : Decl → UInt32} {a : Nat} {m0 : Mem} {Γ : Nat → Option Ty} {σ : AState} {s : CState}
    (hs : Shape Γ σ s) {d r : Nat} {name : String} {variants : List (String × List Ty)} {tag : String}
    (hd : Sized (.enum name variants)) (hex : tag ∈ variants.map (·.1))
    {o : Nat × Obj} (ho : σ.deref r = some o) (hdecl : o.2.decl = .enum name variants)
    {u : String × List Ty} (hvar : variants[o.2.variant]? = some u) :
    StepOk idx a m0 Γ σ (σ.bindReg d (.word (if u.1 = tag then 1 else 0))) s (.is d r name variants tag) := by
  obtain ⟨d1, d2⟩ := deref_some ho
  obtain ⟨x, h1, h2, h3⟩ := hs.types r _ d1
  obtain ⟨k, hk, hke⟩ := List.mem_iff_getElem.mp hex
  have hkv : k < variants.length := by simpa using hk
  simp only [List.getElem_map] at hke
  obtain ⟨l, f1, f2, f3⟩ := find_at hd (k := k) (name := tag) (tys := variants[k].2)
    (by rw [List.getElem?_eq_getElem hkv, ← hke])
  have hst : cstep idx a s (.is d r name variants tag) = some ⟨fun n => if n = d then
      some ⟨if loadN s.mem (addr x.val 0) 4 = k then 1 else 0, ⟨"core", "i8"⟩⟩ else s.regs n, s.mem, s.blocks⟩ := by
    have hkl : k < 2 ^ 32 := by have := hd.1; omega
    have hm : (((l.tagValue.toNat : Int)) % 4294967296).toNat = k := by omega
    simp [cstep, Act.operands, h1, lower, variantIs, f1, steps, step, State.set, requested, hm]
  refine pure_ok (v := .word (if u.1 = tag then 1 else 0)) hs hst rfl (by split <;> decide) (fun hh => ?_)
  obtain ⟨b, b1, b2, b3⟩ := hh.ref d1 d2 h1
  obtain ⟨ht, _⟩ := b3.tag _ _ hdecl
  simp only [Rep]
  rw [b2, show addr (b.1 + 8) 0 = b.1 + 8 from by have := b3.bound; unfold addr; omega, ht]
  have hiff : o.2.variant = k ↔ u.1 = tag := by
    obtain ⟨hl, e3⟩ := List.getElem?_eq_some_iff.mp hvar
    constructor
    · intro e; subst e; rw [← e3]; exact hke
    · intro e
      exact name_inj hd.2.2 hvar (List.getElem?_eq_getElem hkv) (by rw [hke]; exact e)
  simp only [hiff]

theorem separate_apart {blocks : List (Nat × Nat)} (h : Separate blocks) {i j : Nat} {b c : Nat × Nat}
    (hi : blocks[i]? = some b) (hj : blocks[j]? = some c) (hne : i ≠ j) :
    b.1 + b.2 ≤ c.1 ∨ c.1 + c.2 ≤ b.1 := by
  have hp := List.pairwise_iff_getElem.mp h
  obtain ⟨hi1, hi2⟩ := List.getElem?_eq_some_iff.mp hi
  obtain ⟨hj1, hj2⟩ := List.getElem?_eq_some_iff.mp hj
  rcases Nat.lt_trichotomy i j with hlt | heq | hlt
  · have := hp i j hi1 hj1 hlt
    rwa [hi2, hj2] at this
  · exact absurd heq hne
  · have := hp j i hj1 hi1 hlt
    rw [hi2, hj2] at this
    exact this.symm

theorem set_ok {idx : Decl → UInt32} {a : Nat} {m0 : Mem} {Γ : Nat → Option Ty} {σ : AState} {s : CState}
    (hs : Shape Γ σ s) {r v : Nat} {name : String} {fields : List (String × Ty)} {i : Nat}
    (hd : Sized (.struct name fields)) {f : String × Ty} (hf : fields[i]? = some f) {u : Ty} (hu : Γ v = some u)
    (hty : SameSize u f.2) {o : Nat × Obj} (ho : σ.deref r = some o) {x : Val} (hx : σ.regs v = some x)
    (hdecl : o.2.decl = .struct name fields) (hi : i < o.2.fields.length) :
    StepOk idx a m0 Γ σ { σ with heap := σ.heap.set o.1 { o.2 with fields := o.2.fields.set i x } } s
      (.set r v name fields i) := by
  obtain ⟨d1, d2⟩ := deref_some ho
  obtain ⟨p, h1, h2, h3⟩ := hs.types r _ d1
  obtain ⟨y, g1, g2, g3⟩ := hs.types v _ hx
  rw [hu] at g2
  cases g2
  obtain ⟨off, o1, o2, o3⟩ := struct_offset hd hf
  have hw : width nativeConv y.ty = fieldSize nativeConv f.2 := by rw [width_eq]; exact hty
  refine ⟨⟨s.regs, storeN s.mem (addr p.val off.toNat) y.val (fieldSize nativeConv f.2), s.blocks⟩, ?_, ?_,
    ⟨[], by simp⟩, fun hsep hh => ?_⟩
  · simp only [cstep, Act.operands, mapM_two _ _ _ _ _ h1 g1, Option.bind_some, lower, List.map_cons,
      List.getElem?_cons_succ, List.getElem?_cons_zero, structSet, o1, checkedOffset, o2, if_true, Option.map_some]
    simp [steps, step, requested, hw]
  · exact ⟨by simp [hs.blocks], hs.types⟩
  obtain ⟨b, b1, b2, b3⟩ := hh.ref d1 d2 h1
  obtain ⟨tys, t1, t2, t3⟩ := b3.fields
  have hlay := layout_ok b3.sized t1
  rw [hdecl] at t1
  cases t1
  have hft : (fields.map (·.2))[i]? = some f.2 := by simp [hf]
  have hoff : (offsets o.2.decl o.2.variant)[i]? = some off.toNat := by rw [hdecl]; exact o3 _
  have hin := hlay.1.inside i _ _ hft hoff
  have hbs := b3.size
  rw [b2, addr_nat (by have := b3.bound; omega)]
  have hother : ∀ q, (q < b.1 + 8 + off.toNat ∨ b.1 + 8 + off.toNat + fieldSize nativeConv f.2 ≤ q) →
      storeN s.mem (b.1 + 8 + off.toNat) y.val (fieldSize nativeConv f.2) q = s.mem q :=
    fun q hq => storeN_other hq
  refine ⟨hh.values, fun id o' b' e1 e2 => ?_, fun q hq => ?_⟩
  · by_cases hid : id = o.1
    · subst hid
      simp only at e2
      rw [b1] at e2
      cases e2
      have hlt : o.1 < σ.heap.length := (List.getElem?_eq_some_iff.mp d2).1
      simp only [List.getElem?_set_self hlt, Option.some.injEq] at e1
      subst e1
      refine ⟨b3.sized, b3.size, b3.bound, ?_, ?_, fun n vs e => ?_, fields.map (·.2), ?_, by simpa using t2, ?_⟩
      · rw [← b3.count]
        exact loadN_congr _ _ fun q q1 q2 => hother q (by omega)
      · show _ = (idx o.2.decl).toNat
        rw [← b3.index]
        exact loadN_congr _ _ fun q q1 q2 => hother q (by omega)
      · simp only at e
        rw [hdecl] at e
        cases e
      · show fieldTypes o.2.decl _ = _
        rw [hdecl]; rfl
      · intro j t oj w e1 e2 e3
        simp only at e2 e3
        by_cases hj : j = i
        · subst hj
          rw [hft] at e1
          cases e1
          rw [hoff] at e2
          cases e2
          rw [List.getElem?_set_self hi] at e3
          cases e3
          rw [loadN_storeN _ _ _ _ (by rw [← show fieldSize nativeConv y.ty = _ from hty]; exact g3)]
          exact hh.values v x y hx g1
        · rw [List.getElem?_set_ne (by omega)] at e3
          have hdis : oj + fieldSize nativeConv t ≤ off.toNat ∨ off.toNat + fieldSize nativeConv f.2 ≤ oj := by
            rcases Nat.lt_or_gt_of_ne hj with hlt | hlt
            · exact Or.inl (hlay.1.disjoint j i t oj off.toNat hlt e1 e2 hoff)
            · exact Or.inr (hlay.1.disjoint i j f.2 off.toNat oj hlt hft hoff e2)
          simp only
          rw [loadN_congr (m' := s.mem) _ _ fun q q1 q2 => hother q (by omega)]
          exact t3 j t oj w e1 e2 e3
    · simp only at e1
      rw [List.getElem?_set_ne (fun h => hid h.symm)] at e1
      have hb' := hh.objs id o' b' e1 e2
      have hap := separate_apart hsep e2 b1 hid
      have := hb'.frame (more := []) (m' := storeN s.mem (b.1 + 8 + off.toNat) y.val (fieldSize nativeConv f.2))
        fun q q1 q2 => hother q (by omega)
      simpa using this
  · have := hq b (List.mem_of_getElem? b1)
    show storeN _ _ _ _ q = _
    rw [hother q (by omega)]
    exact hh.outside q hq

theorem mapM_regs {Γ : Nat → Option Ty} {σ : AState} {s : CState} (hs : Shape Γ σ s) :
    ∀ {args : List Nat} {vals : List Val} {tys : List Ty}, args.mapM σ.regs = some vals →
      List.Forall₂ (fun r t => ∃ u, Γ r = some u ∧ SameSize u t) args tys →
      ∃ xs : List Reg, args.mapM s.regs = some xs ∧ List.Forall₂ SameSize (xs.map (·.ty)) tys ∧
        FitFields tys (xs.map (·.val)) ∧ vals.length = tys.length ∧
        ∀ idx m0, Holds idx m0 σ s → List.Forall₂ (Rep s.blocks) vals (xs.map (·.val))
  | [], vals, _, h, .nil => by
    simp at h
    subst h
    exact ⟨[], by simp, .nil, .nil, rfl, fun _ _ _ => .nil⟩
  | r :: args, vals, t :: tys, h, .cons ⟨u, hu1, hu2⟩ ht => by
    simp only [List.mapM_cons, Option.pure_def, Option.bind_eq_bind, Option.bind_eq_some_iff,
      Option.some.injEq] at h
    obtain ⟨v, hv, vs, hvs, rfl⟩ := h
    obtain ⟨xs, x1, x2, x3, x4, x5⟩ := mapM_regs hs hvs ht
    obtain ⟨y, y1, y2, y3⟩ := hs.types r v hv
    rw [hu1] at y2
    cases y2
    refine ⟨y :: xs, by simp [y1, x1], .cons hu2 x2, .cons ?_ x3, by simp [x4], fun idx m0 hh =>
      .cons (hh.values r v y hv y1) (x5 idx m0 hh)⟩
    show y.val < 256 ^ fieldSize nativeConv t
    rw [← show fieldSize nativeConv y.ty = _ from hu2]
    exact y3

theorem new_ok {idx : Decl → UInt32} {a : Nat} (ha : a < 2 ^ 63) {m0 : Mem} {Γ : Nat → Option Ty} {σ : AState}
    {s : CState} (hs : Shape Γ σ s) {d : Nat} {decl : Decl} {k : Nat} {args : List Nat} (hd : Sized decl)
    {tys : List Ty} (htys : fieldTypes decl k = some tys)
    (hargs : List.Forall₂ (fun r t => ∃ u, Γ r = some u ∧ SameSize u t) args tys) {vals : List Val}
    (hvals : args.mapM σ.regs = some vals) :
    StepOk idx a m0 Γ σ (({ σ with heap := σ.heap ++ [⟨decl, k, vals⟩] } : AState).bindReg d (.ref σ.heap.length))
      s (.new d decl k args) := by
  obtain ⟨xs, x1, x2, x3, x4, x5⟩ := mapM_regs hs hvals hargs
  obtain ⟨code, t, c1, c2, c3, c4⟩ := new_run idx hd htys x2 x3 ⟨a, fun _ m => m⟩ (by show a + 2 ^ 32 ≤ _; omega)
    s.mem
  have hres : t.env ((xs.map (·.ty)).length + 7) = some (a + 8) := c3.result
  obtain ⟨hfit, htot⟩ := layout_ok hd htys
  have hst : cstep idx a s (.new d decl k args) = some ⟨fun n => if n = d then some ⟨a + 8, ptr⟩ else s.regs n,
      t.mem, s.blocks ++ [(a, (total decl).toNat + 8)]⟩ := by
    simp only [cstep, Act.operands, x1, Option.bind_some, lower_new, c1, Option.map_some]
    have : steps ⟨a, fun _ m => m⟩ ⟨fun i => (xs.map (·.val))[i]?, s.mem, []⟩ code = some t := c2
    simp only [this, Option.bind_some, hres, c3.events, requested, List.filterMap_cons, List.filterMap_nil]
  have hidx : σ.heap.length = s.blocks.length := hs.blocks.symm
  refine ⟨_, hst, ⟨by simp [AState.bindReg, hs.blocks], fun d' v' h' => ?_⟩, ⟨_, rfl⟩, fun hsep hh => ?_⟩
  · simp only [AState.bindReg] at h'
    simp only [typed, resultTy]
    by_cases hdd : d' = d
    · simp only [hdd, if_true, Option.some.injEq, exists_eq_left']
      refine ⟨rfl, ?_⟩
      have : 256 ^ fieldSize nativeConv ptr = 2 ^ 64 := by decide
      rw [this]; omega
    · simp only [hdd, if_false] at h' ⊢
      exact hs.types d' v' h'
  have hnew : (s.blocks ++ [(a, (total decl).toNat + 8)])[s.blocks.length]? = some (a, (total decl).toNat + 8) := by
    simp
  refine ⟨fun d' v' r' e1 e2 => ?_, fun id o b e1 e2 => ?_, fun q hq => ?_⟩
  · simp only [AState.bindReg] at e1
    simp only at e2
    by_cases hdd : d' = d
    · simp only [hdd, if_true, Option.some.injEq] at e1 e2
      subst e1 e2
      exact ⟨_, by rw [hidx]; exact hnew, rfl⟩
    · simp only [hdd, if_false] at e1 e2
      exact (hh.values d' v' r' e1 e2).append
  · simp only [AState.bindReg] at e1
    simp only at e2
    by_cases hid : id < s.blocks.length
    · have e2' := e2
      rw [List.getElem?_append_left hid] at e2
      rw [List.getElem?_append_left (by omega)] at e1
      have hap := separate_apart hsep e2' hnew (by omega)
      refine (hh.objs id o b e1 e2).frame fun q q1 q2 => c3.frame q ?_
      simp only at hap ⊢
      omega
    · have hid2 : id = s.blocks.length := by
        have := (List.getElem?_eq_some_iff.mp e2).1
        simp at this
        omega
      subst hid2
      rw [hnew] at e2
      rw [← hidx] at e1
      simp at e1
      cases e2
      subst e1
      refine ⟨hd, rfl, ha, c3.count, c3.index, fun n vs e => ⟨c4 n vs e, ?_⟩, tys, htys, x4, ?_⟩
      · simp only at e
        subst e
        exact enum_total_ge nativeConv vs hd.2.1
      · intro i ty off v e1 e2 e3
        have hv2 := List.forall₂_iff_get.mp (x5 idx m0 hh)
        obtain ⟨hi3, ei3⟩ := List.getElem?_eq_some_iff.mp e3
        have hi4 : i < (xs.map (·.val)).length := by rw [← hv2.1]; exact hi3
        have hrep := hv2.2 i hi3 hi4
        simp only [List.get_eq_getElem] at hrep ei3
        rw [ei3] at hrep
        have hmem : ((ty, off), (xs.map (·.val))[i]) ∈ (tys.zip (offsets decl k)).zip (xs.map (·.val)) := by
          refine List.mem_of_getElem? (i := i) ?_
          rw [List.getElem?_zip_eq_some]
          refine ⟨?_, List.getElem?_eq_getElem hi4⟩
          rw [List.getElem?_zip_eq_some]
          exact ⟨e1, e2⟩
        have := (c3.fields _ hmem).1
        simp only at this
        rw [width_eq] at this
        show Rep _ v (loadN t.mem (a + 8 + off) _)
        rw [this]
        exact hrep.append
  · show t.mem q = _
    rw [c3.frame q (by
      have := hq (a, (total decl).toNat + 8) (by simp)
      simp only at this ⊢
      omega)]
    exact hh.outside q fun b hb => hq b (by simp [hb])

end Verif.Fields
