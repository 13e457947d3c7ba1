import Verif.Rtti.Spec
import Verif.Layout.Props
/-!
# Lemmas for C25 and C42
-/
namespace Verif.Rtti
open Verif.Layout

/-! ## Memory -/

theorem loadN_congr {m m' : Mem} : ∀ (n a : Nat), (∀ x, a ≤ x → x < a + n → m x = m' x) →
    loadN m a n = loadN m' a n
  | 0, _, _ => rfl
  | n + 1, a, h => by
    rw [loadN, loadN, h a (by omega) (by omega),
      loadN_congr n (a + 1) (fun x h1 h2 => h x (by omega) (by omega))]

theorem loadN_bytes (m : Mem) : ∀ (n a v : Nat), v < 256 ^ n →
    (∀ i, i < n → m (a + i) = UInt8.ofNat (v / 256 ^ i)) → loadN m a n = v
  | 0, _, v, hv, _ => by simp at hv; simp [loadN, hv]
  | n + 1, a, v, hv, h => by
    have h0 := h 0 (by omega)
    simp only [Nat.add_zero, Nat.pow_zero, Nat.div_one] at h0
    have ih := loadN_bytes m n (a + 1) (v / 256) (by rw [Nat.pow_succ] at hv; omega)
      (fun i hi => by
        have := h (i + 1) (by omega)
        rw [show a + 1 + i = a + (i + 1) from by omega, this, Nat.pow_succ, Nat.mul_comm,
          ← Nat.div_div_eq_div_mul])
    rw [loadN, ih, h0]
    simp
    omega

theorem loadN_storeN (m : Mem) (a v n : Nat) (hv : v < 256 ^ n) : loadN (storeN m a v n) a n = v := by
  refine loadN_bytes _ n a v hv fun i hi => ?_
  rw [storeN, if_pos (by omega), Nat.add_sub_cancel_left]

theorem storeN_other {m : Mem} {a v n x : Nat} (h : x < a ∨ a + n ≤ x) : storeN m a v n x = m x := by
  rw [storeN, if_neg (by omega)]

theorem addr_nat {base : Nat} {off : Nat} (h : base + off < 2 ^ 64) : addr base off = base + off := by
  unfold addr; omega

theorem asI32_nat {o : UInt32} (h : o.toNat < 2 ^ 31) : asI32 o = o.toNat := by rw [asI32, if_pos h]

/-- A sequence of stores: address, value, width. -/
def storeAll (m : Mem) (l : List (Nat × Nat × Nat)) : Mem :=
  l.foldl (fun m x => storeN m x.1 x.2.1 x.2.2) m

theorem storeAll_other : ∀ (l : List (Nat × Nat × Nat)) (m : Mem) (x : Nat),
    (∀ e ∈ l, x < e.1 ∨ e.1 + e.2.2 ≤ x) → storeAll m l x = m x
  | [], _, _, _ => rfl
  | e :: l, m, x, h => by
    have h1 := storeAll_other l (storeN m e.1 e.2.1 e.2.2) x (fun e' he => h e' (List.mem_cons_of_mem _ he))
    rw [storeAll, List.foldl_cons, ← storeAll, h1]
    exact storeN_other (h e List.mem_cons_self)

theorem storeAll_load : ∀ (l : List (Nat × Nat × Nat)) (m : Mem),
    l.Pairwise (fun a b => a.1 + a.2.2 ≤ b.1) → ∀ e ∈ l, e.2.1 < 256 ^ e.2.2 →
    loadN (storeAll m l) e.1 e.2.2 = e.2.1
  | [], _, _, e, he, _ => by cases he
  | e0 :: l, m, hp, e, he, hv => by
    rw [List.pairwise_cons] at hp
    rcases List.mem_cons.mp he with rfl | he
    · rw [storeAll, List.foldl_cons, ← storeAll]
      rw [loadN_congr (m' := storeN m e.1 e.2.1 e.2.2), loadN_storeN _ _ _ _ hv]
      intro x h1 h2
      refine storeAll_other l _ x fun e' he' => Or.inl ?_
      have := hp.1 e' he'
      omega
    · rw [storeAll, List.foldl_cons, ← storeAll]
      exact storeAll_load l _ hp.2 e he hv

/-! ## Runs -/

def Runs (w : World) (code : Code) (l : Label) (s s' : State) : Prop :=
  ∃ fuel, run w code fuel l s = some s'

theorem Runs.ret {w : World} {code : Code} {l : Label} {s s' : State} {b : Block}
    (hb : code.lookup l = some b) (hs : steps w s b.ops = some s') (ht : b.term = .ret) :
    Runs w code l s s' := ⟨1, by simp [run, hb, hs, ht]⟩

theorem Runs.jump {w : World} {code : Code} {l l' : Label} {s s1 s' : State} {b : Block}
    (hb : code.lookup l = some b) (hs : steps w s b.ops = some s1) (ht : b.term = .jump l')
    (h : Runs w code l' s1 s') : Runs w code l s s' := by
  obtain ⟨f, hf⟩ := h
  exact ⟨f + 1, by simp [run, hb, hs, ht, hf]⟩

theorem Runs.brif {w : World} {code : Code} {l t e : Label} {s s1 s' : State} {b : Block} {c v : Nat}
    (hb : code.lookup l = some b) (hs : steps w s b.ops = some s1) (ht : b.term = .brif c t e)
    (hv : s1.env c = some v) (h : Runs w code (if v = 0 then e else t) s1 s') : Runs w code l s s' := by
  obtain ⟨f, hf⟩ := h
  exact ⟨f + 1, by simp [run, hb, hs, ht, hv, hf]⟩

theorem lookup_of_nodup {code : Code} : ∀ {l : Label} {b : Block}, (code.map (·.1)).Nodup →
    (l, b) ∈ code → code.lookup l = some b := by
  induction code with
  | nil => intro l b _ h; cases h
  | cons x code ih =>
    obtain ⟨l0, b0⟩ := x
    intro l b hn hm
    simp only [List.map_cons, List.nodup_cons] at hn
    rcases List.mem_cons.mp hm with h | h
    · cases h; simp
    · rw [List.lookup_cons]
      have : l ≠ l0 := by
        rintro rfl
        exact hn.1 (List.mem_map.mpr ⟨_, h, rfl⟩)
      rw [beq_eq_false_iff_ne.mpr this]
      exact ih hn.2 h

/-- What stays true while a destructor runs: the payload pointer, and the object's fields. -/
structure Inv (lo hi : Nat) (m0 : Mem) (s : State) : Prop where
  payload : s.env 0 = some lo
  mem : AgreeOn lo hi s.mem m0

/-- What is released for a pointer field. -/
def relOf (m0 : Mem) (payload : Nat) (offs : List Nat) : List Event :=
  offs.filterMap fun o => let v := loadN m0 (payload + o) 8
    if v = 0 then none else some (.release v 0)

theorem relOf_append (m0 : Mem) (lo : Nat) (a b : List Nat) :
    relOf m0 lo (a ++ b) = relOf m0 lo a ++ relOf m0 lo b := by simp [relOf]

/-- The check and release blocks of one field. -/
theorem field_run {w : World} {code : Code} {lo hi : Nat} {m0 : Mem} (hw : Leaves w lo hi)
    (hhi : hi ≤ 2 ^ 64) {lc lr next : Label} {o : Nat} (hob : lo + o + 8 ≤ hi)
    (hck : code.lookup lc = some (checkBlock (Int.ofNat o) next lr))
    (hrel : code.lookup lr = some (releaseBlock (Int.ofNat o) next)) {s : State} (hs : Inv lo hi m0 s) :
    ∃ s2, Inv lo hi m0 s2 ∧ s2.events = s.events ++ relOf m0 lo [o] ∧
      ∀ s', Runs w code next s2 s' → Runs w code lc s s' := by
  have ha : addr lo (o : Int) = lo + o := addr_nat (by omega)
  have hld : ∀ m, AgreeOn lo hi m m0 → loadN m (lo + o) 8 = loadN m0 (lo + o) 8 :=
    fun m hm => loadN_congr 8 _ fun x h1 h2 => hm x (by omega) (by omega)
  let v := loadN m0 (lo + o) 8
  let s1 : State := ((s.set 2 v).set 3 0).set 4 (if v = 0 then 1 else 0)
  have hs1 : steps w s (checkBlock (Int.ofNat o) next lr).ops = some s1 := by
    simp [checkBlock, steps, step, State.set, hs.payload, ha, hld _ hs.mem, s1, v]
  have hs1i : Inv lo hi m0 s1 := ⟨by simp [s1, State.set, hs.payload], hs.mem⟩
  by_cases hv : v = 0
  · refine ⟨s1, hs1i, ?_, fun s' h => ?_⟩
    · simp only [relOf, List.filterMap_cons]
      rw [if_pos hv]
      simp [s1, State.set]
    · refine Runs.brif hck hs1 rfl (v := 1) (by simp [s1, State.set, hv]) ?_
      exact h
  · let s3 : State := { (s1.set 2 v) with
      mem := w.released v s1.mem, events := s1.events ++ [.release v 0] }
    have hs3 : steps w s1 (releaseBlock (Int.ofNat o) next).ops = some s3 := by
      simp [releaseBlock, steps, step, State.set, hs1i.payload, ha, hld _ hs1i.mem, s3, v]
    have hs3i : Inv lo hi m0 s3 := by
      refine ⟨by simp [s3, State.set, hs1i.payload], fun a h1 h2 => ?_⟩
      show w.released v s1.mem a = _
      rw [hw v s1.mem a h1 h2]
      exact hs1i.mem a h1 h2
    refine ⟨s3, hs3i, ?_, fun s' h => ?_⟩
    · simp only [relOf, List.filterMap_cons]
      rw [if_neg hv]
      simp [s3, s1, State.set, v]
    · refine Runs.brif hck hs1 rfl (v := 0) (by simp [s1, State.set, hv]) ?_
      exact Runs.jump hrel hs3 rfl h

theorem chain_run {w : World} {code : Code} {lo hi : Nat} {m0 : Mem} (hw : Leaves w lo hi)
    (hhi : hi ≤ 2 ^ 64) (i : Nat) :
    ∀ (offs : List Nat) (j : Nat), (∀ o ∈ offs, lo + o + 8 ≤ hi) →
    (∀ x ∈ (chain i j (offs.map Int.ofNat)).2, code.lookup x.1 = some x.2) →
    ∀ s, Inv lo hi m0 s → ∃ s2, Inv lo hi m0 s2 ∧ s2.events = s.events ++ relOf m0 lo offs ∧
      ∀ s', Runs w code .dealloc s2 s' → Runs w code (chain i j (offs.map Int.ofNat)).1 s s'
  | [], j, _, _, s, hs => ⟨s, hs, by simp [relOf], fun _ h => h⟩
  | o :: offs, j, ho, hc, s, hs => by
    simp only [List.map_cons, chain] at hc ⊢
    obtain ⟨s1, i1, e1, r1⟩ := field_run hw hhi (ho o List.mem_cons_self) (hc _ List.mem_cons_self)
      (hc _ (List.mem_cons_of_mem _ List.mem_cons_self)) hs
    obtain ⟨s2, i2, e2, r2⟩ := chain_run hw hhi i offs (j + 1)
      (fun x hx => ho x (List.mem_cons_of_mem _ hx))
      (fun x hx => hc x (List.mem_cons_of_mem _ (List.mem_cons_of_mem _ hx))) s1 i1
    refine ⟨s2, i2, ?_, fun s' h => r1 s' (r2 s' h)⟩
    rw [e2, e1, List.append_assoc, ← relOf_append]
    rfl

theorem dealloc_run {w : World} {code : Code} {raw hi : Nat} {m0 : Mem} {total : UInt32} {l : Label}
    (hb : code.lookup l = some (deallocBlock total)) (hhi : hi ≤ 2 ^ 64) (hr : raw + 8 ≤ hi)
    {s : State} (hs : Inv (raw + 8) hi m0 s) :
    ∃ s', Runs w code l s s' ∧ s'.events = s.events ++ [.dealloc raw (total.toNat + 8)] := by
  have h1 : addr (raw + 8) (-8) = raw := by unfold addr; omega
  have h2 : (((total.toNat : Int) + 8) % 18446744073709551616).toNat = total.toNat + 8 := by
    have := total.toNat_lt; omega
  refine ⟨_, Runs.ret hb (s' := ?_) ?_ rfl, ?_⟩
  · exact { (((s.set 2 8).set 3 raw).set 4 (total.toNat + 8)) with
      events := s.events ++ [.dealloc raw (total.toNat + 8)] }
  · simp [deallocBlock, steps, step, State.set, hs.payload, h1, h2]
  · rfl

/-! ## Names of blocks -/

theorem chain_keys (i : Nat) : ∀ (offs : List Int) (j : Nat) (l : Label),
    l ∈ (chain i j offs).2.map (·.1) → ∃ j', j ≤ j' ∧ (l = .check i j' ∨ l = .release i j')
  | [], j, l, h => by simp [chain] at h
  | o :: offs, j, l, h => by
    simp only [chain, List.map_cons, List.mem_cons] at h
    rcases h with rfl | rfl | h
    · exact ⟨j, Nat.le_refl _, Or.inl rfl⟩
    · exact ⟨j, Nat.le_refl _, Or.inr rfl⟩
    · obtain ⟨j', h1, h2⟩ := chain_keys i offs (j + 1) l h
      exact ⟨j', by omega, h2⟩

theorem chain_nodup (i : Nat) : ∀ (offs : List Int) (j : Nat), ((chain i j offs).2.map (·.1)).Nodup
  | [], j => by simp [chain]
  | o :: offs, j => by
    simp only [chain, List.map_cons, List.nodup_cons, List.mem_cons]
    refine ⟨?_, ?_, chain_nodup i offs (j + 1)⟩
    · rintro (h | h)
      · cases h
      · obtain ⟨j', h1, h2 | h2⟩ := chain_keys i offs (j + 1) _ h
        · cases h2; omega
        · cases h2
    · intro h
      obtain ⟨j', h1, h2 | h2⟩ := chain_keys i offs (j + 1) _ h
      · cases h2
      · cases h2; omega

theorem tagChain_keys : ∀ (vs : List (UInt32 × List Int)) (i : Nat) (l : Label),
    l ∈ (tagChain i vs).2.map (·.1) → ∃ i', i ≤ i' ∧ l = .tag i'
  | [], i, l, h => by simp [tagChain] at h
  | v :: vs, i, l, h => by
    simp only [tagChain, List.map_cons, List.mem_cons] at h
    rcases h with rfl | h
    · exact ⟨i, Nat.le_refl _, rfl⟩
    · obtain ⟨i', h1, h2⟩ := tagChain_keys vs (i + 1) l h
      exact ⟨i', by omega, h2⟩

theorem tagChain_nodup : ∀ (vs : List (UInt32 × List Int)) (i : Nat),
    ((tagChain i vs).2.map (·.1)).Nodup
  | [], i => by simp [tagChain]
  | v :: vs, i => by
    simp only [tagChain, List.map_cons, List.nodup_cons]
    refine ⟨fun h => ?_, tagChain_nodup vs (i + 1)⟩
    obtain ⟨i', h1, h2⟩ := tagChain_keys vs (i + 1) _ h
    cases h2; omega

theorem chains_keys : ∀ (vs : List (UInt32 × List Int)) (i : Nat) (l : Label),
    l ∈ (chains i vs).map (·.1) → ∃ i' j', i ≤ i' ∧ (l = .check i' j' ∨ l = .release i' j')
  | [], i, l, h => by simp [chains] at h
  | v :: vs, i, l, h => by
    simp only [chains, List.map_append, List.mem_append] at h
    rcases h with h | h
    · obtain ⟨j', _, h2⟩ := chain_keys i _ _ _ h
      exact ⟨i, j', Nat.le_refl _, h2⟩
    · obtain ⟨i', j', h1, h2⟩ := chains_keys vs (i + 1) l h
      exact ⟨i', j', by omega, h2⟩

theorem chains_nodup : ∀ (vs : List (UInt32 × List Int)) (i : Nat), ((chains i vs).map (·.1)).Nodup
  | [], i => by simp [chains]
  | v :: vs, i => by
    simp only [chains, List.map_append]
    refine List.nodup_append.mpr ⟨chain_nodup _ _ _, chains_nodup vs (i + 1), ?_⟩
    intro a ha b hb hab
    subst hab
    obtain ⟨j', _, h2⟩ := chain_keys i _ _ _ ha
    obtain ⟨i', j'', h3, h4⟩ := chains_keys vs (i + 1) _ hb
    rcases h2 with rfl | rfl <;> rcases h4 with h4 | h4 <;> cases h4 <;> omega

/-! ## Construction -/

theorem steps_append (w : World) : ∀ (a b : List Op) (s : State),
    steps w s (a ++ b) = (steps w s a).bind fun s' => steps w s' b
  | [], b, s => rfl
  | op :: a, b, s => by
    rw [List.cons_append, steps, steps]
    cases step w s op with
    | none => rfl
    | some s' => exact steps_append w a b s'

/-- The stores of the fields, as memory operations. -/
def fieldList (pl : Nat) (tys : List Ty) (offs vals : List Nat) : List (Nat × Nat × Nat) :=
  ((tys.zip offs).zip vals).map fun x => (pl + x.1.2, x.2, width nativeConv x.1.1)

theorem fieldStores_run (w : World) (p pl : Nat) : ∀ (tys : List Ty) (offs vals : List Nat) (i : Nat)
    (s : State), offs.length = tys.length → vals.length = tys.length → s.env p = some pl →
    (∀ k, k < vals.length → s.env (i + k) = vals[k]?) → (∀ o ∈ offs, pl + o < 2 ^ 64) →
    steps w s (fieldStores nativeConv p i (tys.zip (offs.map Int.ofNat))) =
      some { s with mem := storeAll s.mem (fieldList pl tys offs vals) }
  | [], [], [], i, s, _, _, _, _, _ => by simp [fieldStores, steps, fieldList, storeAll]
  | t :: tys, o :: offs, v :: vals, i, s, h1, h2, h3, h4, h5 => by
    have hv : s.env i = some v := by simpa using h4 0 (by simp)
    have ha : addr pl (o : Int) = pl + o := addr_nat (h5 o List.mem_cons_self)
    simp only [List.map_cons, List.zip_cons_cons, fieldStores, steps, step, h3, hv, Option.bind_some]
    have ih := fieldStores_run w p pl tys offs vals (i + 1)
      { s with mem := storeN s.mem (pl + o) v (width nativeConv t) } (by simpa using h1)
      (by simpa using h2) h3 (fun k hk => by
        have := h4 (k + 1) (by simpa using hk)
        rw [show i + 1 + k = i + (k + 1) from by omega]
        simpa using this)
      (fun x hx => h5 x (List.mem_cons_of_mem _ hx))
    show steps w { s with mem := storeN s.mem (addr pl (o : Int)) v (width nativeConv t) } _ = _
    rw [ha, ih]
    simp [fieldList, storeAll]

theorem width_eq (t : Ty) : width nativeConv t = fieldSize nativeConv t :=
  (sizeAlign_nat (nativeConv t)).1

/-- After the stores, every field holds its value, and what comes before the fields is unchanged. -/
theorem fields_stored {tys : List Ty} {offs vals : List Nat} {total : Nat} (pl : Nat)
    (hf : Fits nativeConv tys offs total) (hv : FitFields tys vals) (m : Mem) :
    (∀ x ∈ (tys.zip offs).zip vals,
      loadN (storeAll m (fieldList pl tys offs vals)) (pl + x.1.2) (width nativeConv x.1.1) = x.2 ∧
      x.1.2 + width nativeConv x.1.1 ≤ total) ∧
    ∀ a, (∀ o ∈ offs, a < pl + o) → storeAll m (fieldList pl tys offs vals) a = m a := by
  have hl := hf.count
  have hl2 : tys.length = vals.length := List.Forall₂.length_eq hv
  have hget : ∀ {i : Nat} {x : (Ty × Nat) × Nat}, ((tys.zip offs).zip vals)[i]? = some x →
      tys[i]? = some x.1.1 ∧ offs[i]? = some x.1.2 ∧ vals[i]? = some x.2 := by
    intro i x hx
    rw [List.getElem?_zip_eq_some] at hx
    obtain ⟨h1, h2⟩ := hx
    rw [List.getElem?_zip_eq_some] at h1
    exact ⟨h1.1, h1.2, h2⟩
  refine ⟨fun x hx => ⟨?_, ?_⟩, fun a ha => ?_⟩
  · refine storeAll_load _ m ?_ (pl + x.1.2, x.2, width nativeConv x.1.1)
      (List.mem_map.mpr ⟨x, hx, rfl⟩) ?_
    · rw [List.pairwise_iff_getElem]
      intro i j hi hj hij
      simp only [fieldList, List.length_map] at hi hj
      simp only [fieldList, List.getElem_map]
      obtain ⟨a1, a2, a3⟩ := hget (List.getElem?_eq_getElem hi)
      obtain ⟨b1, b2, b3⟩ := hget (List.getElem?_eq_getElem hj)
      have := hf.disjoint i j _ _ _ hij a1 a2 b2
      rw [width_eq]
      omega
    · obtain ⟨i, hi, rfl⟩ := List.mem_iff_getElem.mp hx
      obtain ⟨a1, a2, a3⟩ := hget (List.getElem?_eq_getElem hi)
      rw [width_eq]
      have := List.forall₂_iff_get.mp hv
      obtain ⟨hi1, e1⟩ := List.getElem?_eq_some_iff.mp a1
      obtain ⟨hi2, e2⟩ := List.getElem?_eq_some_iff.mp a3
      have := this.2 i hi1 hi2
      simp only [List.get_eq_getElem, e1, e2] at this
      exact this
  · obtain ⟨i, hi, rfl⟩ := List.mem_iff_getElem.mp hx
    obtain ⟨a1, a2, a3⟩ := hget (List.getElem?_eq_getElem hi)
    rw [width_eq]
    exact hf.inside i _ _ a1 a2
  · refine storeAll_other _ m a fun e he => Or.inl ?_
    obtain ⟨x, hx, rfl⟩ := List.mem_map.mp he
    obtain ⟨i, hi, rfl⟩ := List.mem_iff_getElem.mp hx
    obtain ⟨a1, a2, a3⟩ := hget (List.getElem?_eq_getElem hi)
    exact ha _ (List.mem_of_getElem? a2)

/-! ## Pointer fields -/

theorem isPtr_eq {t : Ty} (h : t ≠ ⟨"tribute_rt", "anyref"⟩) :
    isPtr nativeConv t = (isReference t || isRawPointer t) := by
  obtain ⟨d, n⟩ := t
  simp only [ne_eq, Ty.mk.injEq] at h
  rw [Bool.eq_iff_iff]
  simp only [isPtr, nativeConv, isReference, isRawPointer, Ty.mk.injEq]
  repeat' split
  all_goals (simp_all <;> grind)

theorem width_ptr {t : Ty} (h : isPtr nativeConv t = true) : width nativeConv t = 8 := by
  simp only [isPtr, Bool.and_eq_true, beq_iff_eq] at h
  simp [width, typeSizeAlign, h.1, h.2]

/-- The offsets of the reference fields. -/
def refOffsets (tys : List Ty) (offs : List Nat) : List Nat :=
  (tys.zip offs).filterMap fun f => if isReference f.1 then some f.2 else none

theorem relOf_refs (m : Mem) (pl : Nat) : ∀ (tys : List Ty) (offs vals : List Nat),
    offs.length = tys.length → vals.length = tys.length →
    (∀ x ∈ (tys.zip offs).zip vals, isReference x.1.1 → loadN m (pl + x.1.2) 8 = x.2) →
    relOf m pl (refOffsets tys offs) = (references tys vals).map (.release · 0)
  | [], [], [], _, _, _ => rfl
  | t :: tys, o :: offs, v :: vals, h1, h2, h3 => by
    have ih := relOf_refs m pl tys offs vals (by simpa using h1) (by simpa using h2)
      (fun x hx => h3 x (List.mem_cons_of_mem _ hx))
    have h0 := h3 ((t, o), v) List.mem_cons_self
    simp only [refOffsets, references, List.zip_cons_cons, List.filterMap_cons] at ih ⊢
    by_cases hr : isReference t = true
    · simp only [hr, if_true, true_and] at h0 ⊢
      have h0 : loadN m (pl + o) 8 = v := h0 trivial
      by_cases hv : v = 0
      · simp only [relOf, List.filterMap_cons, h0, hv, if_true, ne_eq, not_true_eq_false, if_false] at ih ⊢
        exact ih
      · simp only [relOf, List.filterMap_cons, h0, hv, if_false, ne_eq, not_false_eq_true, if_true,
          List.map_cons] at ih ⊢
        rw [ih]
    · simp only [hr, false_and, if_false] at ih ⊢
      exact ih

theorem structPtrOffsets_eq (fields : List (String × Ty)) (offs : List UInt32)
    (hs : ∀ f ∈ fields, f.2 ≠ ⟨"tribute_rt", "anyref"⟩ ∧ (f.1 = "func_ptr" ↔ isRawPointer f.2 = true))
    (ho : ∀ o ∈ offs, o.toNat < 2 ^ 31) :
    ((fields.zip (offs.map asI32)).filterMap fun f =>
      if f.1.1 = "func_ptr" then none else if isPtr nativeConv f.1.2 then some f.2 else none) =
    (refOffsets (fields.map (·.2)) (offs.map UInt32.toNat)).map Int.ofNat := by
  induction fields generalizing offs with
  | nil => rfl
  | cons f fields ih =>
    cases offs with
    | nil => rfl
    | cons o offs =>
      have ih := ih offs (fun g hg => hs g (List.mem_cons_of_mem _ hg))
        (fun x hx => ho x (List.mem_cons_of_mem _ hx))
      obtain ⟨h1, h2⟩ := hs f List.mem_cons_self
      have h3 := isPtr_eq h1
      have hn : isRawPointer f.2 = true → isReference f.2 = false := by
        obtain ⟨n, d, t⟩ := f
        simp [isRawPointer, isReference]
        rintro (⟨rfl, rfl⟩ | ⟨rfl, rfl⟩) <;> simp
      simp only [refOffsets, List.map_cons, List.zip_cons_cons, List.filterMap_cons] at ih ⊢
      by_cases hp : f.1 = "func_ptr"
      · rw [if_pos hp, if_neg (by rw [hn (h2.mp hp)]; simp)]
        exact ih
      · have : isRawPointer f.2 = false := by
          cases h : isRawPointer f.2
          · rfl
          · exact absurd (h2.mpr h) hp
        rw [this, Bool.or_false] at h3
        rw [if_neg hp, h3]
        by_cases hr : isReference f.2 = true
        · rw [if_pos hr, if_pos hr]
          simp only [List.map_cons]
          rw [← ih, asI32_nat (ho o List.mem_cons_self)]
          rfl
        · rw [if_neg hr, if_neg hr]
          exact ih

theorem variantPtrOffsets_eq (fo : UInt32) (tys : List Ty) (offs : List UInt32)
    (hs : ∀ t ∈ tys, t ≠ ⟨"tribute_rt", "anyref"⟩ ∧ isRawPointer t = false)
    (ho : ∀ o ∈ offs, fo.toNat + o.toNat < 2 ^ 31) :
    ((tys.zip (offs.map fun o => asI32 (fo + o))).filterMap fun f =>
      if isPtr nativeConv f.1 then some f.2 else none) =
    (refOffsets tys (offs.map fun o => fo.toNat + o.toNat)).map Int.ofNat := by
  induction tys generalizing offs with
  | nil => rfl
  | cons t tys ih =>
    cases offs with
    | nil => rfl
    | cons o offs =>
      have ih := ih offs (fun g hg => hs g (List.mem_cons_of_mem _ hg))
        (fun x hx => ho x (List.mem_cons_of_mem _ hx))
      obtain ⟨h1, h2⟩ := hs t List.mem_cons_self
      have h3 := isPtr_eq h1
      rw [h2, Bool.or_false] at h3
      have h4 := ho o List.mem_cons_self
      have h5 : (fo + o).toNat = fo.toNat + o.toNat := by
        rw [UInt32.toNat_add]; omega
      simp only [refOffsets, List.map_cons, List.zip_cons_cons, List.filterMap_cons] at ih ⊢
      rw [h3]
      by_cases hr : isReference t = true
      · rw [if_pos hr, if_pos hr]
        simp only [List.map_cons]
        rw [← ih, asI32_nat (by omega), h5]
        rfl
      · rw [if_neg hr, if_neg hr]
        exact ih

end Verif.Rtti
