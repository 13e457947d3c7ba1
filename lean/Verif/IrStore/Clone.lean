import Verif.IrStore.Hist

/-
Cloning, step by step.
-/
namespace Verif.IrStore

/-! ## What stays -/

theorem Kept.refl (c : Store) : Kept c c :=
  ⟨⟨Nat.le_refl _, fun _ _ => rfl⟩, ⟨Nat.le_refl _, fun _ _ => rfl⟩, ⟨Nat.le_refl _, fun _ _ => rfl⟩,
    ⟨Nat.le_refl _, fun _ _ => rfl⟩, fun _ _ => rfl, fun _ _ => rfl⟩

theorem Kept.trans {a b c : Store} (h : Kept a b) (h' : Kept b c) : Kept a c :=
  ⟨⟨Nat.le_trans h.ops.1 h'.ops.1, fun o ho =>
      (h'.ops.2 o (Nat.lt_of_lt_of_le ho h.ops.1)).trans (h.ops.2 o ho)⟩,
   ⟨Nat.le_trans h.blocks.1 h'.blocks.1, fun o ho =>
      (h'.blocks.2 o (Nat.lt_of_lt_of_le ho h.blocks.1)).trans (h.blocks.2 o ho)⟩,
   ⟨Nat.le_trans h.regions.1 h'.regions.1, fun o ho =>
      (h'.regions.2 o (Nat.lt_of_lt_of_le ho h.regions.1)).trans (h.regions.2 o ho)⟩,
   ⟨Nat.le_trans h.vals.1 h'.vals.1, fun o ho =>
      (h'.vals.2 o (Nat.lt_of_lt_of_le ho h.vals.1)).trans (h.vals.2 o ho)⟩,
   fun o ho => (h'.results o (Nat.lt_of_lt_of_le ho h.ops.1)).trans (h.results o ho),
   fun o ho => (h'.args o (Nat.lt_of_lt_of_le ho h.blocks.1)).trans (h.args o ho)⟩

theorem look_congr {α β : Type} {dflt : β} {f : α → β} {l l' : List α} {i : Nat} (h : l'[i]? = l[i]?) :
    look dflt f l' i = look dflt f l i := by unfold look; rw [h]

theorem linkRegions_get {op : OpRef} : ∀ {rs : List RegionRef} {ds ds' : List RegionData},
    linkRegions op rs ds = some ds' → ∀ x, x ∉ rs → ds'[x]? = ds[x]? := by
  intro rs
  induction rs with
  | nil => intro ds ds' h x _; cases h; rfl
  | cons r rs ih =>
    intro ds ds' h x hx
    unfold linkRegions at h
    cases hr : ds[r]? with
    | none => rw [hr] at h; cases h
    | some d =>
      rw [hr] at h
      simp only at h
      split at h
      · cases h
      · rw [ih h x (fun hm => hx (.tail _ hm)), List.getElem?_set_ne]
        intro e; subst e; exact hx (.head _)

theorem linkBlocks_get {r : RegionRef} : ∀ {bs : List BlockRef} {ds ds' : List BlockData},
    linkBlocks r bs ds = some ds' → ∀ x, x ∉ bs → ds'[x]? = ds[x]? := by
  intro bs
  induction bs with
  | nil => intro ds ds' h x _; cases h; rfl
  | cons b bs ih =>
    intro ds ds' h x hx
    unfold linkBlocks at h
    cases hr : ds[b]? with
    | none => rw [hr] at h; cases h
    | some d =>
      rw [hr] at h
      simp only at h
      split at h
      · cases h
      · rw [ih h x (fun hm => hx (.tail _ hm)), List.getElem?_set_ne]
        intro e; subst e; exact hx (.head _)

theorem linkRegions_ok {op : OpRef} : ∀ {rs : List RegionRef} {ds : List RegionData}, rs.Nodup →
    (∀ r ∈ rs, ∃ d, ds[r]? = some d ∧ d.parent = none) → ∃ ds', linkRegions op rs ds = some ds' := by
  intro rs
  induction rs with
  | nil => intro ds _ _; exact ⟨ds, rfl⟩
  | cons r rs ih =>
    intro ds hn h
    obtain ⟨h1, h2⟩ := List.nodup_cons.1 hn
    obtain ⟨d, hd, hp⟩ := h r (.head _)
    unfold linkRegions
    rw [hd]
    simp only [hp, Option.isSome_none, Bool.false_eq_true, if_false]
    refine ih h2 (fun x hx => ?_)
    rw [List.getElem?_set_ne (fun e => by subst e; exact h1 hx)]
    exact h x (.tail _ hx)

theorem linkBlocks_ok {r : RegionRef} : ∀ {bs : List BlockRef} {ds : List BlockData}, bs.Nodup →
    (∀ b ∈ bs, ∃ d, ds[b]? = some d ∧ d.parent = none) → ∃ ds', linkBlocks r bs ds = some ds' := by
  intro bs
  induction bs with
  | nil => intro ds _ _; exact ⟨ds, rfl⟩
  | cons b bs ih =>
    intro ds hn h
    obtain ⟨h1, h2⟩ := List.nodup_cons.1 hn
    obtain ⟨d, hd, hp⟩ := h b (.head _)
    unfold linkBlocks
    rw [hd]
    simp only [hp, Option.isSome_none, Bool.false_eq_true, if_false]
    refine ih h2 (fun x hx => ?_)
    rw [List.getElem?_set_ne (fun e => by subst e; exact h1 hx)]
    exact h x (.tail _ hx)

theorem getElem?_push {α : Type} {l : List α} {a : α} {i : Nat} (h : i < l.length) :
    (l ++ [a])[i]? = l[i]? := List.getElem?_append_left h

/-- A step of building that only touches what is new with respect to `b`. -/
theorem Kept.createOp {b c c' : Store} {d : OpData} {op : OpRef} (h : Kept b c)
    (hr : ∀ r ∈ d.regions, b.regions.length ≤ r) (e : createOp c d = some (c', op)) : Kept b c' := by
  obtain ⟨-, rfl, rs, hl, rfl⟩ := createOp_eq e
  have hlen := linkRegions_length hl
  refine ⟨⟨?_, fun o ho => ?_⟩, h.blocks, ⟨?_, fun r hr' => ?_⟩, ⟨?_, fun v hv => ?_⟩, fun o ho => ?_, h.args⟩
  · simp only [List.length_append]; exact Nat.le_trans h.ops.1 (Nat.le_add_right _ _)
  · simp only [getElem?_push (Nat.lt_of_lt_of_le ho h.ops.1)]; exact h.ops.2 o ho
  · simp only [hlen]; exact h.regions.1
  · rw [← h.regions.2 r hr']
    exact linkRegions_get hl r (fun hm => absurd (hr r hm) (Nat.not_le.2 hr'))
  · simp only [List.length_append]; exact Nat.le_trans h.vals.1 (Nat.le_add_right _ _)
  · simp only [List.getElem?_append_left (Nat.lt_of_lt_of_le hv h.vals.1)]; exact h.vals.2 v hv
  · simp only [put_ne _ _ (Nat.ne_of_lt (Nat.lt_of_lt_of_le ho h.ops.1))]; exact h.results o ho

theorem Kept.createBlock {b c : Store} {d : BlockData} (h : Kept b c) : Kept b (createBlock c d).1 := by
  refine ⟨h.ops, ⟨?_, fun o ho => ?_⟩, h.regions, ⟨?_, fun v hv => ?_⟩, h.results, fun o ho => ?_⟩
  · simp only [IrStore.createBlock, List.length_append]; exact Nat.le_trans h.blocks.1 (Nat.le_add_right _ _)
  · simp only [IrStore.createBlock, getElem?_push (Nat.lt_of_lt_of_le ho h.blocks.1)]; exact h.blocks.2 o ho
  · simp only [IrStore.createBlock, List.length_append]; exact Nat.le_trans h.vals.1 (Nat.le_add_right _ _)
  · simp only [IrStore.createBlock, List.getElem?_append_left (Nat.lt_of_lt_of_le hv h.vals.1)]
    exact h.vals.2 v hv
  · simp only [IrStore.createBlock, put_ne _ _ (Nat.ne_of_lt (Nat.lt_of_lt_of_le ho h.blocks.1))]
    exact h.args o ho

theorem Kept.pushOp {b c c' : Store} {nb : BlockRef} {no : OpRef} (h : Kept b c)
    (hb : b.blocks.length ≤ nb) (ho : b.ops.length ≤ no) (e : pushOp c nb no = some c') : Kept b c' := by
  obtain ⟨d, bd, -, -, -, rfl⟩ := pushOp_eq e
  refine ⟨⟨?_, fun o hlt => ?_⟩, ⟨?_, fun x hlt => ?_⟩, h.regions, h.vals, h.results, h.args⟩
  · simp only [List.length_set]; exact h.ops.1
  · rw [← h.ops.2 o hlt]
    exact List.getElem?_set_ne (fun e => by subst e; exact absurd ho (Nat.not_le.2 hlt))
  · simp only [List.length_set]; exact h.blocks.1
  · rw [← h.blocks.2 x hlt]
    exact List.getElem?_set_ne (fun e => by subst e; exact absurd hb (Nat.not_le.2 hlt))

theorem Kept.createRegion {b c c' : Store} {d : RegionData} {r : RegionRef} (h : Kept b c)
    (hb : ∀ x ∈ d.blocks, b.blocks.length ≤ x) (e : createRegion c d = some (c', r)) : Kept b c' := by
  obtain ⟨-, bs, hl, rfl⟩ := createRegion_eq e
  obtain ⟨-, -, -, -, -, hlen⟩ := linkBlocks_spec hl
  refine ⟨h.ops, ⟨?_, fun x hx => ?_⟩, ⟨?_, fun x hx => ?_⟩, h.vals, h.results, h.args⟩
  · simp only [hlen]; exact h.blocks.1
  · rw [← h.blocks.2 x hx]
    exact linkBlocks_get hl x (fun hm => absurd (hb x hm) (Nat.not_le.2 hx))
  · simp only [List.length_append]; exact Nat.le_trans h.regions.1 (Nat.le_add_right _ _)
  · simp only [getElem?_push (Nat.lt_of_lt_of_le hx h.regions.1)]; exact h.regions.2 x hx

/-! ## What copies depend on -/

/-- The parts of a store that copies depend on stay; blocks below `kb` may get further operations. -/
structure Core (kb : Nat) (c c' : Store) : Prop where
  opsLen : c.ops.length ≤ c'.ops.length
  blocksLen : c.blocks.length ≤ c'.blocks.length
  regionsLen : c.regions.length ≤ c'.regions.length
  info : ∀ o < c.ops.length, c'.infoOf o = c.infoOf o
  tys : ∀ o < c.ops.length, c'.tysOf o = c.tysOf o
  operands : ∀ o < c.ops.length, c'.operandsOf o = c.operandsOf o
  succs : ∀ o < c.ops.length, c'.succsOf o = c.succsOf o
  regions : ∀ o < c.ops.length, c'.regionsOf o = c.regionsOf o
  results : ∀ o < c.ops.length, c'.results o = c.results o
  blocks : ∀ r < c.regions.length, c'.blocksOf r = c.blocksOf r
  argTys : ∀ b < c.blocks.length, c'.argTysOf b = c.argTysOf b
  args : ∀ b < c.blocks.length, c'.args b = c.args b
  ops : ∀ b < c.blocks.length, kb ≤ b → c'.opsOf b = c.opsOf b

theorem Kept.core {c c' : Store} (h : Kept c c') (kb : Nat) : Core kb c c' :=
  ⟨h.ops.1, h.blocks.1, h.regions.1, fun o ho => look_congr (h.ops.2 o ho),
    fun o ho => look_congr (h.ops.2 o ho), fun o ho => look_congr (h.ops.2 o ho),
    fun o ho => look_congr (h.ops.2 o ho), fun o ho => look_congr (h.ops.2 o ho), h.results,
    fun r hr => look_congr (h.regions.2 r hr), fun b hb => look_congr (h.blocks.2 b hb), h.args,
    fun b hb _ => look_congr (h.blocks.2 b hb)⟩

theorem Core.trans {kb : Nat} {a b c : Store} (h : Core kb a b) (h' : Core kb b c) : Core kb a c :=
  ⟨Nat.le_trans h.opsLen h'.opsLen, Nat.le_trans h.blocksLen h'.blocksLen,
    Nat.le_trans h.regionsLen h'.regionsLen,
    fun o ho => (h'.info o (Nat.lt_of_lt_of_le ho h.opsLen)).trans (h.info o ho),
    fun o ho => (h'.tys o (Nat.lt_of_lt_of_le ho h.opsLen)).trans (h.tys o ho),
    fun o ho => (h'.operands o (Nat.lt_of_lt_of_le ho h.opsLen)).trans (h.operands o ho),
    fun o ho => (h'.succs o (Nat.lt_of_lt_of_le ho h.opsLen)).trans (h.succs o ho),
    fun o ho => (h'.regions o (Nat.lt_of_lt_of_le ho h.opsLen)).trans (h.regions o ho),
    fun o ho => (h'.results o (Nat.lt_of_lt_of_le ho h.opsLen)).trans (h.results o ho),
    fun o ho => (h'.blocks o (Nat.lt_of_lt_of_le ho h.regionsLen)).trans (h.blocks o ho),
    fun o ho => (h'.argTys o (Nat.lt_of_lt_of_le ho h.blocksLen)).trans (h.argTys o ho),
    fun o ho => (h'.args o (Nat.lt_of_lt_of_le ho h.blocksLen)).trans (h.args o ho),
    fun o ho hk => (h'.ops o (Nat.lt_of_lt_of_le ho h.blocksLen) hk).trans (h.ops o ho hk)⟩

theorem core_createOp {kb : Nat} {c c' : Store} {d : OpData} {op : OpRef}
    (e : createOp c d = some (c', op)) : Core kb c c' := by
  obtain ⟨-, rfl, rs, hl, rfl⟩ := createOp_eq e
  have hlen := linkRegions_length hl
  obtain ⟨-, -, -, s4⟩ := linkRegions_spec hl
  have hp : ∀ {β : Type} (dflt : β) (f : OpData → β) (o : Nat), o < c.ops.length →
      look dflt f (c.ops ++ [d]) o = look dflt f c.ops o := fun _ _ _ ho => look_congr (getElem?_push ho)
  refine ⟨?_, Nat.le_refl _, by simp only [hlen]; exact Nat.le_refl _, hp _ _, hp _ _, hp _ _, hp _ _, hp _ _,
    fun o ho => ?_, fun r _ => congrFun s4 r, fun _ _ => rfl, fun _ _ => rfl, fun _ _ _ => rfl⟩
  · simp
  · simp only [put_ne _ _ (Nat.ne_of_lt ho)]

theorem core_pushOp {kb : Nat} {c c' : Store} {nb : BlockRef} {no : OpRef} (h : nb < kb)
    (e : pushOp c nb no = some c') : Core kb c c' := by
  obtain ⟨d, bd, hd, hb, -, rfl⟩ := pushOp_eq e
  refine ⟨by simp, by simp, Nat.le_refl _, fun o _ => congrFun (look_set_same hd (by rfl)) o,
    fun o _ => congrFun (look_set_same hd (by rfl)) o, fun o _ => congrFun (look_set_same hd (by rfl)) o,
    fun o _ => congrFun (look_set_same hd (by rfl)) o, fun o _ => congrFun (look_set_same hd (by rfl)) o,
    fun _ _ => rfl, fun _ _ => rfl, fun o _ => congrFun (look_set_same hb (by rfl)) o, fun _ _ => rfl,
    fun b _ hk => ?_⟩
  exact look_congr (List.getElem?_set_ne (fun e => by subst e; exact absurd h (Nat.not_lt.2 hk)))

theorem core_createRegion {kb : Nat} {c c' : Store} {d : RegionData} {r : RegionRef}
    (e : createRegion c d = some (c', r)) : Core kb c c' := by
  obtain ⟨-, bs, hl, rfl⟩ := createRegion_eq e
  obtain ⟨-, -, -, s4, s5, hlen⟩ := linkBlocks_spec hl
  exact ⟨Nat.le_refl _, by simp only [hlen]; exact Nat.le_refl _, by simp, fun _ _ => rfl, fun _ _ => rfl,
    fun _ _ => rfl, fun _ _ => rfl, fun _ _ => rfl, fun _ _ => rfl,
    fun r hr => look_congr (getElem?_push hr), fun b _ => congrFun s5 b, fun _ _ => rfl,
    fun b _ _ => congrFun s4 b⟩

/-! ## Copies above a bound -/

def BlkC (c0 c : Store) (ρ : Mapping) (kb : Nat) (P : OpRef → OpRef → Prop) (b b' : BlockRef) : Prop :=
  kb ≤ b' ∧ BlockCopy c0 c ρ P b b'

def RegC (c0 c : Store) (ρ : Mapping) (kb : Nat) (P : OpRef → OpRef → Prop) (r r' : RegionRef) : Prop :=
  c0.regions.length ≤ r' ∧ r' < c.regions.length ∧
    List.Forall₂ (BlkC c0 c ρ kb P) (c0.blocksOf r) (c.blocksOf r')

def OpC (c0 c : Store) (ρ : Mapping) (kb : Nat) : Nat → OpRef → OpRef → Prop
  | 0, _, _ => False
  | n + 1, o, o' => c0.ops.length ≤ o' ∧ o' < c.ops.length ∧ c.infoOf o' = c0.infoOf o ∧
      c.tysOf o' = c0.tysOf o ∧ c.operandsOf o' = (c0.operandsOf o).map ρ.value ∧
      c.succsOf o' = (c0.succsOf o).map ρ.block ∧ (c0.results o).map ρ.value = c.results o' ∧
      List.Forall₂ (RegC c0 c ρ kb (OpC c0 c ρ kb n)) (c0.regionsOf o) (c.regionsOf o')

theorem RegC.copy {c0 c : Store} {ρ : Mapping} {kb : Nat} {P Q : OpRef → OpRef → Prop}
    (h : ∀ o o', P o o' → Q o o') {r r' : RegionRef} (H : RegC c0 c ρ kb P r r') :
    RegionCopy c0 c ρ Q r r' := by
  obtain ⟨h1, h2, h3⟩ := H
  refine ⟨h1, h2, h3.imp ?_⟩
  rintro b b' ⟨-, k1, k2, k3, k4, k5, k6⟩
  exact ⟨k1, k2, k3, k4, k5, k6.imp h⟩

theorem OpC.copy {c0 c : Store} {ρ : Mapping} {kb : Nat} : ∀ {n : Nat} {o o' : OpRef},
    OpC c0 c ρ kb n o o' → OpCopy c0 c ρ n o o' := by
  intro n
  induction n with
  | zero => intro o o' h; exact h
  | succ n ih =>
    rintro o o' ⟨h1, h2, h3, h4, h5, h6, h7, h8⟩
    exact ⟨h1, h2, h3, h4, h5, h6, h7, h8.imp fun r r' hr => hr.copy fun _ _ => ih⟩

theorem RegC.core {c0 c c' : Store} {ρ : Mapping} {kb kb' : Nat} {P Q : OpRef → OpRef → Prop}
    (hc : Core kb' c c') (hk : kb' ≤ kb) (h : ∀ o o', P o o' → Q o o') {r r' : RegionRef}
    (H : RegC c0 c ρ kb P r r') : RegC c0 c' ρ kb' Q r r' := by
  obtain ⟨h1, h2, h3⟩ := H
  refine ⟨h1, Nat.lt_of_lt_of_le h2 hc.regionsLen, ?_⟩
  rw [hc.blocks _ h2]
  refine h3.imp ?_
  rintro b b' ⟨k0, k1, k2, k3, k4, k5, k6⟩
  refine ⟨Nat.le_trans hk k0, k1, Nat.lt_of_lt_of_le k2 hc.blocksLen, k3, ?_, ?_, ?_⟩
  · rw [hc.argTys _ k2]; exact k4
  · rw [hc.args _ k2]; exact k5
  · rw [hc.ops _ k2 (Nat.le_trans hk k0)]; exact k6.imp h

theorem OpC.core {c0 c c' : Store} {ρ : Mapping} {kb kb' : Nat} (hc : Core kb' c c') (hk : kb' ≤ kb) :
    ∀ {n : Nat} {o o' : OpRef}, OpC c0 c ρ kb n o o' → OpC c0 c' ρ kb' n o o' := by
  intro n
  induction n with
  | zero => intro o o' h; exact h
  | succ n ih =>
    rintro o o' ⟨h1, h2, h3, h4, h5, h6, h7, h8⟩
    refine ⟨h1, Nat.lt_of_lt_of_le h2 hc.opsLen, ?_, ?_, ?_, ?_, ?_, ?_⟩
    · rw [hc.info _ h2]; exact h3
    · rw [hc.tys _ h2]; exact h4
    · rw [hc.operands _ h2]; exact h5
    · rw [hc.succs _ h2]; exact h6
    · rw [hc.results _ h2]; exact h7
    · rw [hc.regions _ h2]; exact h8.imp fun r r' hr => hr.core hc hk fun _ _ => ih

/-! ## Copies under another mapping -/

/-- The two mappings agree on everything that is mentioned. -/
def Agree (evs : List Ev) (ρ ρ' : Mapping) : Prop :=
  (∀ v, Ev.use v ∈ evs ∨ Ev.val v ∈ evs → ρ'.value v = ρ.value v) ∧
  ∀ b, Ev.jump b ∈ evs ∨ Ev.block b ∈ evs → ρ'.block b = ρ.block b

theorem Agree.mono {evs evs' : List Ev} {ρ ρ' : Mapping} (h : Agree evs ρ ρ') (hs : ∀ e ∈ evs', e ∈ evs) :
    Agree evs' ρ ρ' :=
  ⟨fun v hv => h.1 v (hv.imp (hs _) (hs _)), fun b hb => h.2 b (hb.imp (hs _) (hs _))⟩

theorem forall2_imp_mem {α β : Type} {R S : α → β → Prop} {as : List α} {bs : List β}
    (h : List.Forall₂ R as bs) (hi : ∀ a ∈ as, ∀ b, R a b → S a b) : List.Forall₂ S as bs := by
  induction h with
  | nil => exact .nil
  | cons h1 _ ih => exact .cons (hi _ (.head _) _ h1) (ih fun a ha => hi a (.tail _ ha))

theorem RegC.agree {c0 c : Store} {ρ ρ' : Mapping} {kb : Nat} {f : OpRef → List Ev}
    {P Q : OpRef → OpRef → Prop} (h : ∀ o o', Agree (f o) ρ ρ' → P o o' → Q o o') {r r' : RegionRef}
    (ha : Agree (readRegion c0 f r) ρ ρ') (H : RegC c0 c ρ kb P r r') : RegC c0 c ρ' kb Q r r' := by
  obtain ⟨h1, h2, h3⟩ := H
  refine ⟨h1, h2, forall2_imp_mem h3 ?_⟩
  rintro b hb b' ⟨k0, k1, k2, k3, k4, k5, k6⟩
  refine ⟨k0, k1, k2, ?_, k4, ?_, forall2_imp_mem k6 fun o ho o' ho' => h o o' (ha.mono ?_) ho'⟩
  · rw [ha.2 b (.inr ?_)]
    · exact k3
    · exact List.mem_append_left _ (List.mem_flatMap.2 ⟨b, hb, .head _⟩)
  · rw [← k5]
    refine List.map_congr_left fun v hv => ha.1 v (.inr ?_)
    exact List.mem_append_left _ (List.mem_flatMap.2 ⟨b, hb, .tail _ (List.mem_map.2 ⟨v, hv, rfl⟩)⟩)
  · intro e he
    exact List.mem_append_right _ (List.mem_flatMap.2 ⟨b, hb, List.mem_flatMap.2 ⟨o, ho, he⟩⟩)

theorem OpC.agree {c0 c : Store} {ρ ρ' : Mapping} {kb : Nat} : ∀ {n : Nat} {o o' : OpRef},
    Agree (readOp c0 n o) ρ ρ' → OpC c0 c ρ kb n o o' → OpC c0 c ρ' kb n o o' := by
  intro n
  induction n with
  | zero => intro o o' _ h; exact h
  | succ n ih =>
    rintro o o' ha ⟨h1, h2, h3, h4, h5, h6, h7, h8⟩
    refine ⟨h1, h2, h3, h4, ?_, ?_, ?_, ?_⟩
    · rw [h5]
      refine List.map_congr_left fun v hv => (ha.1 v (.inl ?_)).symm
      simp only [readOp, List.mem_append, List.mem_map]
      exact .inl (.inl (.inl ⟨v, hv, rfl⟩))
    · rw [h6]
      refine List.map_congr_left fun v hv => (ha.2 v (.inl ?_)).symm
      simp only [readOp, List.mem_append, List.mem_map]
      exact .inl (.inr ⟨v, hv, rfl⟩)
    · rw [← h7]
      refine List.map_congr_left fun v hv => ha.1 v (.inr ?_)
      simp only [readOp, List.mem_append, List.mem_map]
      exact .inr ⟨v, hv, rfl⟩
    · refine forall2_imp_mem h8 fun r hr r' hr' => hr'.agree (fun o o' => ih) (ha.mono fun e he => ?_)
      simp only [readOp, List.mem_append, List.mem_flatMap]
      exact .inl (.inl (.inr ⟨r, hr, he⟩))

/-! ## Mappings -/

/-- `m'` is `m`, extended by what is defined. -/
def Maps (evs : List Ev) (m m' : Mapping) : Prop :=
  (∀ v, Ev.val v ∉ evs → m'.value? v = m.value? v) ∧ ∀ b, Ev.block b ∉ evs → m'.block? b = m.block? b

theorem Maps.refl (evs : List Ev) (m : Mapping) : Maps evs m m := ⟨fun _ _ => rfl, fun _ _ => rfl⟩

theorem Maps.append {e1 e2 : List Ev} {m m1 m2 : Mapping} (h1 : Maps e1 m m1) (h2 : Maps e2 m1 m2) :
    Maps (e1 ++ e2) m m2 :=
  ⟨fun v hv => by
    rw [List.mem_append, not_or] at hv
    exact (h2.1 v hv.2).trans (h1.1 v hv.1),
   fun v hv => by
    rw [List.mem_append, not_or] at hv
    exact (h2.2 v hv.2).trans (h1.2 v hv.1)⟩

/-- Strictly in order: nothing is used before it is defined, and nothing is defined twice. -/
def Strict (evs : List Ev) : Prop :=
  evs.Pairwise fun a b => (∀ v, b = .val v → a ≠ .use v ∧ a ≠ .val v) ∧
    ∀ l, b = .block l → a ≠ .jump l ∧ a ≠ .block l

/-- What is defined later does not matter for what came before. -/
theorem Maps.agree {e1 e2 : List Ev} {m m' : Mapping} (h : Maps e2 m m') (ho : Strict (e1 ++ e2)) :
    Agree e1 m m' := by
  unfold Strict at ho
  rw [List.pairwise_append] at ho
  refine ⟨fun v hv => ?_, fun b hb => ?_⟩
  · unfold Mapping.value
    rw [h.1 v]
    intro hm
    rcases hv with hv | hv
    · exact ((ho.2.2 _ hv _ hm).1 v rfl).1 rfl
    · exact ((ho.2.2 _ hv _ hm).1 v rfl).2 rfl
  · unfold Mapping.block
    rw [h.2 b]
    intro hm
    rcases hb with hb | hb
    · exact ((ho.2.2 _ hb _ hm).2 b rfl).1 rfl
    · exact ((ho.2.2 _ hb _ hm).2 b rfl).2 rfl

theorem mapValues_block (m : Mapping) : ∀ (os ns : List Value), (m.mapValues os ns).block? = m.block? := by
  intro os
  induction os generalizing m with
  | nil => intro ns; rfl
  | cons o os ih =>
    intro ns
    cases ns with
    | nil => rfl
    | cons n ns => unfold Mapping.mapValues; rw [ih]

theorem mapValues_other (m : Mapping) : ∀ (os ns : List Value) (v : Value), v ∉ os →
    (m.mapValues os ns).value? v = m.value? v := by
  intro os
  induction os generalizing m with
  | nil => intro ns v _; rfl
  | cons o os ih =>
    intro ns v hv
    cases ns with
    | nil => rfl
    | cons n ns =>
      unfold Mapping.mapValues
      rw [ih _ _ _ (fun h => hv (.tail _ h))]
      exact put_ne _ _ (fun e => hv (by subst e; exact .head _))

theorem mapValues_map (m : Mapping) : ∀ (os ns : List Value), os.Nodup → os.length = ns.length →
    os.map (m.mapValues os ns).value = ns := by
  intro os
  induction os generalizing m with
  | nil => intro ns _ h; cases ns with
    | nil => rfl
    | cons => cases h
  | cons o os ih =>
    intro ns hn hl
    cases ns with
    | nil => cases hl
    | cons n ns =>
      obtain ⟨h1, h2⟩ := List.nodup_cons.1 hn
      unfold Mapping.mapValues
      rw [List.map_cons, ih _ _ h2 (by simpa using hl)]
      congr 1
      unfold Mapping.value
      rw [mapValues_other _ _ _ _ h1]
      simp [put_eq]

theorem Maps.mapValues (m : Mapping) (os ns : List Value) :
    Maps (os.map .val) m (m.mapValues os ns) :=
  ⟨fun v hv => mapValues_other m os ns v (fun h => hv (List.mem_map.2 ⟨v, h, rfl⟩)),
   fun b _ => by rw [mapValues_block]⟩

theorem strict_vals {vs : List Value} (h : Strict (vs.map .val)) : vs.Nodup := by
  unfold Strict at h
  rw [List.pairwise_map] at h
  exact h.imp fun hab e => ((hab.1 _ rfl).2) (congrArg Ev.val e)

end Verif.IrStore
