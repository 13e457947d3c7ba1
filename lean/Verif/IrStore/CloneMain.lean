import Verif.IrStore.Clone

/-
A clone is a copy.
-/
namespace Verif.IrStore

theorem kept_op {c0 c : Store} (h : Kept c0 c) {o : OpRef} (ho : o < c0.ops.length) :
    ∃ d, c.ops[o]? = some d ∧ d.operands = c0.operandsOf o ∧ d.resultTys = c0.tysOf o ∧
      d.regions = c0.regionsOf o ∧ d.succs = c0.succsOf o ∧ d.info = c0.infoOf o := by
  have e := List.getElem?_eq_getElem ho
  refine ⟨c0.ops[o], (h.ops.2 o ho).trans e, ?_, ?_, ?_, ?_, ?_⟩ <;> exact (look_some e).symm

theorem kept_block {c0 c : Store} (h : Kept c0 c) {b : BlockRef} (hb : b < c0.blocks.length) :
    ∃ d, c.blocks[b]? = some d ∧ d.args = c0.argTysOf b ∧ d.ops = c0.opsOf b := by
  have e := List.getElem?_eq_getElem hb
  refine ⟨c0.blocks[b], (h.blocks.2 b hb).trans e, ?_, ?_⟩ <;> exact (look_some e).symm

theorem kept_region {c0 c : Store} (h : Kept c0 c) {r : RegionRef} (hr : r < c0.regions.length) :
    ∃ d, c.regions[r]? = some d ∧ d.blocks = c0.blocksOf r := by
  have e := List.getElem?_eq_getElem hr
  exact ⟨c0.regions[r], (h.regions.2 r hr).trans e, (look_some e).symm⟩

theorem Strict.left {a b : List Ev} (h : Strict (a ++ b)) : Strict a := (List.pairwise_append.1 h).1
theorem Strict.right {a b : List Ev} (h : Strict (a ++ b)) : Strict b := (List.pairwise_append.1 h).2.1

/-! ## Headers -/

def HeadC (c0 c : Store) (ρ : Mapping) (b b' : BlockRef) : Prop :=
  ρ.block b = b' ∧ c.argTysOf b' = c0.argTysOf b ∧ (c0.args b).map ρ.value = c.args b'

theorem headers_ok {c0 : Store} (D : DefsOk c0) : ∀ (bs : List BlockRef) (c : Store) (m : Mapping),
    Kept c0 c → (∀ b ∈ bs, b < c0.blocks.length) →
    ∃ c' nbs m', cloneHeaders bs c m = some (c', nbs, m') ∧ Kept c c' ∧ nbs.Nodup ∧
      bs.length = nbs.length ∧
      (∀ nb ∈ nbs, c.blocks.length ≤ nb ∧ nb < c'.blocks.length ∧ c'.opsOf nb = [] ∧
        c'.regionOf nb = none) ∧
      Maps (bs.flatMap fun b => .block b :: (c0.args b).map .val) m m' ∧
      (Strict (bs.flatMap fun b => .block b :: (c0.args b).map .val) →
        List.Forall₂ (HeadC c0 c' m') bs nbs) := by
  intro bs
  induction bs with
  | nil =>
    intro c m _ _
    exact ⟨c, [], m, rfl, .refl c, .nil, rfl, fun _ h => (by cases h), .refl _ _, fun _ => .nil⟩
  | cons b bs ih =>
    intro c m hk hb
    obtain ⟨d, hd, ha, -⟩ := kept_block hk (hb b (.head _))
    have hargs : c.args b = c0.args b := hk.args b (hb b (.head _))
    have hk1 : Kept c (createBlock c ⟨d.args, [], none⟩).1 := (Kept.refl c).createBlock
    obtain ⟨c', nbs, m', e, k', nd, hl, hn, hm, hs⟩ :=
      ih (createBlock c ⟨d.args, [], none⟩).1 ((m.mapBlock b c.blocks.length).mapValues (c0.args b)
        ((createBlock c ⟨d.args, [], none⟩).1.args c.blocks.length)) (hk.trans hk1)
        (fun x hx => hb x (.tail _ hx))
    have hlen1 : (createBlock c ⟨d.args, [], none⟩).1.blocks.length = c.blocks.length + 1 := by
      simp [createBlock]
    have hlt : c.blocks.length < (createBlock c ⟨d.args, [], none⟩).1.blocks.length := by
      rw [hlen1]; exact Nat.lt_succ_self _
    have hnewargs : (createBlock c ⟨d.args, [], none⟩).1.args c.blocks.length =
        (List.range d.args.length).map (c.vals.length + ·) := put_eq ..
    have hops : (createBlock c ⟨d.args, [], none⟩).1.opsOf c.blocks.length = [] := by
      show look [] BlockData.ops (c.blocks ++ [_]) _ = _
      rw [look_push, put_eq]
    have hreg : (createBlock c ⟨d.args, [], none⟩).1.regionOf c.blocks.length = none := by
      show look none BlockData.parent (c.blocks ++ [_]) _ = _
      rw [look_push, put_eq]
    have htys : (createBlock c ⟨d.args, [], none⟩).1.argTysOf c.blocks.length = d.args := by
      show look [] BlockData.args (c.blocks ++ [_]) _ = _
      rw [look_push, put_eq]
    have hentry := k'.blocks.2 _ hlt
    have hmap1 : Maps (.block b :: (c0.args b).map .val) m
        ((m.mapBlock b c.blocks.length).mapValues (c0.args b)
          ((createBlock c ⟨d.args, [], none⟩).1.args c.blocks.length)) := by
      have h1 : Maps [.block b] m (m.mapBlock b c.blocks.length) :=
        ⟨fun _ _ => rfl, fun x hx => put_ne _ _ (fun e => hx (by subst e; exact .head _))⟩
      exact h1.append (.mapValues _ _ _)
    refine ⟨c', c.blocks.length :: nbs, m', ?_, hk1.trans k', ?_, by simp [hl], ?_, ?_, ?_⟩
    · unfold cloneHeaders
      rw [hd]
      simp only [hargs]
      simp only [createBlock] at e ⊢
      rw [e]
    · refine List.nodup_cons.2 ⟨fun hm => ?_, nd⟩
      have := (hn _ hm).1
      rw [hlen1] at this
      exact Nat.not_succ_le_self _ this
    · intro nb hnb
      rcases List.mem_cons.1 hnb with rfl | hnb
      · exact ⟨Nat.le_refl _, Nat.lt_of_lt_of_le hlt k'.blocks.1, (look_congr hentry).trans hops,
          (look_congr hentry).trans hreg⟩
      · obtain ⟨h1, h2⟩ := hn nb hnb
        exact ⟨Nat.le_trans (Nat.le_of_lt hlt) h1, h2⟩
    · exact hmap1.append hm
    · intro st
      refine .cons ⟨?_, ?_, ?_⟩ (hs (Strict.right (a := .block b :: (c0.args b).map .val) st))
      · rw [(hm.agree st).2 b (.inr (.head _))]
        unfold Mapping.block
        rw [mapValues_block]
        simp [Mapping.mapBlock, put_eq]
      · rw [← ha, ← htys]; exact look_congr hentry
      · rw [k'.args _ hlt, List.map_congr_left fun v hv =>
          (hm.agree st).1 v (.inr (.tail _ (List.mem_map.2 ⟨v, hv, rfl⟩)))]
        refine mapValues_map _ _ _ (strict_vals (Strict.right (a := [.block b]) st.left)) ?_
        rw [hnewargs, D.argLen, ← ha]; simp

/-! ## Operations of a block -/

/-- What a cloner of operations does, for a source in `c0`. -/
def Clones (c0 : Store) (n : Nat) : Prop := ∀ (c : Store) (m : Mapping) (op : OpRef), Kept c0 c →
  Nested c0 n op → ∃ c' op' m', cloneOp n c op m = some (c', op', m') ∧ Kept c c' ∧
    c.ops.length ≤ op' ∧ op' < c'.ops.length ∧ c'.parentOf op' = none ∧ Maps (readOp c0 n op) m m' ∧
    (Strict (readOp c0 n op) → OpC c0 c' m' c.blocks.length n op op')

theorem ops_ok {c0 : Store} {n : Nat} (hf : Clones c0 n) {nb kb : Nat} (hnk : nb < kb) :
    ∀ (os : List OpRef) (c : Store) (m : Mapping), Kept c0 c → kb ≤ c.blocks.length →
    c0.blocks.length ≤ nb → (∀ o ∈ os, Nested c0 n o) →
    ∃ c' m' nos, cloneOps (cloneOp n) nb os c m = some (c', m') ∧
      (∀ cb, Kept cb c → cb.blocks.length ≤ nb → Kept cb c') ∧ Core kb c c' ∧
      c'.opsOf nb = c.opsOf nb ++ nos ∧
      (∀ b < c.blocks.length, b ≠ nb → c'.opsOf b = c.opsOf b) ∧
      (∀ b < c.blocks.length, c'.regionOf b = c.regionOf b) ∧
      Maps (os.flatMap (readOp c0 n)) m m' ∧
      (Strict (os.flatMap (readOp c0 n)) → List.Forall₂ (OpC c0 c' m' kb n) os nos) := by
  intro os
  induction os with
  | nil =>
    intro c m _ _ _ _
    exact ⟨c, m, [], rfl, fun _ h _ => h, (Kept.refl c).core kb, by simp, fun _ _ _ => rfl,
      fun _ _ => rfl, .refl _ _, fun _ => .nil⟩
  | cons o os ih =>
    intro c m hk hkb hnb ho
    obtain ⟨c1, no, m1, e1, k1, l1, l2, hp, mp1, s1⟩ := hf c m o hk (ho o (.head _))
    have hlt1 : nb < c1.blocks.length := Nat.lt_of_lt_of_le hnk (Nat.le_trans hkb k1.blocks.1)
    have hd := List.getElem?_eq_getElem l2
    have hbd := List.getElem?_eq_getElem hlt1
    have hpar : (c1.ops[no]).parent = none := by
      rw [Store.parentOf, look_some hd] at hp; exact hp
    have e2 : ∃ c2, pushOp c1 nb no = some c2 := by
      unfold pushOp
      rw [hd, hbd]
      simp only [hpar, Option.isSome_none, Bool.false_eq_true, if_false]
      exact ⟨_, rfl⟩
    obtain ⟨c2, e2⟩ := e2
    have k2 : ∀ cb, Kept cb c → cb.blocks.length ≤ nb → Kept cb c2 := fun cb h hb =>
      (h.trans k1).pushOp hb (Nat.le_trans h.ops.1 l1) e2
    have hcore2 : Core kb c1 c2 := core_pushOp hnk e2
    have hblk2 : c2.blocks.length = c1.blocks.length := by
      obtain ⟨d, bd, -, -, -, rfl⟩ := pushOp_eq e2
      simp
    have hops2 : c2.opsOf nb = c1.opsOf nb ++ [no] := by
      obtain ⟨d, bd, -, hbd', -, rfl⟩ := pushOp_eq e2
      show look [] BlockData.ops (c1.blocks.set nb _) nb = _
      rw [look_set hbd', put_eq, Store.opsOf, look_some hbd']
    have hoth2 : ∀ b, b ≠ nb → c2.opsOf b = c1.opsOf b := by
      intro b hb
      obtain ⟨d, bd, -, hbd', -, rfl⟩ := pushOp_eq e2
      show look [] BlockData.ops (c1.blocks.set nb _) b = _
      rw [look_set hbd', put_ne _ _ hb]; rfl
    have hreg2 : c2.regionOf = c1.regionOf := by
      obtain ⟨d, bd, -, hbd', -, rfl⟩ := pushOp_eq e2
      exact look_set_same hbd' (by rfl)
    obtain ⟨c3, m3, nos, e3, k3, core3, ops3, oth3, reg3, mp3, s3⟩ :=
      ih c2 m1 (k2 c0 hk hnb) (by rw [hblk2]; exact Nat.le_trans hkb k1.blocks.1) hnb
        (fun x hx => ho x (.tail _ hx))
    have hin : ∀ b < c.blocks.length, b < c2.blocks.length := fun b hb => by
      rw [hblk2]; exact Nat.lt_of_lt_of_le hb k1.blocks.1
    refine ⟨c3, m3, no :: nos, ?_, fun cb h hb => k3 cb (k2 cb h hb) hb,
      (k1.core kb).trans (hcore2.trans core3), ?_, fun b hb hne => ?_, fun b hb => ?_, ?_, fun st => ?_⟩
    · unfold cloneOps; rw [e1]; simp only; rw [e2]; exact e3
    · have : c1.opsOf nb = c.opsOf nb :=
        look_congr (k1.blocks.2 nb (Nat.lt_of_lt_of_le hnk hkb))
      rw [ops3, hops2, this]; simp
    · rw [oth3 b (hin b hb) hne, hoth2 b hne]
      exact look_congr (k1.blocks.2 b hb)
    · rw [reg3 b (hin b hb), hreg2]
      exact look_congr (k1.blocks.2 b hb)
    · exact mp1.append mp3
    · have st' : Strict (readOp c0 n o ++ os.flatMap (readOp c0 n)) := st
      exact .cons (((s1 st'.left).core (hcore2.trans core3) hkb).agree (mp3.agree st')) (s3 st'.right)

/-! ## Bodies -/

theorem bodies_ok {c0 : Store} {n : Nat} (hf : Clones c0 n) {kb : Nat} :
    ∀ (bs nbs : List BlockRef) (c : Store) (m : Mapping), Kept c0 c → kb ≤ c.blocks.length →
    nbs.Nodup → bs.length = nbs.length →
    (∀ nb ∈ nbs, nb < kb ∧ c0.blocks.length ≤ nb ∧ c.opsOf nb = []) →
    (∀ b ∈ bs, b < c0.blocks.length ∧ ∀ o ∈ c0.opsOf b, Nested c0 n o) →
    ∃ c' m', cloneBodies (cloneOp n) bs nbs c m = some (c', m') ∧
      (∀ cb, Kept cb c → (∀ nb ∈ nbs, cb.blocks.length ≤ nb) → Kept cb c') ∧ Core kb c c' ∧
      (∀ b < c.blocks.length, b ∉ nbs → c'.opsOf b = c.opsOf b) ∧
      (∀ b < c.blocks.length, c'.regionOf b = c.regionOf b) ∧
      Maps (bs.flatMap fun b => (c0.opsOf b).flatMap (readOp c0 n)) m m' ∧
      (Strict (bs.flatMap fun b => (c0.opsOf b).flatMap (readOp c0 n)) →
        List.Forall₂ (fun b nb => List.Forall₂ (OpC c0 c' m' kb n) (c0.opsOf b) (c'.opsOf nb)) bs nbs) := by
  intro bs
  induction bs with
  | nil =>
    intro nbs c m _ _ _ hl _ _
    cases nbs with
    | nil =>
      exact ⟨c, m, rfl, fun _ h _ => h, (Kept.refl c).core kb, fun _ _ _ => rfl, fun _ _ => rfl,
        .refl _ _, fun _ => .nil⟩
    | cons => cases hl
  | cons b bs ih =>
    intro nbs c m hk hkb nd hl hnb hb
    cases nbs with
    | nil => cases hl
    | cons nb nbs =>
      obtain ⟨nd1, nd2⟩ := List.nodup_cons.1 nd
      obtain ⟨hb1, hb2⟩ := hb b (.head _)
      obtain ⟨hn1, hn2, hn3⟩ := hnb nb (.head _)
      obtain ⟨d, hd, -, hdo⟩ := kept_block hk hb1
      obtain ⟨c1, m1, nos, e1, k1, core1, ops1, oth1, reg1, mp1, s1⟩ :=
        ops_ok hf hn1 (c0.opsOf b) c m hk hkb hn2 hb2
      have hin : ∀ x < c.blocks.length, x < c1.blocks.length := fun x hx =>
        Nat.lt_of_lt_of_le hx core1.blocksLen
      obtain ⟨c2, m2, e2, k2, core2, oth2, reg2, mp2, s2⟩ :=
        ih nbs c1 m1 (k1 c0 hk hn2) (Nat.le_trans hkb core1.blocksLen) nd2 (by simpa using hl)
          (fun x hx => by
            obtain ⟨h1, h2, h3⟩ := hnb x (.tail _ hx)
            refine ⟨h1, h2, ?_⟩
            rw [oth1 x (Nat.lt_of_lt_of_le h1 hkb) (fun e => nd1 (e ▸ hx))]; exact h3)
          (fun x hx => hb x (.tail _ hx))
      refine ⟨c2, m2, ?_, fun cb h hcb => k2 cb (k1 cb h (hcb nb (.head _))) (fun x hx => hcb x (.tail _ hx)),
        core1.trans core2, fun x hx hm => ?_, fun x hx => ?_, mp1.append mp2, fun st => ?_⟩
      · unfold cloneBodies; rw [hd]; simp only; rw [hdo, e1]; exact e2
      · rw [oth2 x (hin x hx) (fun h => hm (.tail _ h)), oth1 x hx (fun e => hm (by subst e; exact .head _))]
      · rw [reg2 x (hin x hx), reg1 x hx]
      · have st' : Strict ((c0.opsOf b).flatMap (readOp c0 n) ++
            bs.flatMap fun b => (c0.opsOf b).flatMap (readOp c0 n)) := st
        refine .cons ?_ (s2 st'.right)
        have hne : c2.opsOf nb = nos := by
          rw [oth2 nb (hin nb (Nat.lt_of_lt_of_le hn1 hkb)) nd1, ops1, hn3]; rfl
        rw [hne]
        refine forall2_imp_mem (s1 st'.left) fun o ho o' h => (h.core core2 (Nat.le_refl _)).agree
          ((mp2.agree st').mono fun e he => List.mem_flatMap.2 ⟨o, ho, he⟩)

/-! ## Regions -/

theorem region_ok {c0 : Store} (D : DefsOk c0) {n : Nat} (hf : Clones c0 n) (c : Store) (m : Mapping)
    (r : RegionRef) (hk : Kept c0 c) (hr : r < c0.regions.length)
    (hb : ∀ b ∈ c0.blocksOf r, b < c0.blocks.length ∧ ∀ o ∈ c0.opsOf b, Nested c0 n o) :
    ∃ c' r' m', cloneRegion (cloneOp n) c r m = some (c', r', m') ∧ Kept c c' ∧
      c.regions.length ≤ r' ∧ r' < c'.regions.length ∧ c'.ownerOf r' = none ∧
      Maps (readRegion c0 (readOp c0 n) r) m m' ∧
      (Strict (readRegion c0 (readOp c0 n) r) →
        RegC c0 c' m' c.blocks.length (OpC c0 c' m' c.blocks.length n) r r') := by
  obtain ⟨d, hd, hdb⟩ := kept_region hk hr
  obtain ⟨c1, nbs, m1, e1, k1, nd, hl, hn, mp1, s1⟩ :=
    headers_ok D (c0.blocksOf r) c m hk (fun b h => (hb b h).1)
  obtain ⟨c2, m2, e2, k2, core2, -, reg2, mp2, s2⟩ :=
    bodies_ok hf (kb := c1.blocks.length) (c0.blocksOf r) nbs c1 m1 (hk.trans k1) (Nat.le_refl _) nd hl
      (fun nb h => ⟨(hn nb h).2.1, Nat.le_trans hk.blocks.1 (hn nb h).1, (hn nb h).2.2.1⟩) hb
  have e3 : ∃ bs, linkBlocks c2.regions.length nbs c2.blocks = some bs := by
    refine linkBlocks_ok nd fun b h => ?_
    have hlt := (hn b h).2.1
    have hlt2 : b < c2.blocks.length := Nat.lt_of_lt_of_le hlt core2.blocksLen
    refine ⟨_, List.getElem?_eq_getElem hlt2, ?_⟩
    have := (reg2 b hlt).trans (hn b h).2.2.2
    rw [Store.regionOf, look_some (List.getElem?_eq_getElem hlt2)] at this
    exact this
  obtain ⟨bs, e3⟩ := e3
  have e3' : createRegion c2 ⟨nbs, none⟩ =
      some ({ c2 with regions := c2.regions ++ [⟨nbs, none⟩], blocks := bs }, c2.regions.length) := by
    unfold createRegion
    simp only [e3]
  have hk2 : Kept c c2 := k2 c k1 fun nb h => (hn nb h).1
  refine ⟨_, _, m2, ?_, hk2.createRegion (d := ⟨nbs, none⟩) (fun x hx => (hn x hx).1) e3', hk2.regions.1,
    by simp, ?_, mp1.append mp2, fun st => ?_⟩
  · unfold cloneRegion
    rw [hd]
    simp only [hdb, e1, e2, e3']
  · show look none RegionData.parent (c2.regions ++ [_]) _ = _
    rw [look_push, put_eq]
  · have hcore3 : Core c.blocks.length c2 { c2 with regions := c2.regions ++ [⟨nbs, none⟩], blocks := bs } :=
      core_createRegion e3'
    refine ⟨Nat.le_trans hk.regions.1 hk2.regions.1, by simp, ?_⟩
    have hbl : Store.blocksOf { c2 with regions := c2.regions ++ [⟨nbs, none⟩], blocks := bs }
        c2.regions.length = nbs := by
      show look [] RegionData.blocks (c2.regions ++ [_]) _ = _
      rw [look_push, put_eq]
    rw [hbl]
    have hag := mp2.agree st
    have H1 := s1 st.left
    have H2 := s2 st.right
    have key : ∀ (xs ys : List BlockRef), (∀ x ∈ xs, x ∈ c0.blocksOf r) → (∀ y ∈ ys, y ∈ nbs) →
        List.Forall₂ (HeadC c0 c1 m1) xs ys →
        List.Forall₂ (fun b nb => List.Forall₂ (OpC c0 c2 m2 c1.blocks.length n) (c0.opsOf b)
          (c2.opsOf nb)) xs ys →
        List.Forall₂ (BlkC c0 { c2 with regions := c2.regions ++ [⟨nbs, none⟩], blocks := bs } m2
          c.blocks.length (OpC c0 { c2 with regions := c2.regions ++ [⟨nbs, none⟩], blocks := bs } m2
            c.blocks.length n)) xs ys := by
      intro xs ys hxs hys h1 h2
      induction h1 with
      | nil => exact .nil
      | @cons x y xs ys h _ ih =>
        cases h2 with
        | cons h' h2' =>
          refine .cons ?_ (ih (fun z hz => hxs z (.tail _ hz)) (fun z hz => hys z (.tail _ hz)) h2')
          obtain ⟨g1, g2, g3⟩ := h
          have hy := hn y (hys y (.head _))
          have hx := hxs x (.head _)
          have hlt2 : y < c2.blocks.length := Nat.lt_of_lt_of_le hy.2.1 core2.blocksLen
          refine ⟨hy.1, Nat.le_trans hk.blocks.1 hy.1, Nat.lt_of_lt_of_le hlt2 hcore3.blocksLen, ?_, ?_, ?_, ?_⟩
          · rw [hag.2 x (.inr (List.mem_flatMap.2 ⟨x, hx, .head _⟩))]; exact g1
          · rw [hcore3.argTys _ hlt2, core2.argTys _ hy.2.1]; exact g2
          · rw [hcore3.args _ hlt2, core2.args _ hy.2.1, ← g3]
            exact List.map_congr_left fun v hv =>
              hag.1 v (.inr (List.mem_flatMap.2 ⟨x, hx, .tail _ (List.mem_map.2 ⟨v, hv, rfl⟩)⟩))
          · rw [hcore3.ops _ hlt2 hy.1]
            exact h'.imp fun o o' ho => ho.core hcore3 k1.blocks.1
    exact key _ _ (fun _ h => h) (fun _ h => h) H1 H2

theorem regions_ok {c0 : Store} (D : DefsOk c0) {n : Nat} (hf : Clones c0 n) :
    ∀ (rs : List RegionRef) (c : Store) (m : Mapping), Kept c0 c →
    (∀ r ∈ rs, r < c0.regions.length ∧
      ∀ b ∈ c0.blocksOf r, b < c0.blocks.length ∧ ∀ o ∈ c0.opsOf b, Nested c0 n o) →
    ∃ c' nrs m', cloneRegions (cloneOp n) rs c m = some (c', nrs, m') ∧ Kept c c' ∧ nrs.Nodup ∧
      (∀ r ∈ nrs, c.regions.length ≤ r ∧ r < c'.regions.length ∧ c'.ownerOf r = none) ∧
      Maps (rs.flatMap (readRegion c0 (readOp c0 n))) m m' ∧
      (Strict (rs.flatMap (readRegion c0 (readOp c0 n))) →
        List.Forall₂ (RegC c0 c' m' c.blocks.length (OpC c0 c' m' c.blocks.length n)) rs nrs) := by
  intro rs
  induction rs with
  | nil =>
    intro c m _ _
    exact ⟨c, [], m, rfl, .refl c, .nil, fun _ h => (by cases h), .refl _ _, fun _ => .nil⟩
  | cons r rs ih =>
    intro c m hk hr
    obtain ⟨c1, nr, m1, e1, k1, l1, l2, ow1, mp1, s1⟩ :=
      region_ok D hf c m r hk (hr r (.head _)).1 (hr r (.head _)).2
    obtain ⟨c2, nrs, m2, e2, k2, nd, hn, mp2, s2⟩ := ih c1 m1 (hk.trans k1) (fun x hx => hr x (.tail _ hx))
    refine ⟨c2, nr :: nrs, m2, ?_, k1.trans k2, ?_, ?_, mp1.append mp2, fun st => ?_⟩
    · unfold cloneRegions; rw [e1]; simp only; rw [e2]
    · exact List.nodup_cons.2 ⟨fun h => absurd l2 (Nat.not_lt.2 (hn nr h).1), nd⟩
    · intro x hx
      rcases List.mem_cons.1 hx with e | hx
      · subst e
        exact ⟨l1, Nat.lt_of_lt_of_le l2 k2.regions.1, (look_congr (k2.regions.2 _ l2)).trans ow1⟩
      · obtain ⟨h1, h2, h3⟩ := hn x hx
        exact ⟨Nat.le_trans k1.regions.1 h1, h2, h3⟩
    · have st' : Strict (readRegion c0 (readOp c0 n) r ++ rs.flatMap (readRegion c0 (readOp c0 n))) := st
      refine .cons ?_ ?_
      · exact ((s1 st'.left).core (k2.core c.blocks.length) (Nat.le_refl _)
          (fun o o' h => h.core (k2.core c.blocks.length) (Nat.le_refl _))).agree
          (fun o o' ha h => h.agree ha) (mp2.agree st')
      · exact (s2 st'.right).imp fun x y h => h.core ((Kept.refl c2).core _) k1.blocks.1
          (fun o o' h => h.core ((Kept.refl c2).core _) k1.blocks.1)

/-! ## Operations -/

theorem clones {c0 : Store} (D : DefsOk c0) : ∀ n, Clones c0 n := by
  intro n
  induction n with
  | zero => intro c m op _ h; exact h.elim
  | succ n ih =>
    intro c m op hk hn
    obtain ⟨ho, hr⟩ := hn
    obtain ⟨d, hd, d1, d2, d3, d4, d5⟩ := kept_op hk ho
    obtain ⟨c1, nrs, m1, e1, k1, nd, hn1, mp1, s1⟩ := regions_ok D ih (c0.regionsOf op) c m hk hr
    have hl : ∃ rs, linkRegions c1.ops.length nrs c1.regions = some rs := by
      refine linkRegions_ok nd fun r h => ?_
      obtain ⟨-, h2, h3⟩ := hn1 r h
      refine ⟨_, List.getElem?_eq_getElem h2, ?_⟩
      rw [Store.ownerOf, look_some (List.getElem?_eq_getElem h2)] at h3
      exact h3
    obtain ⟨rs, hl⟩ := hl
    have e2 : ∃ c2, createOp c1 ⟨d.info, d.operands.map m.value, d.resultTys, nrs, d.succs.map m1.block, none⟩
        = some (c2, c1.ops.length) := by
      unfold createOp
      simp only [Option.isSome_none, Bool.false_eq_true, if_false, hl]
      exact ⟨_, rfl⟩
    obtain ⟨c2, e2⟩ := e2
    have hk2 : Kept c c2 := k1.createOp (d := ⟨d.info, d.operands.map m.value, d.resultTys, nrs,
      d.succs.map m1.block, none⟩) (fun r h => (hn1 r h).1) e2
    have hres : c2.results op = c0.results op := (hk.trans hk2).results op ho
    obtain ⟨-, -, rs', -, hc2⟩ := createOp_eq e2
    have hfld : ∀ {β : Type} (dflt : β) (f : OpData → β), look dflt f c2.ops c1.ops.length =
        f ⟨d.info, d.operands.map m.value, d.resultTys, nrs, d.succs.map m1.block, none⟩ := by
      intro β dflt f
      rw [hc2]
      simp only
      rw [look_push, put_eq]
    have hlen2 : c1.ops.length < c2.ops.length := by rw [hc2]; simp
    refine ⟨c2, c1.ops.length, m1.mapValues (c2.results op) (c2.results c1.ops.length), ?_, hk2,
      k1.ops.1, hlen2, hfld _ _, ?_, fun st => ?_⟩
    · unfold cloneOp
      rw [hd]
      simp only [d3, e1]
      rw [d3] at *
      simp only [e2]
    · rw [hres]
      refine ⟨fun v hv => ?_, fun b hb => ?_⟩
      · simp only [readOp, List.mem_append, not_or] at hv
        rw [mapValues_other _ _ _ _ (fun h => hv.2 (List.mem_map.2 ⟨v, h, rfl⟩))]
        exact mp1.1 v hv.1.1.2
      · simp only [readOp, List.mem_append, not_or] at hb
        rw [mapValues_block]
        exact mp1.2 b hb.1.1.2
    · rw [hres]
      have st' : Strict (((c0.operandsOf op).map Ev.use ++
          (c0.regionsOf op).flatMap (readRegion c0 (readOp c0 n)) ++ (c0.succsOf op).map Ev.jump) ++
          (c0.results op).map Ev.val) := st
      have hag := (Maps.mapValues m1 (c0.results op) (c2.results c1.ops.length)).agree st'
      have hag0 := mp1.agree (st'.left.left)
      have hcore : Core c.blocks.length c1 c2 := core_createOp e2
      refine ⟨Nat.le_trans hk.ops.1 k1.ops.1, hlen2, (hfld _ _).trans d5, (hfld _ _).trans d2,
        (hfld _ _).trans ?_, (hfld _ _).trans ?_, ?_, ?_⟩
      · show d.operands.map m.value = _
        rw [d1]
        refine List.map_congr_left fun v hv => ?_
        have hmem : Ev.use v ∈ (c0.operandsOf op).map Ev.use := List.mem_map.2 ⟨v, hv, rfl⟩
        rw [hag.1 v (.inl (List.mem_append_left _ (List.mem_append_left _ hmem))), hag0.1 v (.inl hmem)]
      · show d.succs.map m1.block = _
        rw [d4]
        refine List.map_congr_left fun v hv => ?_
        unfold Mapping.block
        rw [mapValues_block]
      · refine mapValues_map _ _ _ (strict_vals st'.right) ?_
        rw [D.resLen, ← d2]
        rw [hc2]
        simp only [put_eq, List.length_map, List.length_range]
      · have : c2.regionsOf c1.ops.length = nrs := hfld _ _
        rw [this]
        refine forall2_imp_mem (s1 st'.left.left.right) fun r hr r' h => ?_
        refine (h.core hcore (Nat.le_refl _) (fun o o' h => h.core hcore (Nat.le_refl _))).agree
          (fun o o' ha h => h.agree ha) (hag.mono fun e he => ?_)
        exact List.mem_append_left _ (List.mem_append_right _ (List.mem_flatMap.2 ⟨r, hr, he⟩))

end Verif.IrStore
