import Verif.IrStore.Uses
import Mathlib.Data.List.Nodup
import Mathlib.Tactic.Tauto

/-
Definitions of values and the links between operations, blocks and regions stay consistent.
-/
namespace Verif.IrStore

/-! ## Values and where they are defined -/

/-- The entries `mk e i` of the table of values are exactly the values listed for `e` at index `i`. -/
def Site (mk : Nat → Nat → Def) (vals : List Def) (R : Nat → List Value) : Prop :=
  ∀ (v : Nat) (e i : Nat), vals[v]? = some (mk e i) ↔ (R e)[i]? = some v

theorem Site.lt {mk : Nat → Nat → Def} {vals : List Def} {R : Nat → List Value} (h : Site mk vals R)
    {e i v : Nat} (hv : (R e)[i]? = some v) : v < vals.length :=
  (List.getElem?_eq_some_iff.1 ((h v e i).2 hv)).1

theorem range_some {n i k : Nat} : (List.range n)[i]? = some k ↔ i < n ∧ i = k := by
  by_cases h : i < n
  · rw [List.getElem?_range h]; simp [h]
  · rw [List.getElem?_eq_none (by simpa using Nat.le_of_not_lt h)]; simp [h]

theorem site_grow {mk : Nat → Nat → Def} (inj : ∀ a b i j, mk a i = mk b j → a = b ∧ i = j)
    {vals : List Def} {R : Nat → List Value} (h : Site mk vals R) (e0 n : Nat) :
    Site mk (vals ++ (List.range n).map fun i => mk e0 ((R e0).length + i))
      (put R e0 (R e0 ++ (List.range n).map (vals.length + ·))) := by
  intro v e i
  by_cases hv : v < vals.length
  · rw [List.getElem?_append_left hv]
    by_cases he : e = e0
    · subst he
      rw [put_eq, h]
      by_cases hi : i < (R e).length
      · rw [List.getElem?_append_left hi]
      · rw [List.getElem?_append_right (by omega), List.getElem?_eq_none (by omega)]
        simp only [List.getElem?_map, reduceCtorEq, Option.map_eq_some_iff, false_iff, not_exists, not_and]
        intro x _ hx
        exact absurd hv (by rw [← hx]; exact Nat.not_lt.2 (Nat.le_add_right _ _))
    · rw [put_ne _ _ he]; exact h v e i
  · rw [List.getElem?_append_right (by omega), List.getElem?_map]
    simp only [Option.map_eq_some_iff, range_some]
    constructor
    · rintro ⟨k, ⟨hk, rfl⟩, he⟩
      obtain ⟨rfl, rfl⟩ := inj _ _ _ _ he
      rw [put_eq, List.getElem?_append_right (by omega), Nat.add_sub_cancel_left, List.getElem?_map,
        List.getElem?_range hk]
      exact congrArg some (Nat.add_sub_cancel' (Nat.le_of_not_lt hv))
    · intro hr
      by_cases he : e = e0
      · subst he
        rw [put_eq] at hr
        by_cases hi : i < (R e).length
        · rw [List.getElem?_append_left hi] at hr
          exact absurd (h.lt hr) hv
        · rw [List.getElem?_append_right (by omega), List.getElem?_map] at hr
          simp only [Option.map_eq_some_iff, range_some] at hr
          obtain ⟨k, ⟨hk, rfl⟩, rfl⟩ := hr
          exact ⟨_, ⟨by omega, rfl⟩, by congr 1; omega⟩
      · rw [put_ne _ _ he] at hr
        exact absurd (h.lt hr) hv

theorem site_other {mk mk' : Nat → Nat → Def} (dis : ∀ a b i j, mk' a i ≠ mk b j)
    {vals : List Def} {R : Nat → List Value} (h : Site mk vals R) (more : List Def)
    (hm : ∀ d ∈ more, ∃ e i, d = mk' e i) : Site mk (vals ++ more) R := by
  intro v e i
  by_cases hv : v < vals.length
  · rw [List.getElem?_append_left hv]; exact h v e i
  · constructor
    · intro hr
      rw [List.getElem?_append_right (by omega)] at hr
      obtain ⟨e', i', he⟩ := hm _ (List.mem_of_getElem? hr)
      exact absurd he.symm (dis _ _ _ _)
    · intro hr; exact absurd (h.lt hr) hv

structure DefsOk (c : Store) : Prop where
  res : Site Def.opResult c.vals c.results
  arg : Site Def.blockArg c.vals c.args
  resLen : ∀ op, (c.results op).length = (c.tysOf op).length
  argLen : ∀ b, (c.args b).length = (c.argTysOf b).length

theorem resInj (a b i j : Nat) (h : Def.opResult a i = Def.opResult b j) : a = b ∧ i = j := by
  cases h; exact ⟨rfl, rfl⟩
theorem argInj (a b i j : Nat) (h : Def.blockArg a i = Def.blockArg b j) : a = b ∧ i = j := by
  cases h; exact ⟨rfl, rfl⟩

theorem DefsOk.same {c c' : Store} (H : DefsOk c) (hv : c'.vals = c.vals)
    (hr : c'.results = c.results) (ha : c'.args = c.args)
    (ht : ∀ o, (c'.tysOf o).length = (c.tysOf o).length)
    (hb : ∀ b, (c'.argTysOf b).length = (c.argTysOf b).length) : DefsOk c' :=
  ⟨by rw [hv, hr]; exact H.res, by rw [hv, ha]; exact H.arg,
    fun o => by rw [hr, ht]; exact H.resLen o, fun b => by rw [ha, hb]; exact H.argLen b⟩

theorem DefsOk.results_new {c : Store} (H : DefsOk c) {o : Nat} (h : c.ops.length ≤ o) :
    c.results o = [] := by
  have := H.resLen o
  rw [Store.tysOf, look_out h] at this
  exact List.length_eq_zero_iff.1 this

theorem DefsOk.args_new {c : Store} (H : DefsOk c) {b : Nat} (h : c.blocks.length ≤ b) :
    c.args b = [] := by
  have := H.argLen b
  rw [Store.argTysOf, look_out h] at this
  exact List.length_eq_zero_iff.1 this

theorem defs_createOp {c c' : Store} {d : OpData} {op : OpRef} (H : DefsOk c)
    (h : createOp c d = some (c', op)) : DefsOk c' := by
  obtain ⟨-, rfl, rs, -, rfl⟩ := createOp_eq h
  have hnil := H.results_new (Nat.le_refl c.ops.length)
  refine ⟨?_, ?_, fun o => ?_, H.argLen⟩
  · have := site_grow resInj H.res c.ops.length d.resultTys.length
    simpa [hnil] using this
  · exact site_other (mk' := Def.opResult) (fun _ _ _ _ e => by cases e) H.arg _ (fun x hx => by
      obtain ⟨i, -, rfl⟩ := List.mem_map.1 hx
      exact ⟨_, _, rfl⟩)
  · have e : Store.tysOf { c with
        ops := c.ops ++ [d]
        regions := rs
        uses := addUses c.ops.length 0 d.operands c.uses
        vals := c.vals ++ (List.range d.resultTys.length).map (Def.opResult c.ops.length)
        results := put c.results c.ops.length ((List.range d.resultTys.length).map (c.vals.length + ·)) }
        = put c.tysOf c.ops.length d.resultTys := look_push
    rw [e]
    by_cases ho : o = c.ops.length
    · subst ho; simp [put_eq]
    · simp only [put_ne _ _ ho]; exact H.resLen o

theorem defs_createBlock {c : Store} {d : BlockData} (H : DefsOk c) : DefsOk (createBlock c d).1 := by
  have hnil := H.args_new (Nat.le_refl c.blocks.length)
  refine ⟨?_, ?_, H.resLen, fun b => ?_⟩
  · exact site_other (mk' := Def.blockArg) (fun _ _ _ _ e => by cases e) H.res _ (fun x hx => by
      obtain ⟨i, -, rfl⟩ := List.mem_map.1 hx
      exact ⟨_, _, rfl⟩)
  · have := site_grow argInj H.arg c.blocks.length d.args.length
    simpa [hnil, createBlock] using this
  · have e : (createBlock c d).1.argTysOf = put c.argTysOf c.blocks.length d.args := look_push
    rw [e]
    simp only [createBlock]
    by_cases hb : b = c.blocks.length
    · subst hb; simp [put_eq]
    · simp only [put_ne _ _ hb]; exact H.argLen b

theorem defs_addBlockArg {c c' : Store} {b : BlockRef} {ty : Ty} (H : DefsOk c)
    (h : addBlockArg c b ty = some c') : DefsOk c' := by
  unfold addBlockArg at h
  cases hd : c.blocks[b]? with
  | none => rw [hd] at h; cases h
  | some d =>
    rw [hd] at h
    cases h
    have hl : (c.args b).length = d.args.length := by rw [H.argLen b, Store.argTysOf, look_some hd]
    refine ⟨?_, ?_, H.resLen, fun x => ?_⟩
    · exact site_other (mk' := Def.blockArg) (fun _ _ _ _ e => by cases e) H.res _ (fun x hx => by
        rw [List.mem_singleton] at hx; exact ⟨_, _, hx⟩)
    · have := site_grow argInj H.arg b 1
      simpa [hl, List.range_succ] using this
    · have e : Store.argTysOf { c with
          blocks := c.blocks.set b { d with args := d.args ++ [ty] }
          vals := c.vals ++ [.blockArg b d.args.length]
          args := put c.args b (c.args b ++ [c.vals.length]) } = put c.argTysOf b (d.args ++ [ty]) :=
        look_set hd
      rw [e]
      by_cases hx : x = b
      · subst hx; simp [put_eq, hl]
      · simp only [put_ne _ _ hx]; exact H.argLen x

theorem shiftDefs_spec : ∀ (vs : List Value) (ds : List Def), vs.Nodup → (∀ v ∈ vs, v < ds.length) →
    ∃ ds', shiftDefs vs ds = some ds' ∧ ds'.length = ds.length ∧
      ∀ v : Nat, ds'[v]? = if v ∈ vs then (ds[v]?).map shiftDef else ds[v]? := by
  intro vs
  induction vs with
  | nil => intro ds _ _; exact ⟨ds, rfl, rfl, by simp⟩
  | cons w ws ih =>
    intro ds hn hlt
    obtain ⟨hw, hn'⟩ := List.nodup_cons.1 hn
    have hwl := hlt w (.head _)
    obtain ⟨ds', h1, h2, h3⟩ := ih (ds.set w (shiftDef ds[w])) hn' (fun v hv => by
      rw [List.length_set]; exact hlt v (.tail _ hv))
    refine ⟨ds', ?_, by rw [h2, List.length_set], fun v => ?_⟩
    · unfold shiftDefs; rw [List.getElem?_eq_getElem hwl]; exact h1
    · rw [h3, List.getElem?_set]
      by_cases hv : v = w
      · subst hv
        rw [if_neg hw, if_pos rfl, if_pos hwl, if_pos (.head _), List.getElem?_eq_getElem hwl]; rfl
      · rw [if_neg (Ne.symm hv)]
        by_cases hvs : v ∈ ws
        · rw [if_pos hvs, if_pos (.tail _ hvs)]
        · rw [if_neg hvs, if_neg (fun h => by
            rcases List.mem_cons.1 h with h | h
            · exact hv h
            · exact hvs h)]

theorem DefsOk.args_nodup {c : Store} (H : DefsOk c) (b : BlockRef) : (c.args b).Nodup := by
  rw [List.nodup_iff_getElem?_ne_getElem?]
  intro i j hij hj e
  rw [List.getElem?_eq_getElem hj] at e
  have h1 := (H.arg _ b i).2 e
  have h2 := (H.arg _ b j).2 (List.getElem?_eq_getElem hj)
  rw [h1] at h2
  simp only [Option.some.injEq, Def.blockArg.injEq, true_and] at h2
  omega

theorem defs_prependBlockArg {c c' : Store} {b : BlockRef} {ty : Ty} (H : DefsOk c)
    (h : prependBlockArg c b ty = some c') : DefsOk c' := by
  obtain ⟨vals, h1, h2, h3⟩ := shiftDefs_spec (c.args b) c.vals (H.args_nodup b) (fun v hv => by
    obtain ⟨i, hi⟩ := List.mem_iff_getElem?.1 hv
    exact H.arg.lt hi)
  unfold prependBlockArg at h
  rw [h1] at h
  cases hd : c.blocks[b]? with
  | none => rw [hd] at h; cases h
  | some d =>
    rw [hd] at h
    cases h
    have hl : (c.args b).length = d.args.length := by rw [H.argLen b, Store.argTysOf, look_some hd]
    -- the table before the new value is added
    have hmem : ∀ v, v ∈ c.args b → ∃ j, c.vals[v]? = some (.blockArg b j) ∧ (c.args b)[j]? = some v := by
      intro v hv
      obtain ⟨i, hi⟩ := List.mem_iff_getElem?.1 hv
      exact ⟨i, (H.arg v b i).2 hi, hi⟩
    refine ⟨?_, ?_, H.resLen, fun x => ?_⟩
    · have hs : Site Def.opResult vals c.results := by
        intro v e i
        rw [h3, ← H.res]
        split
        · rename_i hv
          obtain ⟨j, hj, -⟩ := hmem v hv
          rw [hj]; simp [shiftDef]
        · exact Iff.rfl
      exact site_other (mk' := Def.blockArg) (fun _ _ _ _ e => by cases e) hs _ (fun x hx => by
        rw [List.mem_singleton] at hx; exact ⟨_, _, hx⟩)
    · intro v e i
      simp only
      by_cases hv : v < vals.length
      · rw [List.getElem?_append_left hv, h3]
        by_cases he : e = b
        · subst he
          rw [put_eq]
          split
          · rename_i hm
            obtain ⟨j, hj, hj'⟩ := hmem v hm
            rw [hj]
            simp only [Option.map_some, shiftDef, Option.some.injEq, Def.blockArg.injEq, true_and]
            constructor
            · rintro rfl; rw [List.getElem?_cons_succ]; exact hj'
            · intro hr
              cases i with
              | zero => simp at hr; exact absurd hv (by rw [← hr]; exact Nat.lt_irrefl _)
              | succ i =>
                rw [List.getElem?_cons_succ] at hr
                have := (H.arg v e i).2 hr
                rw [hj] at this
                simp only [Option.some.injEq, Def.blockArg.injEq, true_and] at this
                omega
          · rename_i hm
            constructor
            · intro hr; exact absurd (List.mem_of_getElem? ((H.arg v e i).1 hr)) hm
            · intro hr
              cases i with
              | zero => simp at hr; exact absurd hv (by rw [← hr]; exact Nat.lt_irrefl _)
              | succ i => rw [List.getElem?_cons_succ] at hr; exact absurd (List.mem_of_getElem? hr) hm
        · rw [put_ne _ _ he, ← H.arg]
          split
          · rename_i hm
            obtain ⟨j, hj, -⟩ := hmem v hm
            rw [hj]; simp [shiftDef, Ne.symm he]
          · exact Iff.rfl
      · rw [List.getElem?_append_right (by omega)]
        constructor
        · intro hr
          have hv' : v = vals.length := by
            by_contra hne
            rw [List.getElem?_eq_none (by simp only [List.length_singleton]; omega)] at hr
            cases hr
          subst hv'
          simp only [Nat.sub_self, List.getElem?_cons_zero, Option.some.injEq, Def.blockArg.injEq] at hr
          obtain ⟨rfl, rfl⟩ := hr
          simp [put_eq]
        · intro hr
          by_cases he : e = b
          · subst he
            rw [put_eq] at hr
            cases i with
            | zero => simp at hr; subst hr; simp
            | succ i =>
              rw [List.getElem?_cons_succ] at hr
              exact absurd (h2 ▸ H.arg.lt hr) hv
          · rw [put_ne _ _ he] at hr
            exact absurd (h2 ▸ H.arg.lt hr) hv
    · have e : Store.argTysOf { c with
          blocks := c.blocks.set b { d with args := ty :: d.args }
          vals := vals ++ [.blockArg b 0]
          args := put c.args b (vals.length :: c.args b) } = put c.argTysOf b (ty :: d.args) :=
        look_set hd
      rw [e]
      by_cases hx : x = b
      · subst hx; simp [put_eq, hl]
      · simp only [put_ne _ _ hx]; exact H.argLen x

/-! ## Links -/

/-- `x` has parent `p` exactly if it is among the children of `p`, where it occurs once. -/
structure Linked (P : Nat → Option Nat) (C : Nat → List Nat) : Prop where
  iff : ∀ x p, P x = some p ↔ x ∈ C p
  nodup : ∀ p, (C p).Nodup

structure LinksOk (c : Store) : Prop where
  op : Linked c.parentOf c.opsOf
  block : Linked c.regionOf c.blocksOf
  region : Linked c.ownerOf c.regionsOf

theorem linked_add {P : Nat → Option Nat} {C : Nat → List Nat} (H : Linked P C) {x p : Nat}
    (hx : P x = none) {l : List Nat} (hl : ∀ y, y ∈ l ↔ y = x ∨ y ∈ C p) (hn : l.Nodup) :
    Linked (put P x (some p)) (put C p l) := by
  refine ⟨fun y q => ?_, fun q => ?_⟩
  · by_cases hq : q = p
    · subst hq
      rw [put_eq, hl, ← H.iff]
      by_cases hy : y = x
      · subst hy; simp [put_eq]
      · simp [put_ne _ _ hy, hy]
    · rw [put_ne _ _ hq, ← H.iff]
      by_cases hy : y = x
      · subst hy; simp [put_eq, hx, Ne.symm hq]
      · rw [put_ne _ _ hy]
  · by_cases hq : q = p
    · subst hq; rw [put_eq]; exact hn
    · rw [put_ne _ _ hq]; exact H.nodup q

theorem linked_remove {P : Nat → Option Nat} {C : Nat → List Nat} (H : Linked P C) {x p : Nat} :
    Linked (if P x = some p then put P x none else P) (put C p ((C p).filter fun y => y != x)) := by
  refine ⟨fun y q => ?_, fun q => ?_⟩
  · by_cases hq : q = p
    · subst hq
      rw [put_eq, List.mem_filter, ← H.iff]
      by_cases hy : y = x
      · subst hy
        simp only [bne_self_eq_false, Bool.false_eq_true, and_false, iff_false]
        split
        · simp [put_eq]
        · assumption
      · have : (if P x = some q then put P x none else P) y = P y := by
          split
          · rw [put_ne _ _ hy]
          · rfl
        rw [this]; simp [hy]
    · rw [put_ne _ _ hq, ← H.iff]
      split
      · rename_i hp
        by_cases hy : y = x
        · subst hy; rw [put_eq, hp]; simp [Ne.symm hq]
        · rw [put_ne _ _ hy]
      · exact Iff.rfl
  · by_cases hq : q = p
    · subst hq; rw [put_eq]; exact (H.nodup q).filter _
    · rw [put_ne _ _ hq]; exact H.nodup q

theorem linked_parent {P P' : Nat → Option Nat} {C : Nat → List Nat} (H : Linked P C) {p : Nat}
    {l : List Nat} (hC : C p = []) (hn : l.Nodup) (h0 : ∀ x ∈ l, P x = none)
    (hP : ∀ x, P' x = if x ∈ l then some p else P x) : Linked P' (put C p l) := by
  refine ⟨fun y q => ?_, fun q => ?_⟩
  · rw [hP]
    by_cases hq : q = p
    · subst hq
      rw [put_eq]
      by_cases hy : y ∈ l
      · simp [hy]
      · simp only [hy, if_false, iff_false]
        rw [H.iff, hC]; simp
    · rw [put_ne _ _ hq, ← H.iff]
      by_cases hy : y ∈ l
      · simp [hy, h0 y hy, Ne.symm hq]
      · simp [hy]
  · by_cases hq : q = p
    · subst hq; rw [put_eq]; exact hn
    · rw [put_ne _ _ hq]; exact H.nodup q

theorem linkRegions_spec {op : OpRef} : ∀ {rs : List RegionRef} {ds ds' : List RegionData},
    linkRegions op rs ds = some ds' →
    rs.Nodup ∧ (∀ r ∈ rs, look none RegionData.parent ds r = none) ∧
      (∀ x, look none RegionData.parent ds' x =
        if x ∈ rs then some op else look none RegionData.parent ds x) ∧
      look [] RegionData.blocks ds' = look [] RegionData.blocks ds := by
  intro rs
  induction rs with
  | nil => intro ds ds' h; cases h; simp
  | cons r rs ih =>
    intro ds ds' h
    unfold linkRegions at h
    cases hr : ds[r]? with
    | none => rw [hr] at h; cases h
    | some d =>
      rw [hr] at h
      simp only at h
      cases hp : d.parent with
      | some q => rw [hp] at h; cases h
      | none =>
        rw [hp] at h
        simp only [Option.isSome_none, Bool.false_eq_true, if_false] at h
        obtain ⟨i1, i2, i3, i4⟩ := ih h
        have e : look none RegionData.parent (ds.set r { d with parent := some op }) =
            put (look none RegionData.parent ds) r (some op) := look_set hr
        rw [e] at i2 i3
        rw [look_set_same (f := RegionData.blocks) (d' := { d with parent := some op }) hr rfl] at i4
        have hnot : r ∉ rs := fun hm => by
          have := i2 r hm; rw [put_eq] at this; cases this
        refine ⟨List.nodup_cons.2 ⟨hnot, i1⟩, fun x hx => ?_, fun x => ?_, i4⟩
        · rcases List.mem_cons.1 hx with e0 | hx
          · rw [e0, look_some hr]; exact hp
          · have hne : x ≠ r := fun e => hnot (e ▸ hx)
            have := i2 x hx
            rwa [put_ne _ _ hne] at this
        · rw [i3]
          by_cases hx : x = r
          · subst hx; simp [hnot, put_eq]
          · simp [hx, put_ne _ _ hx]

theorem linkBlocks_spec {r : RegionRef} : ∀ {bs : List BlockRef} {ds ds' : List BlockData},
    linkBlocks r bs ds = some ds' →
    bs.Nodup ∧ (∀ b ∈ bs, look none BlockData.parent ds b = none) ∧
      (∀ x, look none BlockData.parent ds' x =
        if x ∈ bs then some r else look none BlockData.parent ds x) ∧
      look [] BlockData.ops ds' = look [] BlockData.ops ds ∧
      look [] BlockData.args ds' = look [] BlockData.args ds ∧ ds'.length = ds.length := by
  intro bs
  induction bs with
  | nil => intro ds ds' h; cases h; simp
  | cons b bs ih =>
    intro ds ds' h
    unfold linkBlocks at h
    cases hr : ds[b]? with
    | none => rw [hr] at h; cases h
    | some d =>
      rw [hr] at h
      simp only at h
      cases hp : d.parent with
      | some q => rw [hp] at h; cases h
      | none =>
        rw [hp] at h
        simp only [Option.isSome_none, Bool.false_eq_true, if_false] at h
        obtain ⟨i1, i2, i3, i4, i5, i6⟩ := ih h
        have e : look none BlockData.parent (ds.set b { d with parent := some r }) =
            put (look none BlockData.parent ds) b (some r) := look_set hr
        rw [e] at i2 i3
        rw [look_set_same (f := BlockData.ops) (d' := { d with parent := some r }) hr rfl] at i4
        rw [look_set_same (f := BlockData.args) (d' := { d with parent := some r }) hr rfl] at i5
        rw [List.length_set] at i6
        have hnot : b ∉ bs := fun hm => by
          have := i2 b hm; rw [put_eq] at this; cases this
        refine ⟨List.nodup_cons.2 ⟨hnot, i1⟩, fun x hx => ?_, fun x => ?_, i4, i5, i6⟩
        · rcases List.mem_cons.1 hx with e0 | hx
          · rw [e0, look_some hr]; exact hp
          · have hne : x ≠ b := fun e => hnot (e ▸ hx)
            have := i2 x hx
            rwa [put_ne _ _ hne] at this
        · rw [i3]
          by_cases hx : x = b
          · subst hx; simp [hnot, put_eq]
          · simp [hx, put_ne _ _ hx]

theorem LinksOk.same {c c' : Store} (H : LinksOk c) (h1 : c'.parentOf = c.parentOf)
    (h2 : c'.opsOf = c.opsOf) (h3 : c'.regionOf = c.regionOf) (h4 : c'.blocksOf = c.blocksOf)
    (h5 : c'.ownerOf = c.ownerOf) (h6 : c'.regionsOf = c.regionsOf) : LinksOk c' :=
  ⟨by rw [h1, h2]; exact H.op, by rw [h3, h4]; exact H.block, by rw [h5, h6]; exact H.region⟩

/-- An entry added with the default of its field changes nothing. -/
theorem look_push_dflt {α β : Type} {dflt : β} {f : α → β} {l : List α} {d : α} (h : f d = dflt) :
    look dflt f (l ++ [d]) = look dflt f l := by
  rw [look_push, h]
  have e : look dflt f l l.length = dflt := look_out (Nat.le_refl l.length)
  have := put_same (look dflt f l) l.length
  rwa [e] at this

theorem links_createOp {c c' : Store} {d : OpData} {op : OpRef} (H : LinksOk c)
    (h : createOp c d = some (c', op)) : LinksOk c' := by
  obtain ⟨hp, rfl, rs, hl, rfl⟩ := createOp_eq h
  obtain ⟨s1, s2, s3, s4⟩ := linkRegions_spec hl
  refine ⟨?_, ?_, ?_⟩
  · have : Linked (look none OpData.parent (c.ops ++ [d])) c.opsOf := by
      rw [look_push_dflt hp]; exact H.op
    exact this
  · have : Linked c.regionOf (look [] RegionData.blocks rs) := by rw [s4]; exact H.block
    exact this
  · have : Linked (look none RegionData.parent rs) (look [] OpData.regions (c.ops ++ [d])) := by
      rw [look_push]
      exact linked_parent H.region (look_out (Nat.le_refl _)) s1 s2 s3
    exact this

theorem links_createBlock {c : Store} {d : BlockData} (H : LinksOk c) (h1 : d.ops = [])
    (h2 : d.parent = none) : LinksOk (createBlock c d).1 :=
  H.same rfl (look_push_dflt h1) (look_push_dflt h2) rfl rfl rfl

theorem links_createRegion {c c' : Store} {d : RegionData} {r : RegionRef} (H : LinksOk c)
    (hd : d.parent = none) (h : createRegion c d = some (c', r)) : LinksOk c' := by
  unfold createRegion at h
  simp only at h
  cases hl : linkBlocks c.regions.length d.blocks c.blocks with
  | none => rw [hl] at h; cases h
  | some bs =>
    rw [hl] at h
    simp only [Option.some.injEq, Prod.mk.injEq] at h
    obtain ⟨rfl, rfl⟩ := h
    obtain ⟨s1, s2, s3, s4, -, -⟩ := linkBlocks_spec hl
    refine ⟨?_, ?_, ?_⟩
    · have : Linked c.parentOf (look [] BlockData.ops bs) := by rw [s4]; exact H.op
      exact this
    · have : Linked (look none BlockData.parent bs) (look [] RegionData.blocks (c.regions ++ [d])) := by
        rw [look_push]
        exact linked_parent H.block (look_out (Nat.le_refl _)) s1 s2 s3
      exact this
    · have : Linked (look none RegionData.parent (c.regions ++ [d])) c.regionsOf := by
        rw [look_push_dflt hd]; exact H.region
      exact this

theorem pushOp_eq {c c' : Store} {b : BlockRef} {op : OpRef} (h : pushOp c b op = some c') :
    ∃ d bd, c.ops[op]? = some d ∧ c.blocks[b]? = some bd ∧ d.parent = none ∧ c' = { c with
      ops := c.ops.set op { d with parent := some b }
      blocks := c.blocks.set b { bd with ops := bd.ops ++ [op] } } := by
  unfold pushOp at h
  cases hd : c.ops[op]? with
  | none => rw [hd] at h; cases h
  | some d =>
    cases hb : c.blocks[b]? with
    | none => rw [hd, hb] at h; cases h
    | some bd =>
      rw [hd, hb] at h
      simp only at h
      cases hp : d.parent with
      | some q => rw [hp] at h; cases h
      | none =>
        rw [hp] at h
        simp only [Option.isSome_none, Bool.false_eq_true, if_false, Option.some.injEq] at h
        exact ⟨d, bd, rfl, rfl, hp, h.symm⟩

/-- Attaching an operation to a block. -/
theorem links_attach {c : Store} {b : BlockRef} {op : OpRef} {d : OpData} {bd : BlockData}
    {os : List OpRef} (H : LinksOk c) (hd : c.ops[op]? = some d) (hb : c.blocks[b]? = some bd)
    (hp : d.parent = none) (hm : ∀ y, y ∈ os ↔ y = op ∨ y ∈ bd.ops)
    (hn : op ∉ bd.ops → bd.ops.Nodup → os.Nodup) :
    LinksOk { c with
      ops := c.ops.set op { d with parent := some b }
      blocks := c.blocks.set b { bd with ops := os } } := by
  have hP : c.parentOf op = none := by rw [Store.parentOf, look_some hd]; exact hp
  have hC : c.opsOf b = bd.ops := look_some hb
  have hnot : op ∉ bd.ops := fun hm => by
    have := (H.op.iff op b).2 (hC ▸ hm)
    rw [hP] at this; cases this
  refine ⟨?_, ?_, ?_⟩
  · have : Linked (look none OpData.parent (c.ops.set op { d with parent := some b }))
        (look [] BlockData.ops (c.blocks.set b { bd with ops := os })) := by
      rw [look_set hd, look_set hb]
      exact linked_add H.op hP (fun y => by rw [hm]; show _ ↔ _ ∨ y ∈ c.opsOf b; rw [hC])
        (hn hnot (hC ▸ H.op.nodup b))
    exact this
  · have : Linked (look none BlockData.parent (c.blocks.set b { bd with ops := os })) c.blocksOf := by
      (rw [look_set_same hb]; exact H.block; rfl)
    exact this
  · have : Linked c.ownerOf (look [] OpData.regions (c.ops.set op { d with parent := some b })) := by
      (rw [look_set_same hd]; exact H.region; rfl)
    exact this

theorem links_pushOp {c c' : Store} {b : BlockRef} {op : OpRef} (H : LinksOk c)
    (h : pushOp c b op = some c') : LinksOk c' := by
  obtain ⟨d, bd, hd, hb, hp, rfl⟩ := pushOp_eq h
  exact links_attach H hd hb hp (fun y => by simp [or_comm]) (fun h1 h2 =>
    List.nodup_append.2 ⟨h2, by simp, fun a ha b hb e => by
      rw [List.mem_singleton] at hb; subst hb e; exact h1 ha⟩)

theorem insertBefore_spec {before op : OpRef} : ∀ {os os' : List OpRef},
    insertBefore before op os = some os' → (∀ y, y ∈ os' ↔ y = op ∨ y ∈ os) ∧
      (op ∉ os → os.Nodup → os'.Nodup) := by
  intro os
  induction os with
  | nil => intro os' h; cases h
  | cons o os ih =>
    intro os' h
    unfold insertBefore at h
    split at h
    · cases h
      exact ⟨fun y => by simp, fun h1 h2 => List.nodup_cons.2 ⟨h1, h2⟩⟩
    · simp only [Option.map_eq_some_iff] at h
      obtain ⟨l, hl, rfl⟩ := h
      obtain ⟨i1, i2⟩ := ih hl
      refine ⟨fun y => by simp only [List.mem_cons, i1]; tauto, fun h1 h2 => ?_⟩
      obtain ⟨h3, h4⟩ := List.nodup_cons.1 h2
      refine List.nodup_cons.2 ⟨fun hm => ?_, i2 (fun hm => h1 (.tail _ hm)) h4⟩
      rcases (i1 o).1 hm with rfl | hm
      · exact h1 (.head _)
      · exact h3 hm

theorem insertOpBefore_eq {c c' : Store} {b : BlockRef} {before op : OpRef}
    (h : insertOpBefore c b before op = some c') :
    ∃ d bd os, c.ops[op]? = some d ∧ c.blocks[b]? = some bd ∧ d.parent = none ∧
      insertBefore before op bd.ops = some os ∧ c' = { c with
        ops := c.ops.set op { d with parent := some b }
        blocks := c.blocks.set b { bd with ops := os } } := by
  unfold insertOpBefore at h
  cases hd : c.ops[op]? with
  | none => rw [hd] at h; cases h
  | some d =>
    cases hb : c.blocks[b]? with
    | none => rw [hd, hb] at h; cases h
    | some bd =>
      rw [hd, hb] at h
      simp only at h
      cases hp : d.parent with
      | some q => rw [hp] at h; cases h
      | none =>
        rw [hp] at h
        simp only [Option.isSome_none, Bool.false_eq_true, if_false] at h
        cases hi : insertBefore before op bd.ops with
        | none => rw [hi] at h; cases h
        | some os =>
          rw [hi] at h
          simp only [Option.some.injEq] at h
          exact ⟨d, bd, os, rfl, rfl, hp, hi, h.symm⟩

theorem links_insertOpBefore {c c' : Store} {b : BlockRef} {before op : OpRef} (H : LinksOk c)
    (h : insertOpBefore c b before op = some c') : LinksOk c' := by
  obtain ⟨d, bd, os, hd, hb, hp, hi, rfl⟩ := insertOpBefore_eq h
  obtain ⟨i1, i2⟩ := insertBefore_spec hi
  exact links_attach H hd hb hp i1 i2

theorem removeOpFromBlock_eq {c c' : Store} {b : BlockRef} {op : OpRef}
    (h : removeOpFromBlock c b op = some c') :
    ∃ d bd, c.ops[op]? = some d ∧ c.blocks[b]? = some bd ∧ c' = { c with
      blocks := c.blocks.set b { bd with ops := bd.ops.filter (fun o => o != op) }
      ops := if d.parent = some b then c.ops.set op { d with parent := none } else c.ops } := by
  unfold removeOpFromBlock at h
  cases hd : c.ops[op]? with
  | none => rw [hd] at h; cases h
  | some d =>
    cases hb : c.blocks[b]? with
    | none => rw [hd, hb] at h; cases h
    | some bd =>
      rw [hd, hb] at h
      simp only [Option.some.injEq] at h
      exact ⟨d, bd, rfl, rfl, h.symm⟩

theorem links_removeOpFromBlock {c c' : Store} {b : BlockRef} {op : OpRef} (H : LinksOk c)
    (h : removeOpFromBlock c b op = some c') : LinksOk c' := by
  obtain ⟨d, bd, hd, hb, rfl⟩ := removeOpFromBlock_eq h
  have hC : c.opsOf b = bd.ops := look_some hb
  have hP : c.parentOf op = d.parent := look_some hd
  refine ⟨?_, ?_, ?_⟩
  · have : Linked (look none OpData.parent
          (if d.parent = some b then c.ops.set op { d with parent := none } else c.ops))
        (look [] BlockData.ops (c.blocks.set b { bd with ops := bd.ops.filter (fun o => o != op) })) := by
      rw [look_set hb]
      have := linked_remove H.op (x := op) (p := b)
      rw [hP, hC] at this
      by_cases hp : d.parent = some b
      · rw [if_pos hp, look_set hd]; rw [if_pos hp] at this; exact this
      · rw [if_neg hp]; rw [if_neg hp] at this; exact this
    exact this
  · have : Linked (look none BlockData.parent
        (c.blocks.set b { bd with ops := bd.ops.filter (fun o => o != op) })) c.blocksOf := by
      (rw [look_set_same hb]; exact H.block; rfl)
    exact this
  · have : Linked c.ownerOf (look [] OpData.regions
        (if d.parent = some b then c.ops.set op { d with parent := none } else c.ops)) := by
      split
      · (rw [look_set_same hd]; exact H.region; rfl)
      · exact H.region
    exact this

theorem detachOp_eq {c c' : Store} {op : OpRef} (h : detachOp c op = some c') :
    c' = c ∨ ∃ b, removeOpFromBlock c b op = some c' := by
  unfold detachOp at h
  cases hd : c.ops[op]? with
  | none => rw [hd] at h; cases h
  | some d =>
    rw [hd] at h
    simp only at h
    cases hp : d.parent with
    | none => rw [hp] at h; cases h; exact .inl rfl
    | some b => rw [hp] at h; exact .inr ⟨b, h⟩

theorem detachRegion_eq {c c' : Store} {r : RegionRef} (h : detachRegion c r = some c') :
    c' = c ∨ ∃ rd op d, c.regions[r]? = some rd ∧ rd.parent = some op ∧ c.ops[op]? = some d ∧
      c' = { c with
          regions := c.regions.set r { rd with parent := none }
          ops := c.ops.set op { d with regions := d.regions.filter (fun x => x != r) } } := by
  unfold detachRegion at h
  cases hr : c.regions[r]? with
  | none => rw [hr] at h; cases h
  | some rd =>
    rw [hr] at h
    simp only at h
    cases hp : rd.parent with
    | none => rw [hp] at h; cases h; exact .inl rfl
    | some op =>
      rw [hp] at h
      simp only at h
      cases hd : c.ops[op]? with
      | none => rw [hd] at h; cases h
      | some d =>
        rw [hd] at h
        simp only [Option.some.injEq] at h
        exact .inr ⟨rd, op, d, rfl, hp, hd, h.symm⟩

theorem links_detachRegion {c c' : Store} {r : RegionRef} (H : LinksOk c)
    (h : detachRegion c r = some c') : LinksOk c' := by
  rcases detachRegion_eq h with rfl | ⟨rd, op, d, hr, hp, hd, rfl⟩
  · exact H
  · have hC : c.regionsOf op = d.regions := look_some hd
    have hP : c.ownerOf r = some op := by rw [Store.ownerOf, look_some hr]; exact hp
    refine ⟨?_, ?_, ?_⟩
    · have : Linked (look none OpData.parent
          (c.ops.set op { d with regions := d.regions.filter (fun x => x != r) })) c.opsOf := by
        (rw [look_set_same hd]; exact H.op; rfl)
      exact this
    · have : Linked c.regionOf (look [] RegionData.blocks
          (c.regions.set r { rd with parent := none })) := by
        (rw [look_set_same hr]; exact H.block; rfl)
      exact this
    · have : Linked (look none RegionData.parent (c.regions.set r { rd with parent := none }))
          (look [] OpData.regions
            (c.ops.set op { d with regions := d.regions.filter (fun x => x != r) })) := by
        rw [look_set hr, look_set hd]
        have := linked_remove H.region (x := r) (p := op)
        rw [hP, if_pos rfl, hC] at this
        exact this
      exact this

end Verif.IrStore
