import Verif.IrStore.Basics

/-
Use chains stay exact.
-/
namespace Verif.IrStore

structure UsesOk (c : Store) (gone : OpRef → Prop) : Prop where
  nodup : ∀ v, (c.uses v).Nodup
  mem : ∀ v u, u ∈ c.uses v ↔ ¬ gone u.user ∧ (c.operandsOf u.user)[u.idx]? = some v
  exist : ∀ o, gone o → o < c.ops.length

/-! ## The walk -/

theorem collect_spec {α β : Type} {f : α → Option (List β)} {as : List α} {l : List β}
    (h : collect f as = some l) :
    (∀ a ∈ as, ∃ y, f a = some y) ∧ ∀ x, x ∈ l ↔ ∃ a ∈ as, ∃ y, f a = some y ∧ x ∈ y := by
  induction as generalizing l with
  | nil => cases h; simp
  | cons a as ih =>
    unfold collect at h
    cases h1 : f a with
    | none => rw [h1] at h; cases h
    | some y =>
      cases h2 : collect f as with
      | none => rw [h1, h2] at h; cases h
      | some z =>
        rw [h1, h2] at h
        cases h
        obtain ⟨i1, i2⟩ := ih h2
        refine ⟨fun b hb => ?_, fun x => ?_⟩
        · rcases List.mem_cons.1 hb with rfl | hb
          · exact ⟨y, h1⟩
          · exact i1 b hb
        · rw [List.mem_append, i2]
          constructor
          · rintro (hx | ⟨b, hb, w, hw, hx⟩)
            · exact ⟨a, .head _, y, h1, hx⟩
            · exact ⟨b, .tail _ hb, w, hw, hx⟩
          · rintro ⟨b, hb, w, hw, hx⟩
            rcases List.mem_cons.1 hb with rfl | hb
            · rw [h1] at hw; cases hw; exact .inl hx
            · exact .inr ⟨b, hb, w, hw, hx⟩

theorem Within.trans {c : Store} {a b d : OpRef} (h : Within c a b) (h' : Within c b d) :
    Within c a d := by
  induction h' with
  | self => exact h
  | nested _ h1 h2 h3 ih => exact .nested ih h1 h2 h3

theorem walk_spec {c : Store} : ∀ {n : Nat} {op : OpRef} {l : List OpRef}, walkOp c n op = some l →
    (∀ o, o ∈ l ↔ Within c op o) ∧ ∀ o ∈ l, o < c.ops.length := by
  intro n
  induction n with
  | zero => intro op l h; cases h
  | succ n ih =>
    intro op l h
    unfold walkOp at h
    cases ho : c.ops[op]? with
    | none => rw [ho] at h; cases h
    | some d =>
      rw [ho] at h
      simp only [Option.map_eq_some_iff] at h
      obtain ⟨l', h, rfl⟩ := h
      obtain ⟨r1, r2⟩ := collect_spec h
      have hreg : c.regionsOf op = d.regions := look_some ho
      have hlt : op < c.ops.length := (List.getElem?_eq_some_iff.1 ho).1
      -- the children that were walked
      have key : ∀ x, x ∈ l' ↔ ∃ r ∈ c.regionsOf op, ∃ b ∈ c.blocksOf r, ∃ o ∈ c.opsOf b, ∃ y,
          walkOp c n o = some y ∧ x ∈ y := by
        intro x
        rw [r2, hreg]
        constructor
        · rintro ⟨r, hr, y, hy, hx⟩
          unfold walkRegion at hy
          cases hrd : c.regions[r]? with
          | none => rw [hrd] at hy; cases hy
          | some rd =>
            rw [hrd] at hy
            obtain ⟨-, s2⟩ := collect_spec hy
            obtain ⟨b, hb, z, hz, hx⟩ := (s2 x).1 hx
            unfold walkBlock at hz
            cases hbd : c.blocks[b]? with
            | none => rw [hbd] at hz; cases hz
            | some bd =>
              rw [hbd] at hz
              obtain ⟨-, t2⟩ := collect_spec hz
              obtain ⟨o, ho, w, hw, hx⟩ := (t2 x).1 hx
              exact ⟨r, hr, b, by rw [Store.blocksOf, look_some hrd]; exact hb, o,
                by rw [Store.opsOf, look_some hbd]; exact ho, w, hw, hx⟩
        · rintro ⟨r, hr, b, hb, o, ho, w, hw, hx⟩
          obtain ⟨y, hy⟩ := r1 r hr
          refine ⟨r, hr, y, hy, ?_⟩
          unfold walkRegion at hy
          cases hrd : c.regions[r]? with
          | none => rw [hrd] at hy; cases hy
          | some rd =>
            rw [hrd] at hy
            rw [Store.blocksOf, look_some hrd] at hb
            obtain ⟨s1, s2⟩ := collect_spec hy
            obtain ⟨z, hz⟩ := s1 b hb
            refine (s2 x).2 ⟨b, hb, z, hz, ?_⟩
            unfold walkBlock at hz
            cases hbd : c.blocks[b]? with
            | none => rw [hbd] at hz; cases hz
            | some bd =>
              rw [hbd] at hz
              rw [Store.opsOf, look_some hbd] at ho
              obtain ⟨-, t2⟩ := collect_spec hz
              exact (t2 x).2 ⟨o, ho, w, hw, hx⟩
      -- every child was walked
      have all : ∀ r ∈ c.regionsOf op, ∀ b ∈ c.blocksOf r, ∀ o ∈ c.opsOf b, ∃ y,
          walkOp c n o = some y := by
        intro r hr b hb o ho
        rw [hreg] at hr
        obtain ⟨y, hy⟩ := r1 r hr
        unfold walkRegion at hy
        cases hrd : c.regions[r]? with
        | none => rw [hrd] at hy; cases hy
        | some rd =>
          rw [hrd] at hy
          rw [Store.blocksOf, look_some hrd] at hb
          obtain ⟨z, hz⟩ := (collect_spec hy).1 b hb
          unfold walkBlock at hz
          cases hbd : c.blocks[b]? with
          | none => rw [hbd] at hz; cases hz
          | some bd =>
            rw [hbd] at hz
            rw [Store.opsOf, look_some hbd] at ho
            exact (collect_spec hz).1 o ho
      refine ⟨fun o => ⟨fun hm => ?_, fun hw => ?_⟩, fun o hm => ?_⟩
      · rcases List.mem_cons.1 hm with rfl | hm
        · exact .self
        · obtain ⟨r, hr, b, hb, o1, ho1, y, hy, hx⟩ := (key o).1 hm
          exact (Within.nested .self hr hb ho1).trans (((ih hy).1 o).1 hx)
      · induction hw with
        | self => exact .head _
        | @nested o o' r b _ hr hb ho' ih2 =>
          rcases List.mem_cons.1 ih2 with rfl | hm
          · obtain ⟨y, hy⟩ := all r hr b hb o' ho'
            exact .tail _ ((key o').2 ⟨r, hr, b, hb, o', ho', y, hy, ((ih hy).1 o').2 .self⟩)
          · obtain ⟨r1, hr1, b1, hb1, o1, ho1, y, hy, hx⟩ := (key o).1 hm
            exact .tail _ ((key o').2 ⟨r1, hr1, b1, hb1, o1, ho1, y, hy,
              ((ih hy).1 o').2 (.nested (((ih hy).1 o).1 hx) hr hb ho')⟩)
      · rcases List.mem_cons.1 hm with rfl | hm
        · exact hlt
        · obtain ⟨r, hr, b, hb, o1, ho1, y, hy, hx⟩ := (key o).1 hm
          exact (ih hy).2 o hx

/-! ## The calls that change operands or chains -/

theorem UsesOk.same {c c' : Store} {gone : OpRef → Prop} (h : UsesOk c gone) (hu : c'.uses = c.uses)
    (ho : c'.operandsOf = c.operandsOf) (hl : c'.ops.length = c.ops.length) : UsesOk c' gone :=
  ⟨fun v => by rw [hu]; exact h.nodup v, fun v u => by rw [hu, ho]; exact h.mem v u,
    fun o ho => by rw [hl]; exact h.exist o ho⟩

theorem linkRegions_length {op : OpRef} {rs : List RegionRef} {ds ds' : List RegionData}
    (h : linkRegions op rs ds = some ds') : ds'.length = ds.length := by
  induction rs generalizing ds with
  | nil => cases h; rfl
  | cons r rs ih =>
    unfold linkRegions at h
    cases hr : ds[r]? with
    | none => rw [hr] at h; cases h
    | some d =>
      rw [hr] at h
      simp only at h
      split at h
      · cases h
      · rw [ih h, List.length_set]

theorem createOp_eq {c c' : Store} {d : OpData} {op : OpRef} (h : createOp c d = some (c', op)) :
    d.parent = none ∧ op = c.ops.length ∧ ∃ rs, linkRegions op d.regions c.regions = some rs ∧
      c' = { c with
        ops := c.ops ++ [d]
        regions := rs
        uses := addUses op 0 d.operands c.uses
        vals := c.vals ++ (List.range d.resultTys.length).map (Def.opResult op)
        results := put c.results op ((List.range d.resultTys.length).map (c.vals.length + ·)) } := by
  unfold createOp at h
  cases hp : d.parent with
  | some b => rw [hp] at h; cases h
  | none =>
    rw [hp] at h
    simp only [Option.isSome_none, Bool.false_eq_true, if_false] at h
    cases hl : linkRegions c.ops.length d.regions c.regions with
    | none => rw [hl] at h; cases h
    | some rs =>
      rw [hl] at h
      simp only [Option.some.injEq, Prod.mk.injEq] at h
      obtain ⟨rfl, rfl⟩ := h
      exact ⟨rfl, rfl, rs, hl, rfl⟩

theorem uses_createOp {c c' : Store} {gone : OpRef → Prop} {d : OpData} {op : OpRef}
    (H : UsesOk c gone) (h : createOp c d = some (c', op)) : UsesOk c' gone := by
  obtain ⟨-, rfl, rs, -, rfl⟩ := createOp_eq h
  have hops : Store.operandsOf { c with
        ops := c.ops ++ [d]
        regions := rs
        uses := addUses c.ops.length 0 d.operands c.uses
        vals := c.vals ++ (List.range d.resultTys.length).map (Def.opResult c.ops.length)
        results := put c.results c.ops.length ((List.range d.resultTys.length).map (c.vals.length + ·)) }
      = put c.operandsOf c.ops.length d.operands := look_push
  have hnew : ∀ v u, u ∈ c.uses v → u.user < c.ops.length := fun v u hu => by
    by_contra hlt
    have := ((H.mem v u).1 hu).2
    rw [Store.operandsOf, look_out (Nat.le_of_not_lt hlt)] at this
    simp at this
  have hng : ¬ gone c.ops.length := fun hg => Nat.lt_irrefl _ (H.exist _ hg)
  refine ⟨fun v => ?_, fun v u => ?_, fun o ho => ?_⟩
  · simp only [addUses_eq]
    refine List.nodup_append.2 ⟨H.nodup v, usesIn_nodup _ _ _ _, fun a ha b hb e => ?_⟩
    subst e
    exact Nat.ne_of_lt (hnew v a ha) (mem_usesIn.1 hb).1
  · rw [hops]
    simp only [addUses_eq, List.mem_append, mem_usesIn, Nat.zero_le, true_and, Nat.sub_zero]
    by_cases hu : u.user = c.ops.length
    · rw [hu, put_eq]
      constructor
      · rintro (h | h)
        · exact absurd hu (Nat.ne_of_lt (hnew v u h))
        · exact ⟨hng, h.2⟩
      · rintro ⟨-, h⟩; exact .inr ⟨rfl, h⟩
    · rw [put_ne _ _ hu, H.mem]
      simp [hu]
  · have := H.exist o ho
    simp only [List.length_append, List.length_singleton]
    exact Nat.lt_succ_of_lt this

theorem uses_setOperand {c c' : Store} {gone : OpRef → Prop} {op : OpRef} {i : Nat} {new : Value}
    (H : UsesOk c gone) (hg : ¬ gone op) (h : setOperand c op i new = some c') : UsesOk c' gone := by
  unfold setOperand at h
  cases hd : c.ops[op]? with
  | none => rw [hd] at h; cases h
  | some d =>
    rw [hd] at h
    simp only at h
    cases ho : d.operands[i]? with
    | none => rw [ho] at h; cases h
    | some old =>
      rw [ho] at h
      simp only at h
      by_cases he : old = new
      · rw [if_pos he] at h; cases h; exact H
      · rw [if_neg he] at h
        cases h
        have hlt : i < d.operands.length := (List.getElem?_eq_some_iff.1 ho).1
        have hops : c.operandsOf op = d.operands := look_some hd
        -- membership in the new chains
        have key : ∀ v u, u ∈ put (put c.uses old (dropUse op i (c.uses old))) new
            (put c.uses old (dropUse op i (c.uses old)) new ++ [⟨op, i⟩]) v ↔
            (u ∈ c.uses v ∧ u ≠ ⟨op, i⟩) ∨ (v = new ∧ u = ⟨op, i⟩) := by
          intro v u
          have hno : ∀ w, w ≠ old → ⟨op, i⟩ ∉ c.uses w := fun w hw hm => by
            have := ((H.mem w _).1 hm).2
            simp only [hops, ho, Option.some.injEq] at this
            exact hw this.symm
          by_cases hv : v = new
          · subst hv
            rw [put_eq, put_ne _ _ (Ne.symm he), List.mem_append, List.mem_singleton]
            simp only [true_and]
            constructor
            · rintro (h | h)
              · exact .inl ⟨h, fun e => hno v (Ne.symm he) (e ▸ h)⟩
              · exact .inr h
            · rintro (h | h)
              · exact .inl h.1
              · exact .inr h
          · rw [put_ne _ _ hv]
            by_cases hvo : v = old
            · subst hvo; rw [put_eq, mem_dropUse]; simp [hv]
            · rw [put_ne _ _ hvo]
              simp only [hv, false_and, or_false]
              exact ⟨fun h => ⟨h, fun e => hno v hvo (e ▸ h)⟩, fun h => h.1⟩
        refine ⟨fun v => ?_, fun v u => ?_, fun o hg' => ?_⟩
        · have h1 : ∀ w, (put c.uses old (dropUse op i (c.uses old)) w).Nodup := fun w => by
            by_cases hw : w = old
            · subst hw; rw [put_eq]; exact dropUse_nodup (H.nodup w)
            · rw [put_ne _ _ hw]; exact H.nodup w
          by_cases hv : v = new
          · subst hv
            simp only [put_eq]
            refine List.nodup_append.2 ⟨h1 v, by simp, fun a ha b hb e => ?_⟩
            rw [List.mem_singleton] at hb
            subst hb e
            rw [put_ne _ _ (Ne.symm he)] at ha
            have := ((H.mem v _).1 ha).2
            simp only [hops, ho, Option.some.injEq] at this
            exact he this
          · simp only [put_ne _ _ hv]; exact h1 v
        · simp only [key]
          have e : Store.operandsOf { c with ops := c.ops.set op { d with operands := d.operands.set i new }, uses := put (put c.uses old (dropUse op i (c.uses old))) new (put c.uses old (dropUse op i (c.uses old)) new ++ [⟨op, i⟩]) } = put c.operandsOf op (d.operands.set i new) := look_set hd
          rw [e]
          obtain ⟨a, j⟩ := u
          simp only [ne_eq, Use.mk.injEq]
          by_cases ha : a = op
          · subst ha
            rw [put_eq, List.getElem?_set]
            by_cases hj : j = i
            · subst hj
              simp only [and_self, not_true_eq_false, and_false, false_or, hlt, if_true,
                Option.some.injEq, hg, not_false_eq_true, true_and, and_true]
              exact eq_comm
            · simp only [hj, Ne.symm hj, and_false, not_false_eq_true, and_true, or_false, if_false]
              rw [H.mem, hops]
          · rw [put_ne _ _ ha]
            simp only [ha, false_and, not_false_eq_true, and_true, and_false, or_false]
            exact H.mem v ⟨a, j⟩
        · have := H.exist o hg'
          simpa using this

theorem uses_pushOperand {c c' : Store} {gone : OpRef → Prop} {op : OpRef} {v : Value}
    (H : UsesOk c gone) (hg : ¬ gone op) (h : pushOperand c op v = some c') : UsesOk c' gone := by
  unfold pushOperand at h
  cases hd : c.ops[op]? with
  | none => rw [hd] at h; cases h
  | some d =>
    rw [hd] at h
    cases h
    have hops : c.operandsOf op = d.operands := look_some hd
    have hno : ∀ w, (⟨op, d.operands.length⟩ : Use) ∉ c.uses w := fun w hm => by
      have := ((H.mem w _).1 hm).2
      simp [hops] at this
    have e : Store.operandsOf { c with ops := c.ops.set op { d with operands := d.operands ++ [v] }, uses := put c.uses v (c.uses v ++ [⟨op, d.operands.length⟩]) } = put c.operandsOf op (d.operands ++ [v]) := look_set hd
    refine ⟨fun w => ?_, fun w u => ?_, fun o hg' => by simpa using H.exist o hg'⟩
    · by_cases hw : w = v
      · subst hw
        simp only [put_eq]
        refine List.nodup_append.2 ⟨H.nodup w, by simp, fun a ha b hb e => ?_⟩
        rw [List.mem_singleton] at hb
        subst hb e
        exact hno w ha
      · simp only [put_ne _ _ hw]; exact H.nodup w
    · rw [e]
      have key : u ∈ put c.uses v (c.uses v ++ [⟨op, d.operands.length⟩]) w ↔
          u ∈ c.uses w ∨ (w = v ∧ u = ⟨op, d.operands.length⟩) := by
        by_cases hw : w = v
        · subst hw; rw [put_eq, List.mem_append, List.mem_singleton]; simp
        · rw [put_ne _ _ hw]; simp [hw]
      simp only [key]
      obtain ⟨a, j⟩ := u
      rw [H.mem]
      simp only [Use.mk.injEq]
      by_cases ha : a = op
      · subst ha
        rw [put_eq, hops]
        by_cases hj : j = d.operands.length
        · subst hj
          simp only [List.getElem?_eq_none (Nat.le_refl _), reduceCtorEq, and_false, and_self, and_true,
            false_or, hg, not_false_eq_true, true_and]
          rw [List.getElem?_append_right (Nat.le_refl _)]
          simp only [Nat.sub_self, List.getElem?_cons_zero, Option.some.injEq]
          exact eq_comm
        · simp only [hj, and_false, or_false]
          by_cases hlt : j < d.operands.length
          · rw [List.getElem?_append_left hlt]
          · rw [List.getElem?_eq_none (by omega), List.getElem?_eq_none (by
              simp only [List.length_append, List.length_singleton]; omega)]
      · rw [put_ne _ _ ha]; simp [ha]

theorem uses_removeOperand {c c' : Store} {gone : OpRef → Prop} {op : OpRef} {i : Nat}
    (H : UsesOk c gone) (hg : ¬ gone op) (h : removeOperand c op i = some c') : UsesOk c' gone := by
  unfold removeOperand at h
  cases hd : c.ops[op]? with
  | none => rw [hd] at h; cases h
  | some d =>
    rw [hd] at h
    simp only at h
    cases ho : d.operands[i]? with
    | none => rw [ho] at h; cases h
    | some w =>
      rw [ho] at h
      cases h
      have hops : c.operandsOf op = d.operands := look_some hd
      have hmem : ∀ v u, u ∈ put c.uses w (dropUse op i (c.uses w)) v ↔
          u ∈ c.uses v ∧ u ≠ ⟨op, i⟩ := by
        intro v u
        by_cases hv : v = w
        · subst hv; rw [put_eq, mem_dropUse]
        · rw [put_ne _ _ hv]
          refine ⟨fun h => ⟨h, fun e => ?_⟩, fun h => h.1⟩
          subst e
          have := ((H.mem v _).1 h).2
          simp only [hops, ho, Option.some.injEq] at this
          exact hv this.symm
      obtain ⟨s1, s2⟩ := lowerUses_spec (op := op) (d.operands.drop (i + 1)) (i + 1)
        (put c.uses w (dropUse op i (c.uses w))) (by omega) (fun v => by
          by_cases hv : v = w
          · subst hv; rw [put_eq]; exact dropUse_nodup (H.nodup v)
          · rw [put_ne _ _ hv]; exact H.nodup v)
        (fun v hm => by rw [Nat.add_sub_cancel, hmem] at hm; exact hm.2 rfl)
        (fun v j hj => by
          rw [hmem, H.mem]
          simp only [hg, not_false_eq_true, true_and, hops, ne_eq, Use.mk.injEq]
          rw [List.getElem?_drop, show i + 1 + (j - (i + 1)) = j by omega]
          exact ⟨fun h => h.1, fun h => ⟨h, by omega⟩⟩)
      refine ⟨s1, fun v u => ?_, fun o hg' => by simpa using H.exist o hg'⟩
      have e : Store.operandsOf { c with ops := c.ops.set op { d with operands := d.operands.eraseIdx i }, uses := lowerUses op (i + 1) (d.operands.drop (i + 1)) (put c.uses w (dropUse op i (c.uses w))) } = put c.operandsOf op (d.operands.eraseIdx i) := look_set hd
      rw [e]
      show u ∈ lowerUses op (i + 1) _ _ v ↔ _
      rw [s2]
      obtain ⟨a, j⟩ := u
      simp only [Nat.add_sub_cancel]
      by_cases ha : a = op
      · subst ha
        rw [put_eq]
        simp only [true_and, hg, not_false_eq_true]
        by_cases hj : i ≤ j
        · rw [if_pos hj, List.getElem?_eraseIdx_of_ge hj, List.getElem?_drop,
            show i + 1 + (j - i) = j + 1 by omega]
        · rw [if_neg hj, hmem, H.mem, List.getElem?_eraseIdx_of_lt (by omega)]
          simp only [hg, not_false_eq_true, hops, true_and, ne_eq, Use.mk.injEq]
          exact ⟨fun h => h.1, fun h => ⟨h, by omega⟩⟩
      · rw [put_ne _ _ ha, if_neg (fun h => ha h.1), hmem, H.mem]
        simp [ha]

theorem removeOp_eq {c c' : Store} {n : Nat} {op : OpRef} (h : removeOp n c op = some c') :
    ∃ d l u, c.ops[op]? = some d ∧ d.parent = none ∧ (∀ v ∈ c.results op, c.uses v = []) ∧
      walkOp c n op = some l ∧ clearAll c l c.uses = some u ∧ c' = { c with uses := u } := by
  unfold removeOp at h
  cases hd : c.ops[op]? with
  | none => rw [hd] at h; cases h
  | some d =>
    rw [hd] at h
    simp only at h
    cases hp : d.parent with
    | some b => rw [hp] at h; cases h
    | none =>
      rw [hp] at h
      simp only [Option.isSome_none, Bool.false_eq_true, if_false] at h
      by_cases hr : ((c.results op).any fun v => !(c.uses v).isEmpty) = true
      · rw [if_pos hr] at h; cases h
      · rw [if_neg hr] at h
        cases hw : walkOp c n op with
        | none => rw [hw] at h; cases h
        | some l =>
          rw [hw] at h
          simp only [Option.map_eq_some_iff] at h
          obtain ⟨u, hu, rfl⟩ := h
          refine ⟨d, l, u, rfl, hp, fun v hv => ?_, rfl, hu, rfl⟩
          by_contra hne
          refine hr (List.any_eq_true.2 ⟨v, hv, ?_⟩)
          simpa using hne

theorem uses_removeOp {c c' : Store} {gone : OpRef → Prop} {n : Nat} {op : OpRef}
    (H : UsesOk c gone) (h : removeOp n c op = some c') :
    UsesOk c' (fun o => gone o ∨ Within c op o) := by
  obtain ⟨d, l, u, hd, -, -, hw, hu, rfl⟩ := removeOp_eq h
  obtain ⟨w1, w2⟩ := walk_spec hw
  obtain ⟨s1, s2⟩ := clearAll_spec hu H.nodup
  refine ⟨s1, fun v x => ?_, fun o ho => ?_⟩
  · show x ∈ u v ↔ _
    rw [s2, H.mem]
    show _ ↔ _ ∧ (c.operandsOf x.user)[x.idx]? = some v
    rw [w1]
    tauto
  · rcases ho with ho | ho
    · exact H.exist o ho
    · exact w2 o ((w1 o).2 ho)

/-! ## Replacing uses -/

theorem redirect_spec {new : Value} : ∀ (us : List Use) (ops : List OpData) (uses : Value → List Use),
    (∀ u ∈ us, ∃ d, ops[u.user]? = some d ∧ u.idx < d.operands.length) →
    ∃ ops', redirect new us (ops, uses) = some (ops', put uses new (uses new ++ us)) ∧
      ∀ o : OpRef, ops'[o]? = (ops[o]?).map fun d : OpData =>
        { d with operands := d.operands.mapIdx fun j v => if ⟨o, j⟩ ∈ us then new else v } := by
  intro us
  induction us with
  | nil =>
    intro ops uses _
    refine ⟨ops, by simp [redirect, put_same], fun o => ?_⟩
    cases ops[o]? with
    | none => rfl
    | some d =>
      have e : List.mapIdx (fun (_ : Nat) (v : Value) => v) d.operands = d.operands := by
        apply List.ext_getElem?; intro j; simp
      simp [e]
  | cons u us ih =>
    intro ops uses hx
    obtain ⟨a, i⟩ := u
    obtain ⟨d, hd, hlt⟩ := hx ⟨a, i⟩ (.head _)
    have ha : a < ops.length := (List.getElem?_eq_some_iff.1 hd).1
    obtain ⟨ops', h1, h2⟩ := ih (ops.set a { d with operands := d.operands.set i new })
      (put uses new (uses new ++ [⟨a, i⟩])) (fun w hw => by
        obtain ⟨d', hd', hlt'⟩ := hx w (.tail _ hw)
        rw [List.getElem?_set]
        by_cases he : a = w.user
        · subst he
          rw [hd] at hd'; cases hd'
          refine ⟨{ d with operands := d.operands.set i new }, ?_, by simpa using hlt'⟩
          rw [if_pos rfl, if_pos ha]
        · exact ⟨d', by simp [he, hd'], hlt'⟩)
    refine ⟨ops', ?_, fun o => ?_⟩
    · have e : put (put uses new (uses new ++ [⟨a, i⟩])) new
          (put uses new (uses new ++ [⟨a, i⟩]) new ++ us) = put uses new (uses new ++ ⟨a, i⟩ :: us) := by
        funext x; by_cases hx : x = new
        · subst hx; simp [put]
        · simp [put, hx]
      rw [e] at h1
      simp only [redirect, hd, if_pos hlt]
      exact h1
    · rw [h2, List.getElem?_set]
      by_cases he : a = o
      · subst he
        simp only [ha, if_true, hd, Option.map_some, Option.some.injEq, OpData.mk.injEq, true_and, and_true]
        apply List.ext_getElem?
        intro j
        simp only [List.getElem?_mapIdx, List.getElem?_set, List.mem_cons, Use.mk.injEq, true_and]
        by_cases hj : i = j
        · subst hj
          simp only [if_true, hlt, Option.map_some, true_or]
          rw [List.getElem?_eq_getElem hlt]
          simp
        · simp only [hj, Ne.symm hj, if_false, false_or]
      · simp only [he, if_false, List.mem_cons, Use.mk.injEq, Ne.symm he, false_and, false_or]

theorem replace_spec {c : Store} {gone : OpRef → Prop} (H : UsesOk c gone) (old new : Value)
    (hne : old ≠ new) : ∃ ops', replaceAllUses c old new = some { c with
        ops := ops', uses := put (put c.uses old []) new (c.uses new ++ c.uses old) } ∧
      ∀ o : OpRef, ops'[o]? = (c.ops[o]?).map fun d : OpData =>
        { d with operands := d.operands.mapIdx fun j v => if ⟨o, j⟩ ∈ c.uses old then new else v } := by
  obtain ⟨ops', h1, h2⟩ := redirect_spec (new := new) (c.uses old) c.ops (put c.uses old []) (fun u hu => by
    have := ((H.mem old u).1 hu).2
    cases hd : c.ops[u.user]? with
    | none => rw [Store.operandsOf, look_none hd] at this; simp at this
    | some d =>
      rw [Store.operandsOf, look_some hd] at this
      exact ⟨d, rfl, (List.getElem?_eq_some_iff.1 this).1⟩)
  refine ⟨ops', ?_, h2⟩
  unfold replaceAllUses
  rw [if_neg hne, h1, put_ne _ _ (Ne.symm hne)]

theorem replace_operands {c : Store} {gone : OpRef → Prop} (H : UsesOk c gone) {old new : Value}
    {o : OpRef} (d : OpData) (hd : c.ops[o]? = some d) (hg : ¬ gone o) :
    (d.operands.mapIdx fun j v => if ⟨o, j⟩ ∈ c.uses old then new else v) =
      d.operands.map fun v => if v = old then new else v := by
  apply List.ext_getElem?
  intro j
  simp only [List.getElem?_mapIdx, List.getElem?_map]
  cases hj : d.operands[j]? with
  | none => rfl
  | some w =>
    simp only [Option.map_some, Option.some.injEq, H.mem, Store.operandsOf, look_some hd, hj, hg,
      not_false_eq_true, true_and]

theorem replace_gone {c : Store} {gone : OpRef → Prop} (H : UsesOk c gone) {old new : Value}
    {o : OpRef} (ws : List Value) (hg : gone o) :
    (ws.mapIdx fun j v => if ⟨o, j⟩ ∈ c.uses old then new else v) = ws := by
  apply List.ext_getElem?
  intro j
  simp only [List.getElem?_mapIdx, H.mem, hg, not_true_eq_false, false_and, if_false, Option.map_id']

theorem uses_replace {c c' : Store} {gone : OpRef → Prop} {old new : Value}
    (H : UsesOk c gone) (h : replaceAllUses c old new = some c') : UsesOk c' gone := by
  by_cases hne : old = new
  · unfold replaceAllUses at h; rw [if_pos hne] at h; cases h; exact H
  · obtain ⟨ops', h1, h2⟩ := replace_spec H old new hne
    rw [h1] at h
    cases h
    have hdis : ∀ v u, u ∈ c.uses old → u ∈ c.uses v → v = old := fun v u a b => by
      have x := ((H.mem _ _).1 a).2
      have y := ((H.mem _ _).1 b).2
      rw [x] at y
      exact (Option.some.inj y).symm
    refine ⟨fun v => ?_, fun v u => ?_, fun o ho => ?_⟩
    · by_cases hv : v = new
      · subst hv
        simp only [put_eq]
        refine List.nodup_append.2 ⟨H.nodup v, H.nodup old, fun a ha b hb e => ?_⟩
        subst e
        exact hne (hdis v a hb ha).symm
      · simp only [put_ne _ _ hv]
        by_cases hv' : v = old
        · subst hv'; rw [put_eq]; simp
        · rw [put_ne _ _ hv']; exact H.nodup v
    · obtain ⟨a, j⟩ := u
      have e : Store.operandsOf { c with ops := ops', uses := put (put c.uses old []) new (c.uses new ++ c.uses old) } a
          = (c.operandsOf a).mapIdx fun j v => if ⟨a, j⟩ ∈ c.uses old then new else v := by
        simp only [Store.operandsOf, look, h2]
        cases c.ops[a]? with
        | none => rfl
        | some d => rfl
      rw [e]
      simp only [List.getElem?_mapIdx]
      have hm : (⟨a, j⟩ : Use) ∈ put (put c.uses old []) new (c.uses new ++ c.uses old) v ↔
          (v = new ∧ (⟨a, j⟩ ∈ c.uses new ∨ ⟨a, j⟩ ∈ c.uses old)) ∨
            (v ≠ new ∧ v ≠ old ∧ ⟨a, j⟩ ∈ c.uses v) := by
        by_cases hv : v = new
        · subst hv; rw [put_eq, List.mem_append]; simp
        · rw [put_ne _ _ hv]
          by_cases hv' : v = old
          · subst hv'; rw [put_eq]; simp [hv]
          · rw [put_ne _ _ hv']; simp [hv, hv']
      rw [hm]
      classical
      have hite : ∀ w, (if (⟨a, j⟩ : Use) ∈ c.uses old then new else w) =
          if ¬gone a ∧ (c.operandsOf a)[j]? = some old then new else w := fun w => by
        by_cases hh : (⟨a, j⟩ : Use) ∈ c.uses old
        · rw [if_pos hh, if_pos ((H.mem _ _).1 hh)]
        · rw [if_neg hh, if_neg fun h => hh ((H.mem _ _).2 h)]
      simp only [hite]
      simp only [H.mem]
      cases (c.operandsOf a)[j]? with
      | none => simp
      | some w =>
        simp only [Option.some.injEq, Option.map_some]
        by_cases hg : gone a
        · simp [hg]
        · simp only [hg, not_false_eq_true, true_and]
          by_cases hw : w = old
          · subst hw
            rw [if_pos rfl]
            constructor
            · rintro (⟨rfl, -⟩ | ⟨-, h, rfl⟩)
              · rfl
              · exact absurd rfl h
            · rintro rfl; exact .inl ⟨rfl, .inr rfl⟩
          · rw [if_neg hw]
            constructor
            · rintro (⟨rfl, h | h⟩ | ⟨-, -, h⟩)
              · exact h
              · exact absurd h hw
              · exact h
            · rintro rfl
              by_cases hn : w = new
              · exact .inl ⟨hn, .inl hn⟩
              · exact .inr ⟨hn, hw, rfl⟩
    · have := H.exist o ho
      have hl : o < ops'.length := by
        by_contra hcon
        have h3 := h2 o
        rw [List.getElem?_eq_none (Nat.le_of_not_lt hcon), List.getElem?_eq_getElem this] at h3
        cases h3
      exact hl

end Verif.IrStore
