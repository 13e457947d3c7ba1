import Verif.ScfToCf.Pass

/-
All lowerings of the pass, one after the other: `transformBlock` and `transformRegion` succeed, and what
each lowering keeps is kept by all of them.
-/
namespace Verif.ScfToCf

theorem Like.trans {x y z : Block} (h : Like x y) (h' : Like y z) : Like x z :=
  ⟨h'.1.trans h.1, h'.2.1.trans h.2.1, fun f => h'.2.2 (h.2.2 f)⟩

theorem flat_weight {os : List Op} (h : ∀ o ∈ os, o.isScf = false) : weightO os = 0 := by
  induction os with
  | nil => rfl
  | cons o os ih =>
    have h1 := h o (.head _)
    have h2 := ih fun o ho => h o (.tail _ ho)
    cases o <;> first | (cases h1; done) | (simp only [weightO, Op.weight, h2]; done)

/-- What working through block `b` leaves of the function. -/
structure Done (c c' : Ctx) (b : Label) : Prop where
  wf : WF c'
  same : ∀ (I : Interp) as s o s', Behaves I c.blocks as s o s' ↔ Behaves I c'.blocks as s o s'
  weight : weightB c'.blocks ≤ weightB c.blocks
  order : ∀ pre, pre ++ [b] <+: c.blocks.map Block.label → pre ++ [b] <+: c'.blocks.map Block.label
  others : ∀ x ∈ c.blocks, x.label ≠ b → ∃ y ∈ c'.blocks, Like x y
  flat : ∃ y ∈ c'.blocks, y.label = b ∧ ∀ o ∈ y.ops, o.isScf = false

theorem Done.keep {c c' : Ctx} {b : Label} (h : Done c c' b) (hb : b ∈ c.blocks.map Block.label)
    {p : List Label} (hp : p <+: c.blocks.map Block.label) (hn : b ∉ p) :
    p <+: c'.blocks.map Block.label := by
  obtain ⟨t, ht⟩ := hp
  have hbt : b ∈ t := by
    rw [← ht] at hb
    exact (List.mem_append.1 hb).resolve_left hn
  obtain ⟨t1, t2, rfl⟩ := List.append_of_mem hbt
  have := h.order (p ++ t1) ⟨t2, by rw [← ht]; simp⟩
  exact (List.prefix_append p (t1 ++ [b])).trans (by rwa [← List.append_assoc])

theorem rounds {n : Nat}
    (IH : ∀ (b : Label) (c : Ctx), WF c →
      (∃ x ∈ c.blocks, x.label = b ∧ weightO x.ops < n) →
      ∃ c', transformBlock n b c = some c' ∧ Done c c' b) :
    ∀ (inl : List Label) (c : Ctx), WF c →
      (∀ l ∈ inl, ∃ y ∈ c.blocks, y.label = l ∧ weightO y.ops < n) →
      ∃ c', inl.foldlM (fun c l => transformBlock n l c) c = some c' ∧ WF c' ∧
        (∀ (I : Interp) as s o s', Behaves I c.blocks as s o s' ↔ Behaves I c'.blocks as s o s') ∧
        weightB c'.blocks ≤ weightB c.blocks ∧
        (∀ p, (∀ l ∈ inl, l ∉ p) → p <+: c.blocks.map Block.label →
          p <+: c'.blocks.map Block.label) ∧
        (∀ x ∈ c.blocks, x.label ∉ inl → ∃ y ∈ c'.blocks, Like x y) := by
  intro inl
  induction inl with
  | nil =>
    intro c W _
    exact ⟨c, rfl, W, fun _ _ _ _ _ => Iff.rfl, Nat.le_refl _, fun _ _ h => h,
      fun x hx _ => like_refl _ x hx⟩
  | cons a inl ih =>
    intro c W h
    obtain ⟨x, hx, hxa, hxw⟩ := h a (.head _)
    obtain ⟨c1, h1, D⟩ := IH a c W ⟨x, hx, hxa, hxw⟩
    have ha : a ∈ c.blocks.map Block.label := hxa ▸ List.mem_map_of_mem hx
    obtain ⟨c2, h2, W2, same, hw, hp, ho⟩ := ih c1 D.wf (fun l hl => by
      by_cases hla : l = a
      · obtain ⟨y, hy, hya, hyf⟩ := D.flat
        exact ⟨y, hy, hya.trans hla.symm, by rw [flat_weight hyf]; omega⟩
      · obtain ⟨z, hz, hzl, hzw⟩ := h l (.tail _ hl)
        obtain ⟨y, hy, hlk⟩ := D.others z hz (by rw [hzl]; exact hla)
        exact ⟨y, hy, hlk.1.trans hzl, by rw [hlk.2.1]; exact hzw⟩)
    refine ⟨c2, ?_, W2, fun I as s o s' => (D.same I as s o s').trans (same I as s o s'),
      Nat.le_trans hw D.weight, ?_, ?_⟩
    · rw [List.foldlM_cons, h1]; exact h2
    · intro p hn hpre
      exact hp p (fun l hl => hn l (.tail _ hl)) (D.keep ha hpre (hn a (.head _)))
    · intro z hz hzn
      obtain ⟨y, hy, hl⟩ := D.others z hz fun he => hzn (by rw [he]; exact .head _)
      obtain ⟨w, hw, hl'⟩ := ho y hy fun hm => hzn (.tail _ (by rw [← hl.1]; exact hm))
      exact ⟨w, hw, hl.trans hl'⟩

theorem transformBlock_done : ∀ (n : Nat) (b : Label) (c : Ctx), WF c →
    (∃ x ∈ c.blocks, x.label = b ∧ weightO x.ops < n) →
    ∃ c', transformBlock n b c = some c' ∧ Done c c' b := by
  intro n
  induction n with
  | zero => rintro b c W ⟨x, _, _, h⟩; exact absurd h (Nat.not_lt_zero _)
  | succ n ih =>
    rintro b c W ⟨⟨l, ps, ops⟩, hx, hb, hw⟩
    simp only [Block.label] at hb
    subst hb
    have hf := find_of_mem (map_nodup W.labels) hx
    cases hs : splitScf ops with
    | none =>
      refine ⟨c, by simp only [transformBlock, hf, hs], W, fun _ _ _ _ _ => Iff.rfl, Nat.le_refl _,
        fun _ h => h, fun x hx _ => like_refl _ x hx, _, hx, rfl, splitScf_none.1 hs⟩
    | some q =>
      obtain ⟨before, op, after⟩ := q
      obtain ⟨c1, inl, h1, L⟩ := lowerOp_lowers W hf hs
      simp only [Block.ops] at hw
      obtain ⟨c2, h2, W2, same, hw2, hp, ho⟩ := rounds ih inl c1 L.wf (fun a ha => by
        obtain ⟨-, y, hy, hya, hyw⟩ := L.inlined a ha
        exact ⟨y, hy, hya, by omega⟩)
      have hnew : ∀ a ∈ inl, a ∉ c.blocks.map Block.label := fun a ha => (L.inlined a ha).1
      refine ⟨c2, by simp only [transformBlock, hf, hs, h1]; exact h2, W2,
        fun I as s o s' => (L.same I as s o s').trans (same I as s o s'),
        Nat.le_trans hw2 L.weight, ?_, ?_, ?_⟩
      · intro pre hpre
        refine hp _ (fun a ha hm => hnew a ha ?_) (L.order pre hpre)
        obtain ⟨t, ht⟩ := hpre
        rw [← ht]
        exact List.mem_append_left _ hm
      · intro z hz hzb
        obtain ⟨y, hy, hl⟩ := L.others z hz hzb
        obtain ⟨w, hw, hl'⟩ := ho y hy fun hm =>
          hnew _ hm (by rw [hl.1]; exact List.mem_map_of_mem hz)
        exact ⟨w, hw, hl.trans hl'⟩
      · obtain ⟨y, hy, hyl, hyf⟩ := L.flat
        obtain ⟨w, hw, hl'⟩ := ho y hy fun hm =>
          hnew _ hm (by rw [hyl]; exact List.mem_map_of_mem hx)
        exact ⟨w, hw, hl'.1.trans hyl, hl'.2.2 hyf⟩

theorem length_weight (bs : List Block) : bs.length ≤ weightB bs := by
  induction bs with
  | nil => exact Nat.le_refl _
  | cons b bs ih => obtain ⟨l, ps, os⟩ := b; simp only [weightB, List.length_cons]; omega

theorem label_unique {bs : List Block} (hn : (bs.map Block.label).Nodup) {x y : Block} (hx : x ∈ bs)
    (hy : y ∈ bs) (h : x.label = y.label) : x = y := by
  obtain ⟨l, ps, os⟩ := x
  obtain ⟨l', ps', os'⟩ := y
  simp only [Block.label] at h
  subst h
  have := (find_of_mem hn hx).symm.trans (find_of_mem hn hy)
  exact Option.some.inj this

theorem transformRegion_done (w : Nat) : ∀ (n i : Nat) (c : Ctx), WF c → weightB c.blocks ≤ w →
    i + n = w + 1 → i ≤ c.blocks.length →
    (∀ l ∈ (c.blocks.map Block.label).take i, ∃ y ∈ c.blocks, y.label = l ∧
      ∀ o ∈ y.ops, o.isScf = false) →
    ∃ c', transformRegion (w + 1) n i c = some c' ∧ WF c' ∧
      (∀ (I : Interp) as s o s', Behaves I c.blocks as s o s' ↔ Behaves I c'.blocks as s o s') ∧
      ∀ y ∈ c'.blocks, ∀ o ∈ y.ops, o.isScf = false := by
  intro n
  induction n with
  | zero =>
    intro i c W hw hi hl _
    have := length_weight c.blocks
    omega
  | succ n ih =>
    intro i c W hw hi hl hflat
    by_cases hlt : i < c.blocks.length
    · have hget : c.blocks[i]? = some c.blocks[i] := List.getElem?_eq_getElem hlt
      have hmem : c.blocks[i] ∈ c.blocks := List.getElem_mem hlt
      obtain ⟨c1, h1, D⟩ := transformBlock_done (w + 1) c.blocks[i].label c W
        ⟨_, hmem, rfl, by have := weightB_mem hmem; omega⟩
      have hsplit : (c.blocks.map Block.label).take (i + 1) =
          (c.blocks.map Block.label).take i ++ [c.blocks[i].label] := by
        rw [List.take_add_one, List.getElem?_map, hget]; rfl
      have hpre := D.order ((c.blocks.map Block.label).take i) (by
        rw [← hsplit]; exact List.take_prefix _ _)
      have hlen : i + 1 ≤ c1.blocks.length := by
        have := hpre.length_le
        rw [← hsplit] at this
        simp only [List.length_take, List.length_map] at this
        omega
      have htake : (c1.blocks.map Block.label).take (i + 1) =
          (c.blocks.map Block.label).take i ++ [c.blocks[i].label] := by
        obtain ⟨t, ht⟩ := hpre
        rw [← ht, List.take_append_of_le_length, List.take_of_length_le] <;>
          simp only [List.length_append, List.length_take, List.length_map, List.length_singleton] <;>
          omega
      have hnot : c.blocks[i].label ∉ (c.blocks.map Block.label).take i := by
        have hn := map_nodup W.labels
        intro hm
        have hs : ((c.blocks.map Block.label).take i ++ [c.blocks[i].label]).Nodup := by
          rw [← hsplit]; exact hn.sublist (List.take_sublist _ _)
        exact (List.nodup_append.1 hs).2.2 _ hm _ (.head _) rfl
      obtain ⟨c2, h2, W2, same, hf⟩ := ih (i + 1) c1 D.wf (Nat.le_trans D.weight hw) (by omega) hlen (by
        intro l hl
        rw [htake] at hl
        rcases List.mem_append.1 hl with hl | hl
        · obtain ⟨x, hx, hxl, hxf⟩ := hflat l hl
          obtain ⟨y, hy, hk⟩ := D.others x hx (by
            rw [hxl]; intro he; rw [he] at hl; exact hnot hl)
          exact ⟨y, hy, hk.1.trans hxl, hk.2.2 hxf⟩
        · rw [List.mem_singleton.1 hl]; exact D.flat)
      refine ⟨c2, ?_, W2, fun I as s o s' => (D.same I as s o s').trans (same I as s o s'), hf⟩
      simp only [transformRegion, hget, h1]
      exact h2
    · have hget : c.blocks[i]? = none := List.getElem?_eq_none (by omega)
      refine ⟨c, by simp only [transformRegion, hget], W, fun _ _ _ _ _ => Iff.rfl, ?_⟩
      intro y hy
      obtain ⟨x, hx, hxl, hxf⟩ := hflat y.label (by
        rw [List.take_of_length_le (by simp only [List.length_map]; omega)]
        exact List.mem_map_of_mem hy)
      rw [← label_unique (map_nodup W.labels) hx hy hxl]
      exact hxf

theorem placedO_plain {os : List Op} (h : placedO false false os) (hf : ∀ o ∈ os, o.isScf = false) :
    ∀ o ∈ os, o.structured = false := by
  induction os with
  | nil => intro o ho; cases ho
  | cons x os ih =>
    intro o ho
    rcases List.mem_cons.1 ho with rfl | ho
    · have h1 := h.1
      have h2 := hf _ (.head _)
      cases o <;> first | rfl | (cases h1; done) | (cases h2; done)
    · exact ih h.2 (fun o ho => hf o (.tail _ ho)) o ho

theorem placedB_plain {bs : List Block} (h : placedB false false bs)
    (hf : ∀ y ∈ bs, ∀ o ∈ y.ops, o.isScf = false) : ∀ y ∈ bs, ∀ o ∈ y.ops, o.structured = false := by
  induction bs with
  | nil => intro y hy; cases hy
  | cons b bs ih =>
    obtain ⟨l, ps, os⟩ := b
    intro y hy
    rcases List.mem_cons.1 hy with rfl | hy
    · exact placedO_plain h.1 (hf _ (.head _))
    · exact ih h.2 (fun y hy => hf y (.tail _ hy)) y hy

theorem lowerFunc_done {c : Ctx} (W : WF c) : ∃ c', lowerFunc c = some c' ∧ WF c' ∧
    (∀ (I : Interp) as s o s', Behaves I c.blocks as s o s' ↔ Behaves I c'.blocks as s o s') ∧
    ∀ y ∈ c'.blocks, ∀ o ∈ y.ops, o.structured = false := by
  obtain ⟨c', h1, h2, h3, h4⟩ := transformRegion_done (weightB c.blocks) (weightB c.blocks + 1) 0 c W
    (Nat.le_refl _) (by omega) (Nat.zero_le _) (by simp)
  exact ⟨c', h1, h2, h3, placedB_plain h2.placed h4⟩

end Verif.ScfToCf
