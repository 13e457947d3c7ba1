import Verif.ScfToCf.Rules
import Mathlib.Data.List.Nodup
import Mathlib.Tactic.Tauto

/-
Blocks put in place of a block: the function stays within the rules, and behaves the same.
-/
namespace Verif.ScfToCf

/-! ## Blocks by number -/

theorem labels_sublist (bs : List Block) : (bs.map Block.label).Sublist (labelsB bs) := by
  induction bs with
  | nil => exact .slnil
  | cons b bs ih =>
    obtain ⟨l, ps, os⟩ := b
    exact .cons_cons _ (ih.trans (List.sublist_append_right _ _))

theorem find_of_mem {bs : List Block} (hn : (bs.map Block.label).Nodup) {l : Label}
    {ps : List Value} {ops : List Op} (h : .mk l ps ops ∈ bs) :
    findBlock l bs = some (.mk l ps ops) := by
  induction bs with
  | nil => cases h
  | cons b bs ih =>
    rw [List.map_cons, List.nodup_cons] at hn
    rcases List.mem_cons.1 h with rfl | h
    · simp [findBlock, Block.label]
    · have : b.label ≠ l := fun hh => hn.1 (hh ▸ List.mem_map.2 ⟨_, h, rfl⟩)
      simp [findBlock, this, ih hn.2 h]

theorem label_deep {bs : List Block} (hn : (labelsB bs).Nodup) {l : Label}
    (hl : l ∈ bs.map Block.label) {blk : Block} (hb : blk ∈ bs) : l ∉ labelsO blk.ops := by
  induction bs with
  | nil => cases hb
  | cons b bs ih =>
    obtain ⟨l', ps, os⟩ := b
    simp only [labelsB, List.nodup_cons, List.mem_append, not_or] at hn
    have hd := List.nodup_append.1 hn.2
    intro hm
    rcases List.mem_cons.1 hl with rfl | hl' <;> rcases List.mem_cons.1 hb with rfl | hb'
    · exact hn.1.1 hm
    · exact hn.1.2 (labelsB_mem hb' hm)
    · exact hd.2.2 _ hm _ (labelsB_shallow hl') rfl
    · exact ih hd.2.1 hl' hb' hm

theorem split_block {bs : List Block} {b : Label} {blk : Block} (h : findBlock b bs = some blk) :
    ∃ pre post, bs = pre ++ blk :: post ∧ blk.label = b ∧ b ∉ pre.map Block.label := by
  induction bs with
  | nil => cases h
  | cons x bs ih =>
    by_cases hx : x.label = b
    · simp only [findBlock, hx, if_true, Option.some.injEq] at h
      subst h
      exact ⟨[], bs, rfl, hx, by simp⟩
    · simp only [findBlock, hx, if_false] at h
      obtain ⟨pre, post, h1, h2, h3⟩ := ih h
      exact ⟨x :: pre, post, by rw [h1]; rfl, h2, by simp [Ne.symm hx, h3]⟩

theorem replaceBlock_eq {b : Label} {new pre post : List Block} {blk : Block} (h1 : blk.label = b)
    (h2 : b ∉ pre.map Block.label) :
    replaceBlock b new (pre ++ blk :: post) = pre ++ (new ++ post) := by
  induction pre with
  | nil => simp [replaceBlock, h1]
  | cons x pre ih =>
    simp only [List.map_cons, List.mem_cons, not_or] at h2
    simp [replaceBlock, Ne.symm h2.1, ih h2.2]

/-! ## Splicing -/

section
variable {pre post mid : List Block} {b m : Nat} {ps mps : List Value} {before tail after : List Op}
  {op : Op}

/-- The function with `op` in block `b`. -/
abbrev source (pre post : List Block) (b : Label) (ps : List Value) (before : List Op) (op : Op)
    (after : List Op) : List Block :=
  pre ++ .mk b ps (before ++ op :: after) :: post

/-- The function with `tail`, the blocks `mid` and the rest `after` of the block. -/
abbrev target (pre post mid : List Block) (b m : Label) (ps mps : List Value)
    (before tail after : List Op) : List Block :=
  pre ++ .mk b ps (before ++ tail) :: (mid ++ .mk m mps after :: post)

theorem scopes_in {L : List Label} (h : scopesB L (source pre post b ps before op after)) :
    scopesB L pre ∧ scopesO L before ∧ op.scopes L ∧ scopesO L after ∧ scopesB L post := by
  simp only [source, scopesB_append, scopesB, scopesO_append, scopesO] at h
  exact ⟨h.1, h.2.1.1, h.2.1.2.1, h.2.1.2.2, h.2.2⟩

theorem splice_wf {nl nl' nv nv' : Nat} (NL ND : List Nat)
    (W : WF ⟨source pre post b ps before op after, nl, nv⟩)
    (hNL : (m :: NL).Nodup) (hNL' : ∀ l ∈ m :: NL, nl ≤ l ∧ l < nl') (hnl : nl ≤ nl')
    (hND : ND.Nodup) (hND' : ∀ v ∈ ND, nv ≤ v ∧ v < nv') (hnv : nv ≤ nv')
    (hL : ∀ a : Nat, (labelsO tail).count a + (labelsB mid).count a ≤ op.labels.count a + NL.count a)
    (hD : ∀ a : Nat, (defsO tail).count a + (defsB mid).count a + mps.count a ≤
      op.defs.count a + ND.count a)
    (hU : ∀ v ∈ usesO tail ++ usesB mid, v ∈ op.uses ∨ v ∈ ND)
    (hS : (∀ l ∈ (source pre post b ps before op after).map Block.label ++ m :: mid.map Block.label,
        l ∈ (target pre post mid b m ps mps before tail after).map Block.label) →
      scopesO ((target pre post mid b m ps mps before tail after).map Block.label) tail ∧
      scopesB ((target pre post mid b m ps mps before tail after).map Block.label) mid)
    (hT : tidyO tail ∧ tidyB mid) (hP : placedO false false tail ∧ placedB false false mid) :
    WF ⟨target pre post mid b m ps mps before tail after, nl', nv'⟩ := by
  obtain ⟨_, w2, w3, w4, w5, w9, w6, w7⟩ := W
  simp only at w2 w3 w4 w5 w6 w7 w9
  have cL : ∀ a : Nat, (labelsB (target pre post mid b m ps mps before tail after)).count a ≤
      (labelsB (source pre post b ps before op after)).count a + (m :: NL).count a := by
    intro a
    have := hL a
    simp only [source, target, labelsB_append, labelsB, labelsO_append, labelsO, List.count_append,
      List.count_cons] at this ⊢
    omega
  have cD : ∀ a : Nat, (defsB (target pre post mid b m ps mps before tail after)).count a ≤
      (defsB (source pre post b ps before op after)).count a + ND.count a := by
    intro a
    have := hD a
    simp only [source, target, defsB_append, defsB, defsO_append, defsO, List.count_append] at this ⊢
    omega
  have hsub : ∀ l ∈ (source pre post b ps before op after).map Block.label ++ m :: mid.map Block.label,
      l ∈ (target pre post mid b m ps mps before tail after).map Block.label := by
    intro l hl
    simp only [source, target, List.map_append, List.map_cons, Block.label, List.mem_append,
      List.mem_cons] at hl ⊢
    tauto
  have hsub' : ∀ l ∈ (source pre post b ps before op after).map Block.label,
      l ∈ (target pre post mid b m ps mps before tail after).map Block.label :=
    fun l hl => hsub l (List.mem_append_left _ hl)
  have hin := scopes_in w4
  simp only [source, tidyB_append, tidyB] at w5
  obtain ⟨t1, t2, t3⟩ := w5
  obtain ⟨t4, t5, _, t6⟩ := tidyO_split t2
  simp only [source, placedB_append, placedB, placedO_append, placedO] at w9
  refine ⟨by simp [target], ?_, ?_, ?_, ?_, ?_, ?_, ?_⟩
  · rw [List.nodup_iff_count_le_one] at w2 hNL ⊢
    intro a
    by_cases ha : a ∈ m :: NL
    · have h1 : a ∉ labelsB (source pre post b ps before op after) := fun hh => by
        have h2 := w6 a hh
        exact Nat.lt_irrefl _ (Nat.lt_of_lt_of_le h2 (hNL' a ha).1)
      have := cL a
      rw [List.count_eq_zero_of_not_mem h1] at this
      have := hNL a
      simp only at this ⊢
      omega
    · have := cL a
      rw [List.count_eq_zero_of_not_mem ha] at this
      exact Nat.le_trans this (w2 a)
  · rw [List.nodup_iff_count_le_one] at w3 hND ⊢
    intro a
    by_cases ha : a ∈ ND
    · have h1 : a ∉ defsB (source pre post b ps before op after) := fun hh => by
        have h2 := w7 a (List.mem_append_left _ hh)
        exact Nat.lt_irrefl _ (Nat.lt_of_lt_of_le h2 (hND' a ha).1)
      have := cD a
      rw [List.count_eq_zero_of_not_mem h1] at this
      have := hND a
      simp only at this ⊢
      omega
    · have := cD a
      rw [List.count_eq_zero_of_not_mem ha] at this
      exact Nat.le_trans this (w3 a)
  · simp only [target, scopesB_append, scopesB, scopesO_append]
    exact ⟨scopesB_mono hsub' _ hin.1, ⟨scopesO_mono hsub' _ hin.2.1, (hS hsub).1⟩, (hS hsub).2,
      scopesO_mono hsub' _ hin.2.2.2.1, scopesB_mono hsub' _ hin.2.2.2.2⟩
  · simp only [target, tidyB_append, tidyB]
    exact ⟨t1, tidyO_join t4 t5 hT.1, hT.2, t6, t3⟩
  · simp only [target, placedB_append, placedB, placedO_append]
    exact ⟨w9.1, ⟨w9.2.1.1, hP.1⟩, hP.2, w9.2.1.2.2, w9.2.2⟩
  · intro a ha
    have h1 := List.count_pos_iff.2 ha
    have h2 := cL a
    by_cases ha' : a ∈ m :: NL
    · exact (hNL' a ha').2
    · rw [List.count_eq_zero_of_not_mem ha'] at h2
      exact Nat.lt_of_lt_of_le (w6 a (List.count_pos_iff.1 (by simp only at h1; omega))) hnl
  · intro a ha
    rcases List.mem_append.1 ha with ha | ha
    · have h1 := List.count_pos_iff.2 ha
      have h2 := cD a
      by_cases ha' : a ∈ ND
      · exact (hND' a ha').2
      · rw [List.count_eq_zero_of_not_mem ha'] at h2
        exact Nat.lt_of_lt_of_le
          (w7 a (List.mem_append_left _ (List.count_pos_iff.1 (by simp only at h1; omega)))) hnv
    · have hold : ∀ a, a ∈ usesB (source pre post b ps before op after) → a < nv' := fun a h =>
        Nat.lt_of_lt_of_le (w7 a (List.mem_append_right _ h)) hnv
      simp only [target, usesB_append, usesB, usesO_append, List.mem_append] at ha
      simp only [source, usesB_append, usesB, usesO_append, usesO, List.mem_append] at hold
      have := hU a
      simp only [List.mem_append] at this
      have hnd := hND' a
      rcases ha with ha | (ha | ha) | ha | ha | ha
      · exact hold a (.inl ha)
      · exact hold a (.inr (.inl (.inl ha)))
      · rcases this (.inl ha) with h | h
        · exact hold a (.inr (.inl (.inr (.inl h))))
        · exact (hnd h).2
      · rcases this (.inr ha) with h | h
        · exact hold a (.inr (.inl (.inr (.inl h))))
        · exact (hnd h).2
      · exact hold a (.inr (.inl (.inr (.inr ha))))
      · exact hold a (.inr (.inr ha))

theorem splice_behaves {I : Interp} {F : Value → Prop}
    (hn1 : ((source pre post b ps before op after).map Block.label).Nodup)
    (hn2 : ((target pre post mid b m ps mps before tail after).map Block.label).Nodup)
    (hsc : scopesB ((source pre post b ps before op after).map Block.label)
      (source pre post b ps before op after))
    (hF : ∀ v ∈ usesB (source pre post b ps before op after), ¬ F v)
    (hop : (∀ n (e e' : Env I) s o e2 s2, Agree F e e' → execOp (run n) n e s op = some (o, e2, s2) →
        ∃ e2', Agree F e2 e2' ∧ ∀ r N,
          kont N (target pre post mid b m ps mps before tail after) after o e2' s2 = some r →
          ∃ N', block N' (target pre post mid b m ps mps before tail after) tail e' s = some r) ∧
      (∀ N (e e' : Env I) s r, Agree F e e' →
        block N (target pre post mid b m ps mps before tail after) tail e' s = some r →
        ∃ n o e2 s2 e2' N', N' ≤ N ∧ execOp (run n) n e s op = some (o, e2, s2) ∧ Agree F e2 e2' ∧
          kont N' (target pre post mid b m ps mps before tail after) after o e2' s2 = some r))
    (as : List I.V) (s : I.S) (o : Out I.V) (s' : I.S) :
    Behaves I (source pre post b ps before op after) as s o s' ↔
      Behaves I (target pre post mid b m ps mps before tail after) as s o s' := by
  have D : StepData I F (source pre post b ps before op after)
      (target pre post mid b m ps mps before tail after) b ps before op after tail := by
    refine ⟨find_of_mem hn1 (by simp [source]), find_of_mem hn2 (by simp [target]), ?_, hsc, hF,
      hop.1, hop.2⟩
    intro l hl hm
    obtain ⟨ps', ops', hf⟩ := find_of_label hm
    rw [hf]
    refine find_of_mem hn2 ?_
    have hmem := (find_mem hf).1
    simp only [source, target, List.mem_append, List.mem_cons] at hmem ⊢
    rcases hmem with h | h | h
    · exact .inl h
    · cases h; exact absurd rfl hl
    · exact .inr (.inr (.inr (.inr h)))
  refine D.behaves ?_ as s o s'
  cases pre <;> rfl

theorem within_redirY {I : Interp} {T bs2 : List Block} {k : Nat}
    (hn : (bs2.map Block.label).Nodup) (hT : ∀ blk ∈ T, redirYBlk m k blk ∈ bs2) :
    Within (I := I) (outY m k) T bs2 := by
  intro l ps ops hf
  exact ⟨_, find_of_mem hn (hT _ (find_mem hf).1), fun n e s => exec_redirY _ n m k ops e s⟩

theorem within_redirC {I : Interp} {T bs2 : List Block} {h x k : Nat}
    (hn : (bs2.map Block.label).Nodup) (hT : ∀ blk ∈ redirCB h x k T, blk ∈ bs2)
    (hh : ∀ blk ∈ T, h ∉ labelsO blk.ops) (hx : ∀ blk ∈ T, x ∉ labelsO blk.ops) :
    Within (I := I) (outC h x k) T bs2 := by
  intro l ps ops hf
  have hm := (find_mem hf).1
  refine ⟨redirCO h x k ops, find_of_mem hn (hT _ ?_), fun n e s =>
    exec_redirC (run_redirC n) n ops e s (hh _ hm) (hx _ hm)⟩
  have := redirCB_find h x k l T
  rw [hf] at this
  exact (find_mem this).1

end

end Verif.ScfToCf
