import Verif.ListLower.Sim

/-! The loop over all observations. -/

namespace Verif.ListLower

open Verif.ScfToCf

variable {I : Interp}

/-! ## What is found can be lowered -/

mutual
theorem obs_defs_op (N : Names) (o : Obs) : ∀ x : Op, o ∈ Op.obs N x → o.res ∈ Op.defs x
  | .plain n as rs, h => by
    rw [Op.obs] at h; unfold obsPlain at h
    rw [Op.defs]
    split at h
    · simp only [List.mem_singleton] at h; subst h; simp
    · cases h
  | .ite _ _ t e, h => by
    rw [Op.obs, List.mem_append] at h
    rw [Op.defs, List.mem_append, List.mem_append]
    exact .inr (h.imp (obs_defs_blocks N o t) (obs_defs_blocks N o e))
  | .loop _ _ b, h => by
    rw [Op.obs] at h
    rw [Op.defs, List.mem_append]
    exact .inr (obs_defs_blocks N o b h)
  | .switch _ _ cs, h => by
    rw [Op.obs] at h
    rw [Op.defs, List.mem_append]
    exact .inr (obs_defs_cases N o cs h)
  | .const _ _, h => by rw [Op.obs] at h <;> first | cases h | simp
  | .cmpEq _ _ _, h => by rw [Op.obs] at h <;> first | cases h | simp
  | .yield _, h => by rw [Op.obs] at h <;> first | cases h | simp
  | .cont _, h => by rw [Op.obs] at h <;> first | cases h | simp
  | .brk _, h => by rw [Op.obs] at h <;> first | cases h | simp
  | .br _ _, h => by rw [Op.obs] at h <;> first | cases h | simp
  | .condBr _ _ _, h => by rw [Op.obs] at h <;> first | cases h | simp
  | .exit _ _, h => by rw [Op.obs] at h <;> first | cases h | simp
theorem obs_defs_ops (N : Names) (o : Obs) : ∀ xs : List Op, o ∈ obsO N xs → o.res ∈ defsO xs
  | [], h => by rw [obsO] at h; cases h
  | x :: xs, h => by
    rw [obsO, List.mem_append] at h
    rw [defsO, List.mem_append]
    exact h.imp (obs_defs_op N o x) (obs_defs_ops N o xs)
theorem obs_defs_blocks (N : Names) (o : Obs) : ∀ xs : List Block, o ∈ obsB N xs → o.res ∈ defsB xs
  | [], h => by rw [obsB] at h; cases h
  | .mk l ps os :: bs, h => by
    rw [obsB, List.mem_append] at h
    rw [defsB, List.mem_append, List.mem_append]
    exact .inr (h.imp (obs_defs_ops N o os) (obs_defs_blocks N o bs))
theorem obs_defs_cases (N : Names) (o : Obs) : ∀ xs : List Case, o ∈ obsC N xs → o.res ∈ defsC xs
  | [], h => by rw [obsC] at h; cases h
  | .mk v b :: cs, h => by
    rw [obsC, List.mem_append] at h
    rw [defsC, List.mem_append]
    exact h.imp (obs_defs_blocks N o b) (obs_defs_cases N o cs)
end

theorem isAt_mem_defs {r : Value} {o : Op} (h : Op.isAt r o = true) : r ∈ Op.defs o := by
  cases o <;> simp only [Op.isAt, Bool.false_eq_true] at h
  rw [Op.defs]; simpa using h

theorem cntO_le (r : Value) : ∀ os : List Op, cntO r os ≤ (defsO os).count r
  | [] => by simp [cntO]
  | o :: os => by
    have h := cntO_le r os
    rw [defsO, List.count_append]
    simp only [cntO] at h ⊢
    by_cases ho : Op.isAt r o = true
    · rw [List.countP_cons_of_pos ho]
      have := List.count_pos_iff.2 (isAt_mem_defs ho)
      omega
    · rw [List.countP_cons_of_neg ho]; omega

theorem cntB_le (r : Value) : ∀ bs : List Block, cntB r bs ≤ (defsB bs).count r
  | [] => by simp [cntB]
  | .mk _ ps os :: bs => by
    have h := cntB_le r bs
    have h1 := cntO_le r os
    rw [cntB, defsB, List.count_append, List.count_append]; omega

theorem cntB_one {r : Value} {bs : List Block} (h : (defsB bs).Nodup) : cntB r bs ≤ 1 :=
  Nat.le_trans (cntB_le r bs) (List.nodup_iff_count.1 h r)

/-- The observation is in one of two parts, or its result is in neither. -/
theorem two_parts {A B : Prop} {r : Value} {xs ys : List Value} (hn : (xs ++ ys).Nodup) (ha : A → r ∈ xs) (hb : B → r ∈ ys)
    (h : (A ∨ B) ∨ r ∉ xs ++ ys) : (A ∨ r ∉ xs) ∧ (B ∨ r ∉ ys) := by
  rw [List.nodup_append] at hn
  rcases h with (h | h) | h
  · exact ⟨.inl h, .inr (fun h' => hn.2.2 r (ha h) r h' rfl)⟩
  · exact ⟨.inr (fun h' => hn.2.2 r h' r (hb h) rfl), .inl h⟩
  · simp only [List.mem_append, not_or] at h
    exact ⟨.inr h.1, .inr h.2⟩

/-- Values and labels of a part of the function are below the counters, and values are defined once. -/
structure Low (S : Site) (L : List Label) (ds us : List Value) (ls : List Label) : Prop where
  defs : ds.Nodup
  dlt : ∀ v ∈ ds, v < S.nextValue
  ult : ∀ v ∈ us, v < S.nextValue
  llt : ∀ l ∈ ls, l < S.nextLabel
  Llt : ∀ l ∈ L, l < S.nextLabel

theorem Low.part {S : Site} {L L' : List Label} {ds us ds' us' : List Value} {ls ls' : List Label} (h : Low S L ds us ls)
    (h1 : ds'.Sublist ds) (h2 : us' ⊆ us) (h3 : ls' ⊆ ls) (h4 : ∀ l ∈ L', l ∈ L ∨ l ∈ ls) : Low S L' ds' us' ls' :=
  ⟨h.defs.sublist h1, fun v hv => h.dlt v (h1.subset hv), fun v hv => h.ult v (h2 hv), fun l hl => h.llt l (h3 hl),
    fun l hl => (h4 l hl).elim (h.Llt l) (h.llt l)⟩

theorem labels_sub : ∀ (bs : List Block) (l : Label), l ∈ bs.map Block.label → l ∈ labelsB bs
  | [], l, h => by cases h
  | .mk b ps os :: bs, l, h => by
    rw [labelsB]
    rcases List.mem_cons.1 h with h | h
    · exact List.mem_cons.2 (.inl h)
    · exact List.mem_cons.2 (.inr (List.mem_append.2 (.inr (labels_sub bs l h))))

theorem region_labels {L ls : List Label} {bs : List Block} (h : labelsB bs ⊆ ls) :
    ∀ l ∈ bs.map Block.label ++ L, l ∈ L ∨ l ∈ ls := by
  intro l hl
  rcases List.mem_append.1 hl with hl | hl
  · exact .inr (h (labels_sub _ _ hl))
  · exact .inl hl

mutual
theorem fine_op (S : Site) : ∀ (x : Op) (L : List Label), Low S L (Op.defs x) (Op.uses x) (Op.labels x) → Op.scopes L x →
    Op.formed S.N x → (S.obs ∈ Op.obs S.N x ∨ S.obs.res ∉ Op.defs x) → Op.fine S x
  | .plain n as rs, L, hl, hs, hf, ho => by
    rw [Op.fine]
    rw [Op.defs] at hl ho
    rw [Op.uses] at hl
    refine ⟨hl.ult, hl.dlt, fun hr => ?_⟩
    rcases ho with ho | ho
    · rw [Op.obs] at ho; unfold obsPlain at ho
      split at ho
      · rename_i ty tail l r hk
        simp only [List.mem_singleton] at ho
        rw [ho]
        exact ⟨rfl, rfl, hk⟩
      · cases ho
    · exact absurd hr ho
  | .const a v, L, hl, hs, hf, ho => by
    rw [Op.fine]
    rw [Op.defs] at hl ho
    refine ⟨hl.dlt v (by simp), ?_⟩
    rcases ho with ho | ho
    · rw [Op.obs] at ho <;> first | cases ho | simp
    · intro h; exact ho (by simp [h])
  | .cmpEq x y v, L, hl, hs, hf, ho => by
    rw [Op.fine]
    rw [Op.defs] at hl ho
    rw [Op.uses] at hl
    refine ⟨⟨hl.ult x (by simp), hl.ult y (by simp)⟩, hl.dlt v (by simp), ?_⟩
    rcases ho with ho | ho
    · rw [Op.obs] at ho <;> first | cases ho | simp
    · intro h; exact ho (by simp [h])
  | .ite c rs t e, L, hl, hs, hf, ho => by
    rw [Op.fine]
    rw [Op.defs] at hl ho
    rw [Op.uses, Op.labels] at hl
    rw [Op.scopes] at hs
    rw [Op.formed] at hf
    rw [Op.obs, List.mem_append] at ho
    have h1 := two_parts (A := False) hl.defs (fun h => h.elim)
      (fun h => by rw [List.mem_append]; exact h.imp (obs_defs_blocks S.N S.obs t) (obs_defs_blocks S.N S.obs e))
      (ho.imp .inr id)
    have h2 := two_parts ((List.nodup_append.1 hl.defs).2.1) (obs_defs_blocks S.N S.obs t) (obs_defs_blocks S.N S.obs e) h1.2
    have st : (defsB t).Sublist (rs ++ (defsB t ++ defsB e)) :=
      (List.sublist_append_left _ _).trans (List.sublist_append_right _ _)
    have se : (defsB e).Sublist (rs ++ (defsB t ++ defsB e)) :=
      (List.sublist_append_right _ _).trans (List.sublist_append_right _ _)
    refine ⟨hl.ult c (by simp), ⟨fun v hv => hl.dlt v (by simp [hv]), h1.1.elim False.elim id⟩,
      ⟨cntB_one (hl.defs.sublist st), ?_⟩, cntB_one (hl.defs.sublist se), ?_⟩
    · exact fine_blocks S t _ (hl.part (L' := t.map Block.label ++ L) st (fun v hv => by simp [hv]) (fun v hv => by simp [hv])
        (region_labels (fun v hv => by simp [hv]))) hs.1 hf.1 h2.1
    · exact fine_blocks S e _ (hl.part (L' := e.map Block.label ++ L) se (fun v hv => by simp [hv]) (fun v hv => by simp [hv])
        (region_labels (fun v hv => by simp [hv]))) hs.2 hf.2 h2.2
  | .loop i rs b, L, hl, hs, hf, ho => by
    rw [Op.fine]
    rw [Op.defs] at hl ho
    rw [Op.uses, Op.labels] at hl
    rw [Op.scopes] at hs
    rw [Op.formed] at hf
    rw [Op.obs] at ho
    have h1 := two_parts (A := False) hl.defs (fun h => h.elim) (obs_defs_blocks S.N S.obs b) (ho.imp .inr id)
    have st : (defsB b).Sublist (rs ++ defsB b) := List.sublist_append_right _ _
    refine ⟨fun v hv => hl.ult v (by simp [hv]), ⟨fun v hv => hl.dlt v (by simp [hv]), h1.1.elim False.elim id⟩,
      cntB_one (hl.defs.sublist st), ?_⟩
    exact fine_blocks S b _ (hl.part (L' := b.map Block.label ++ L) st (fun v hv => by simp [hv]) (fun v hv => hv)
        (region_labels (fun v hv => hv))) hs hf h1.2
  | .switch d rs cs, L, hl, hs, hf, ho => by
    rw [Op.fine]
    rw [Op.defs] at hl ho
    rw [Op.uses, Op.labels] at hl
    rw [Op.scopes] at hs
    rw [Op.formed] at hf
    rw [Op.obs] at ho
    have h1 := two_parts (A := False) hl.defs (fun h => h.elim) (obs_defs_cases S.N S.obs cs) (ho.imp .inr id)
    have st : (defsC cs).Sublist (rs ++ defsC cs) := List.sublist_append_right _ _
    refine ⟨hl.ult d (by simp), ⟨fun v hv => hl.dlt v (by simp [hv]), h1.1.elim False.elim id⟩, ?_⟩
    exact fine_cases S cs L (hl.part st (fun v hv => by simp [hv]) (fun v hv => hv) (fun l hl => .inl hl)) hs hf h1.2
  | .yield vs, L, hl, hs, hf, ho => by rw [Op.fine]; rw [Op.uses] at hl; exact hl.ult
  | .cont vs, L, hl, hs, hf, ho => by rw [Op.fine]; rw [Op.uses] at hl; exact hl.ult
  | .brk v, L, hl, hs, hf, ho => by rw [Op.fine]; rw [Op.uses] at hl; exact hl.ult v (by simp)
  | .br as l, L, hl, hs, hf, ho => by
    rw [Op.fine]; rw [Op.uses] at hl; rw [Op.scopes] at hs; exact ⟨hl.ult, hl.Llt l hs⟩
  | .condBr c t e, L, hl, hs, hf, ho => by
    rw [Op.fine]; rw [Op.uses] at hl; rw [Op.scopes] at hs; exact ⟨hl.ult c (by simp), hl.Llt t hs.1, hl.Llt e hs.2⟩
  | .exit n as, L, hl, hs, hf, ho => by rw [Op.fine]; rw [Op.uses] at hl; exact hl.ult
theorem fine_ops (S : Site) : ∀ (xs : List Op) (L : List Label), Low S L (defsO xs) (usesO xs) (labelsO xs) → scopesO L xs →
    formedO S.N xs → (S.obs ∈ obsO S.N xs ∨ S.obs.res ∉ defsO xs) → fineO S xs
  | [], _, _, _, _, _ => by rw [fineO]; trivial
  | x :: xs, L, hl, hs, hf, ho => by
    rw [fineO]
    rw [defsO] at hl ho
    rw [usesO, labelsO] at hl
    rw [scopesO] at hs
    rw [formedO] at hf
    rw [obsO, List.mem_append] at ho
    have h := two_parts hl.defs (obs_defs_op S.N S.obs x) (obs_defs_ops S.N S.obs xs) ho
    exact ⟨fine_op S x L (hl.part (List.sublist_append_left _ _) (fun v hv => by simp [hv]) (fun v hv => by simp [hv])
        (fun l hl => .inl hl)) hs.1 hf.1 h.1,
      fine_ops S xs L (hl.part (List.sublist_append_right _ _) (fun v hv => by simp [hv]) (fun v hv => by simp [hv])
        (fun l hl => .inl hl)) hs.2 hf.2 h.2⟩
theorem fine_blocks (S : Site) : ∀ (xs : List Block) (L : List Label), Low S L (defsB xs) (usesB xs) (labelsB xs) →
    scopesB L xs → formedB S.N xs → (S.obs ∈ obsB S.N xs ∨ S.obs.res ∉ defsB xs) → fineB S xs
  | [], _, _, _, _, _ => by rw [fineB]; trivial
  | .mk l ps os :: bs, L, hl, hs, hf, ho => by
    rw [fineB]
    rw [defsB] at hl ho
    rw [usesB, labelsB] at hl
    rw [scopesB] at hs
    rw [formedB] at hf
    rw [obsB, List.mem_append] at ho
    have h1 := two_parts (A := False) hl.defs (fun h => h.elim)
      (fun h => by rw [List.mem_append]; exact h.imp (obs_defs_ops S.N S.obs os) (obs_defs_blocks S.N S.obs bs))
      (ho.imp .inr id)
    have h := two_parts ((List.nodup_append.1 hl.defs).2.1) (obs_defs_ops S.N S.obs os) (obs_defs_blocks S.N S.obs bs) h1.2
    exact ⟨hl.llt l (by simp), ⟨fun v hv => hl.dlt v (by simp [hv]), h1.1.elim False.elim id⟩,
      fine_ops S os L (hl.part ((List.sublist_append_left _ _).trans (List.sublist_append_right _ _)) (fun v hv => by simp [hv])
        (fun v hv => by simp [hv]) (fun l hl => .inl hl)) hs.1 hf.1 h.1,
      fine_blocks S bs L (hl.part ((List.sublist_append_right _ _).trans (List.sublist_append_right _ _))
        (fun v hv => by simp [hv]) (fun v hv => by simp [hv]) (fun l hl => .inl hl)) hs.2 hf.2 h.2⟩
theorem fine_cases (S : Site) : ∀ (xs : List Case) (L : List Label), Low S L (defsC xs) (usesC xs) (labelsC xs) →
    scopesC L xs → formedC S.N xs → (S.obs ∈ obsC S.N xs ∨ S.obs.res ∉ defsC xs) → fineC S xs
  | [], _, _, _, _, _ => by rw [fineC]; trivial
  | .mk v b :: cs, L, hl, hs, hf, ho => by
    rw [fineC]
    rw [defsC] at hl ho
    rw [usesC, labelsC] at hl
    rw [scopesC] at hs
    rw [formedC] at hf
    rw [obsC, List.mem_append] at ho
    have h := two_parts hl.defs (obs_defs_blocks S.N S.obs b) (obs_defs_cases S.N S.obs cs) ho
    have st : (defsB b).Sublist (defsB b ++ defsC cs) := List.sublist_append_left _ _
    exact ⟨⟨cntB_one (hl.defs.sublist st), fine_blocks S b _ (hl.part (L' := b.map Block.label ++ L) st (fun v hv => by simp [hv])
        (fun v hv => by simp [hv]) (region_labels (fun v hv => by simp [hv]))) hs.1 hf.1 h.1⟩,
      fine_cases S cs L (hl.part (List.sublist_append_right _ _) (fun v hv => by simp [hv]) (fun v hv => by simp [hv])
        (fun l hl => .inl hl)) hs.2 hf.2 h.2⟩
end

theorem fine_of_wf {N : Names} {c : Ctx} (h : WF c) (hf : formedB N c.blocks) {o : Obs} (ho : o ∈ obsB N c.blocks) :
    Fine ⟨N, o, c.nextLabel, c.nextValue⟩ c.blocks :=
  ⟨cntB_one h.defs, fine_blocks ⟨N, o, c.nextLabel, c.nextValue⟩ c.blocks (c.blocks.map Block.label)
    ⟨h.defs, fun v hv => h.freshValue v (by simp [hv]), fun v hv => h.freshValue v (by simp [hv]), h.freshLabel,
      fun l hl => h.freshLabel l (labels_sub _ _ hl)⟩ h.branches hf (.inl ho)⟩

end Verif.ListLower
