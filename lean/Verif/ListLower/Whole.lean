import Verif.ListLower.Loop

/-! The whole pass: all observations, then the patterns. -/

namespace Verif.ListLower

open Verif.ScfToCf

variable {I : Interp}

/-! ## Operands and results of list operations -/

theorem formedO_append {N : Names} {xs ys : List Op} : formedO N (xs ++ ys) ↔ formedO N xs ∧ formedO N ys := by
  induction xs with
  | nil => simp [formedO]
  | cons x xs ih => simp only [List.cons_append, formedO, ih, and_assoc]

mutual
theorem formed_op {S : Site} (hD : Distinct S.N) : ∀ x : Op, Op.formed S.N x → Op.formed S.N (Op.low S x)
  | .plain n as rs, h => by
    rw [Op.low]
    unfold Op.formed at h ⊢
    simpa using h
  | .ite c rs t e, h => by
    rw [Op.formed] at h
    rw [Op.low, Op.formed]
    exact ⟨formed_blocks hD t h.1, formed_blocks hD e h.2⟩
  | .loop i rs b, h => by
    rw [Op.formed] at h
    rw [Op.low, Op.formed]
    exact formed_blocks hD b h
  | .switch d rs cs, h => by
    rw [Op.formed] at h
    rw [Op.low, Op.formed]
    exact formed_cases hD cs h
  | .const _ _, _ => by rw [Op.low, Op.formed] <;> simp
  | .cmpEq _ _ _, _ => by rw [Op.low, Op.formed] <;> simp
  | .yield _, _ => by rw [Op.low, Op.formed] <;> simp
  | .cont _, _ => by rw [Op.low, Op.formed] <;> simp
  | .brk _, _ => by rw [Op.low, Op.formed] <;> simp
  | .br _ _, _ => by rw [Op.low, Op.formed] <;> simp
  | .condBr _ _ _, _ => by rw [Op.low, Op.formed] <;> simp
  | .exit _ _, _ => by rw [Op.low, Op.formed] <;> simp
theorem formed_ops {S : Site} (hD : Distinct S.N) : ∀ xs : List Op, formedO S.N xs → formedO S.N (lowO S xs)
  | [], _ => by rw [lowO, formedO]; trivial
  | x :: xs, h => by
    rw [formedO] at h
    rw [lowO, formedO]
    exact ⟨formed_op hD x h.1, formed_ops hD xs h.2⟩
theorem formed_blocks {S : Site} (hD : Distinct S.N) : ∀ xs : List Block, formedB S.N xs → formedB S.N (lowB S xs)
  | [], _ => by rw [lowB, formedB]; trivial
  | .mk l ps os :: bs, h => by
    rw [formedB] at h
    have ih := formed_blocks hD bs h.2
    have io := formed_ops hD os h.1
    rw [lowB]
    cases hs : splitObs S.obs.res (lowO S os) with
    | none =>
      simp only [List.cons_append, List.nil_append]
      rw [formedB]; exact ⟨io, ih⟩
    | some p =>
      obtain ⟨x, y⟩ := p
      obtain ⟨op, e1, _, _⟩ := splitObs_some hs
      rw [e1, formedO_append, formedO] at io
      simp only [Site.blocks, List.cons_append, List.nil_append, formedB, formedO_append, formedO, Op.formed, hD.isNull,
        hD.field, and_true, true_and]
      exact ⟨io.1, io.2.2, ih⟩
theorem formed_cases {S : Site} (hD : Distinct S.N) : ∀ xs : List Case, formedC S.N xs → formedC S.N (lowC S xs)
  | [], _ => by rw [lowC, formedC]; trivial
  | .mk v b :: cs, h => by
    rw [formedC] at h
    rw [lowC, formedC]
    exact ⟨formed_blocks hD b h.1, formed_cases hD cs h.2⟩
end

/-! ## One observation -/

theorem behaves_one {N : Names} {D : Nodes N I} (L : Lists D) {c : Ctx} {o : Obs}
    (hF : Fine ⟨N, o, c.nextLabel, c.nextValue⟩ c.blocks) (hlr : o.list ≠ o.res) (args : List I.V) (s : I.S) :
    (∀ out s', Behaves I c.blocks args s out s' → ∃ out', SameEnd N out out' ∧ Behaves I (lowerObs N c o).blocks args s out' s') ∧
    (∀ out' s', Behaves I (lowerObs N c o).blocks args s out' s' → ∃ out, SameEnd N out out' ∧ Behaves I c.blocks args s out s') := by
  have hag : Agree (I := I) ⟨N, o, c.nextLabel, c.nextValue⟩ (fun _ => I.undef) (fun _ => I.undef) := fun v _ => rfl
  constructor
  · rintro out s' ⟨l, n, e, hl, hr⟩
    obtain ⟨⟨o', e', s''⟩, h1, h2, _, _, h3⟩ :=
      sim_fwd (S := ⟨N, o, c.nextLabel, c.nextValue⟩) D L hlr n _ _ args _ _ s hF (firstLabel_lt hF.2 hl) hag _ hr
    simp only at h3
    subst h3
    exact ⟨o', h2, l, _, e', (firstLabel_low _).trans hl, h1⟩
  · rintro out s' ⟨l, n, e, hl, hr⟩
    have hl' : firstLabel c.blocks = some l := (firstLabel_low _).symm.trans hl
    obtain ⟨⟨o', e', s''⟩, h1, h2, _, _, h3⟩ :=
      sim_bwd (S := ⟨N, o, c.nextLabel, c.nextValue⟩) D L hlr n _ _ args _ _ s hF (firstLabel_lt hF.2 hl') hag _ hr
    simp only at h3
    subst h3
    exact ⟨o', h2, l, _, e', hl', h1⟩

theorem sameEnd_trans {V : Type} {N : Names} {a b c : Out V} (h : SameEnd N a b) (h' : SameEnd N b c) : SameEnd N a c := by
  rcases h with rfl | ⟨h1, h2⟩
  · exact h'
  · rcases h' with rfl | ⟨_, h4⟩
    · exact .inr ⟨h1, h2⟩
    · exact .inr ⟨h1, h4⟩

/-! ## The loop -/

/-- What can be lowered, in the order in which it is lowered. -/
structure Ready (N : Names) (c : Ctx) (os : List Obs) : Prop where
  fine : ∀ o ∈ os, Fine ⟨N, o, c.nextLabel, c.nextValue⟩ c.blocks ∧ o.res < c.nextValue ∧ o.list ≠ o.res
  order : os.Pairwise (fun o o' => o'.list ≠ o.res ∧ o'.res ≠ o.res)

theorem Ready.step {N : Names} {c : Ctx} {o : Obs} {os : List Obs} (h : Ready N c (o :: os)) : Ready N (lowerObs N c o) os := by
  have hp := List.pairwise_cons.1 h.order
  refine ⟨fun o' ho' => ?_, hp.2⟩
  obtain ⟨h1, h2, h3⟩ := h.fine o (by simp)
  obtain ⟨h4, h5, h6⟩ := h.fine o' (by simp [ho'])
  obtain ⟨h7, h8⟩ := hp.1 o' ho'
  refine ⟨⟨?_, ?_⟩, lt3 h5, h6⟩
  · show cntB o'.res (lowB ⟨N, o, c.nextLabel, c.nextValue⟩ c.blocks) ≤ 1
    rw [cntB_low (S := ⟨N, o, c.nextLabel, c.nextValue⟩) h8 h5 h1.2]; exact h4.1
  · exact next_blocks (S := ⟨N, o, c.nextLabel, c.nextValue⟩) (o := o') h8 h5 h7 _ h1.2 h4.2

theorem loop_behaves {N : Names} {D : Nodes N I} (L : Lists D) (args : List I.V) (s : I.S) : ∀ (os : List Obs) (c : Ctx),
    Ready N c os →
    (∀ out s', Behaves I c.blocks args s out s' → ∃ out', SameEnd N out out' ∧ Behaves I (os.foldl (lowerObs N) c).blocks args s out' s') ∧
    (∀ out' s', Behaves I (os.foldl (lowerObs N) c).blocks args s out' s' → ∃ out, SameEnd N out out' ∧ Behaves I c.blocks args s out s')
  | [], c, _ => ⟨fun o s' h => ⟨o, .inl rfl, h⟩, fun o s' h => ⟨o, .inl rfl, h⟩⟩
  | o :: os, c, h => by
    obtain ⟨h1, h2, h3⟩ := h.fine o (by simp)
    obtain ⟨f1, b1⟩ := behaves_one L h1 h3 args s
    obtain ⟨f2, b2⟩ := loop_behaves L args s os _ h.step
    constructor
    · intro out s' hb
      obtain ⟨o1, e1, hb⟩ := f1 out s' hb
      obtain ⟨o2, e2, hb⟩ := f2 o1 s' hb
      exact ⟨o2, sameEnd_trans e1 e2, hb⟩
    · intro out s' hb
      obtain ⟨o1, e1, hb⟩ := b2 out s' hb
      obtain ⟨o2, e2, hb⟩ := b1 o1 s' hb
      exact ⟨o2, sameEnd_trans e2 e1, hb⟩

theorem loop_formed {N : Names} (hD : Distinct N) : ∀ (os : List Obs) (c : Ctx), formedB N c.blocks →
    formedB N (os.foldl (lowerObs N) c).blocks
  | [], c, h => h
  | o :: os, c, h => loop_formed hD os _ (formed_blocks (S := ⟨N, o, c.nextLabel, c.nextValue⟩) hD _ h)

mutual
theorem left_weaken_op {N : Names} {A B : Value → Prop} (hAB : ∀ v, A v → B v) : ∀ x : Op, Op.left N A x → Op.left N B x
  | .plain n as rs, h => by
    rw [Op.left] at h ⊢
    intro ty f hk
    obtain ⟨r, hr, hA⟩ := h ty f hk
    exact ⟨r, hr, hAB r hA⟩
  | .ite c rs t e, h => by
    rw [Op.left] at h ⊢
    exact ⟨left_weaken_blocks hAB t h.1, left_weaken_blocks hAB e h.2⟩
  | .loop i rs b, h => by
    rw [Op.left] at h ⊢
    exact left_weaken_blocks hAB b h
  | .switch d rs cs, h => by
    rw [Op.left] at h ⊢
    exact left_weaken_cases hAB cs h
  | .const _ _, _ => by rw [Op.left] <;> simp
  | .cmpEq _ _ _, _ => by rw [Op.left] <;> simp
  | .yield _, _ => by rw [Op.left] <;> simp
  | .cont _, _ => by rw [Op.left] <;> simp
  | .brk _, _ => by rw [Op.left] <;> simp
  | .br _ _, _ => by rw [Op.left] <;> simp
  | .condBr _ _ _, _ => by rw [Op.left] <;> simp
  | .exit _ _, _ => by rw [Op.left] <;> simp
theorem left_weaken_ops {N : Names} {A B : Value → Prop} (hAB : ∀ v, A v → B v) : ∀ xs : List Op, leftO N A xs → leftO N B xs
  | [], _ => by rw [leftO]; trivial
  | x :: xs, h => by
    rw [leftO] at h ⊢
    exact ⟨left_weaken_op hAB x h.1, left_weaken_ops hAB xs h.2⟩
theorem left_weaken_blocks {N : Names} {A B : Value → Prop} (hAB : ∀ v, A v → B v) : ∀ xs : List Block, leftB N A xs → leftB N B xs
  | [], _ => by rw [leftB]; trivial
  | .mk l ps os :: bs, h => by
    rw [leftB] at h ⊢
    exact ⟨left_weaken_ops hAB os h.1, left_weaken_blocks hAB bs h.2⟩
theorem left_weaken_cases {N : Names} {A B : Value → Prop} (hAB : ∀ v, A v → B v) : ∀ xs : List Case, leftC N A xs → leftC N B xs
  | [], _ => by rw [leftC]; trivial
  | .mk v b :: cs, h => by
    rw [leftC] at h ⊢
    exact ⟨left_weaken_blocks hAB b h.1, left_weaken_cases hAB cs h.2⟩
end

theorem loop_left {N : Names} (hD : Distinct N) : ∀ (os : List Obs) (c : Ctx), Ready N c os →
    leftB N (fun v => v ∈ os.map Obs.res) c.blocks → leftB N (fun _ => False) (os.foldl (lowerObs N) c).blocks
  | [], c, _, h => left_weaken_blocks (fun v hv => by cases hv) _ h
  | o :: os, c, hR, h => by
    obtain ⟨h1, h2, h3⟩ := hR.fine o (by simp)
    refine loop_left hD os _ hR.step ?_
    refine left_weaken_blocks ?_ _ (left_blocks (S := ⟨N, o, c.nextLabel, c.nextValue⟩) hD _ h1.1 h1.2 h)
    rintro v ⟨hv, hne⟩
    rw [List.map_cons, List.mem_cons] at hv
    exact hv.resolve_left hne

/-! ## What the walk finds -/

mutual
theorem reads_op {N : Names} : ∀ x : Op, Op.formed N x → Op.reads N x = (Op.obs N x).map (fun o => (o.list, o.res))
  | .plain n as rs, h => by
    rw [Op.formed.eq_def] at h
    simp only at h
    rw [Op.reads.eq_def, Op.obs]
    simp only
    cases hk : N.kind n with
    | none => simp [obsPlain, hk]
    | some k =>
      rw [hk] at h
      cases k with
      | observe ty f =>
        simp only at h
        obtain ⟨a, rfl⟩ := List.length_eq_one_iff.1 h.1
        obtain ⟨r, rfl⟩ := List.length_eq_one_iff.1 h.2
        simp [obsPlain, hk]
      | empty => simp [obsPlain, hk]
      | prepend => simp [obsPlain, hk]
      | isEmpty => simp [obsPlain, hk]
  | .ite c rs t e, h => by
    rw [Op.formed] at h
    rw [Op.reads, Op.obs, List.map_append, reads_blocks t h.1, reads_blocks e h.2]
  | .loop i rs b, h => by
    rw [Op.formed] at h
    rw [Op.reads, Op.obs, reads_blocks b h]
  | .switch d rs cs, h => by
    rw [Op.formed] at h
    rw [Op.reads, Op.obs, reads_cases cs h]
  | .const _ _, _ => by rw [Op.reads, Op.obs] <;> simp
  | .cmpEq _ _ _, _ => by rw [Op.reads, Op.obs] <;> simp
  | .yield _, _ => by rw [Op.reads, Op.obs] <;> simp
  | .cont _, _ => by rw [Op.reads, Op.obs] <;> simp
  | .brk _, _ => by rw [Op.reads, Op.obs] <;> simp
  | .br _ _, _ => by rw [Op.reads, Op.obs] <;> simp
  | .condBr _ _ _, _ => by rw [Op.reads, Op.obs] <;> simp
  | .exit _ _, _ => by rw [Op.reads, Op.obs] <;> simp
theorem reads_ops {N : Names} : ∀ xs : List Op, formedO N xs → readsO N xs = (obsO N xs).map (fun o => (o.list, o.res))
  | [], _ => by rw [readsO, obsO]; rfl
  | x :: xs, h => by
    rw [formedO] at h
    rw [readsO, obsO, List.map_append, reads_op x h.1, reads_ops xs h.2]
theorem reads_blocks {N : Names} : ∀ xs : List Block, formedB N xs → readsB N xs = (obsB N xs).map (fun o => (o.list, o.res))
  | [], _ => by rw [readsB, obsB]; rfl
  | .mk l ps os :: bs, h => by
    rw [formedB] at h
    rw [readsB, obsB, List.map_append, reads_ops os h.1, reads_blocks bs h.2]
theorem reads_cases {N : Names} : ∀ xs : List Case, formedC N xs → readsC N xs = (obsC N xs).map (fun o => (o.list, o.res))
  | [], _ => by rw [readsC, obsC]; rfl
  | .mk v b :: cs, h => by
    rw [formedC] at h
    rw [readsC, obsC, List.map_append, reads_blocks b h.1, reads_cases cs h.2]
end

mutual
theorem found_op {N : Names} {A : Value → Prop} : ∀ x : Op, Op.formed N x → (∀ o ∈ Op.obs N x, A o.res) → Op.left N A x
  | .plain n as rs, h, hA => by
    rw [Op.formed.eq_def] at h
    simp only at h
    rw [Op.obs] at hA
    rw [Op.left]
    intro ty f hk
    rw [hk] at h
    obtain ⟨a, rfl⟩ := List.length_eq_one_iff.1 h.1
    obtain ⟨r, rfl⟩ := List.length_eq_one_iff.1 h.2
    exact ⟨r, rfl, hA ⟨r, a, ty, f⟩ (by simp [obsPlain, hk])⟩
  | .ite c rs t e, h, hA => by
    rw [Op.formed] at h
    rw [Op.obs] at hA
    rw [Op.left]
    exact ⟨found_blocks t h.1 (fun o ho => hA o (by simp [ho])), found_blocks e h.2 (fun o ho => hA o (by simp [ho]))⟩
  | .loop i rs b, h, hA => by
    rw [Op.formed] at h
    rw [Op.obs] at hA
    rw [Op.left]
    exact found_blocks b h hA
  | .switch d rs cs, h, hA => by
    rw [Op.formed] at h
    rw [Op.obs] at hA
    rw [Op.left]
    exact found_cases cs h hA
  | .const _ _, _, _ => by rw [Op.left] <;> simp
  | .cmpEq _ _ _, _, _ => by rw [Op.left] <;> simp
  | .yield _, _, _ => by rw [Op.left] <;> simp
  | .cont _, _, _ => by rw [Op.left] <;> simp
  | .brk _, _, _ => by rw [Op.left] <;> simp
  | .br _ _, _, _ => by rw [Op.left] <;> simp
  | .condBr _ _ _, _, _ => by rw [Op.left] <;> simp
  | .exit _ _, _, _ => by rw [Op.left] <;> simp
theorem found_ops {N : Names} {A : Value → Prop} : ∀ xs : List Op, formedO N xs → (∀ o ∈ obsO N xs, A o.res) → leftO N A xs
  | [], _, _ => by rw [leftO]; trivial
  | x :: xs, h, hA => by
    rw [formedO] at h
    rw [obsO] at hA
    rw [leftO]
    exact ⟨found_op x h.1 (fun o ho => hA o (by simp [ho])), found_ops xs h.2 (fun o ho => hA o (by simp [ho]))⟩
theorem found_blocks {N : Names} {A : Value → Prop} : ∀ xs : List Block, formedB N xs → (∀ o ∈ obsB N xs, A o.res) → leftB N A xs
  | [], _, _ => by rw [leftB]; trivial
  | .mk l ps os :: bs, h, hA => by
    rw [formedB] at h
    rw [obsB] at hA
    rw [leftB]
    exact ⟨found_ops os h.1 (fun o ho => hA o (by simp [ho])), found_blocks bs h.2 (fun o ho => hA o (by simp [ho]))⟩
theorem found_cases {N : Names} {A : Value → Prop} : ∀ xs : List Case, formedC N xs → (∀ o ∈ obsC N xs, A o.res) → leftC N A xs
  | [], _, _ => by rw [leftC]; trivial
  | .mk v b :: cs, h, hA => by
    rw [formedC] at h
    rw [obsC] at hA
    rw [leftC]
    exact ⟨found_blocks b h.1 (fun o ho => hA o (by simp [ho])), found_cases cs h.2 (fun o ho => hA o (by simp [ho]))⟩
end

mutual
theorem obs_sub_op (N : Names) : ∀ x : Op, ((Op.obs N x).map Obs.res).Sublist (Op.defs x)
  | .plain n as rs => by
    rw [Op.obs, Op.defs]
    unfold obsPlain
    split
    · simp
    · simp
  | .ite c rs t e => by
    rw [Op.obs, Op.defs, List.map_append]
    exact ((obs_sub_blocks N t).append (obs_sub_blocks N e)).trans (List.sublist_append_right _ _)
  | .loop i rs b => by
    rw [Op.obs, Op.defs]
    exact (obs_sub_blocks N b).trans (List.sublist_append_right _ _)
  | .switch d rs cs => by
    rw [Op.obs, Op.defs]
    exact (obs_sub_cases N cs).trans (List.sublist_append_right _ _)
  | .const _ _ => by rw [Op.obs] <;> simp
  | .cmpEq _ _ _ => by rw [Op.obs] <;> simp
  | .yield _ => by rw [Op.obs] <;> simp
  | .cont _ => by rw [Op.obs] <;> simp
  | .brk _ => by rw [Op.obs] <;> simp
  | .br _ _ => by rw [Op.obs] <;> simp
  | .condBr _ _ _ => by rw [Op.obs] <;> simp
  | .exit _ _ => by rw [Op.obs] <;> simp
theorem obs_sub_ops (N : Names) : ∀ xs : List Op, ((obsO N xs).map Obs.res).Sublist (defsO xs)
  | [] => by rw [obsO]; simp
  | x :: xs => by
    rw [obsO, defsO, List.map_append]
    exact (obs_sub_op N x).append (obs_sub_ops N xs)
theorem obs_sub_blocks (N : Names) : ∀ xs : List Block, ((obsB N xs).map Obs.res).Sublist (defsB xs)
  | [] => by rw [obsB]; simp
  | .mk l ps os :: bs => by
    rw [obsB, defsB, List.map_append]
    exact ((obs_sub_ops N os).append (obs_sub_blocks N bs)).trans (List.sublist_append_right _ _)
theorem obs_sub_cases (N : Names) : ∀ xs : List Case, ((obsC N xs).map Obs.res).Sublist (defsC xs)
  | [] => by rw [obsC]; simp
  | .mk v b :: cs => by
    rw [obsC, defsC, List.map_append]
    exact (obs_sub_blocks N b).append (obs_sub_cases N cs)
end

theorem ready_of {N : Names} {c : Ctx} (h : WF c) (hf : formedB N c.blocks) (ho : InOrder N c.blocks) :
    Ready N c (obsB N c.blocks).reverse := by
  obtain ⟨h1, h2⟩ := ho
  rw [reads_blocks _ hf] at h1 h2
  rw [List.pairwise_map] at h1
  have hn : ((obsB N c.blocks).map Obs.res).Nodup := h.defs.sublist (obs_sub_blocks N c.blocks)
  rw [List.Nodup, List.pairwise_map] at hn
  constructor
  · intro o hm
    have hm := List.mem_reverse.1 hm
    exact ⟨fine_of_wf h hf hm, h.freshValue _ (by simp [obs_defs_blocks N o _ hm]),
      h2 _ (List.mem_map.2 ⟨o, hm, rfl⟩)⟩
  · rw [List.pairwise_reverse]
    exact h1.imp₂ (fun a b x y => ⟨x, y⟩) hn

/-! ## The patterns -/

/-- Regions mean the same after the patterns. -/
def SubEq (N : Names) (R R' : Runner I) : Prop := ∀ bs, formedB N bs → ∀ l as e s, R' (subB N bs) l as e s = R bs l as e s

theorem firstLabel_sub (N : Names) : ∀ bs, firstLabel (subB N bs) = firstLabel bs
  | [] => by rw [subB]
  | .mk l ps os :: bs => by rw [subB]; rfl

theorem subC_eq (N : Names) : ∀ cs, subC N cs = cs.map (fun c => match c with | .mk v b => Case.mk v (subB N b))
  | [] => by rw [subC]; rfl
  | .mk v b :: cs => by rw [subC, subC_eq N cs]; rfl

theorem choose_sub (N : Names) (a : I.V) (cs : List Case) : choose a (subC N cs) = (choose a cs).map (subB N) := by
  unfold choose
  rw [subC_eq, ← List.map_reverse]
  rw [List.find?_map, List.find?_map]
  have h1 : (Case.is a ∘ fun c => match c with | .mk v b => Case.mk v (subB N b)) = Case.is (I := I) a := by
    funext c; obtain ⟨v, b⟩ := c; cases v <;> rfl
  have h2 : (Case.isDefault ∘ fun c => match c with | .mk v b => Case.mk v (subB N b)) = Case.isDefault := by
    funext c; obtain ⟨v, b⟩ := c; cases v <;> rfl
  rw [h1, h2, ← Option.map_or, Option.map_map, Option.map_map]
  congr 1
  funext c; obtain ⟨v, b⟩ := c; rfl

theorem choose_formed {N : Names} {a : I.V} {cs : List Case} (h : formedC N cs) {b : List Block} (hb : choose a cs = some b) :
    formedB N b := by
  unfold choose at hb
  rw [Option.map_eq_some_iff] at hb
  obtain ⟨c, hc, rfl⟩ := hb
  have hm : c ∈ cs := by
    rcases Option.or_eq_some_iff.1 hc with h | ⟨_, h⟩
    · exact List.mem_of_find?_eq_some h
    · exact List.mem_reverse.1 (List.mem_of_find?_eq_some h)
  clear hc
  induction cs with
  | nil => cases hm
  | cons x cs ih =>
    obtain ⟨v, b⟩ := x
    rw [formedC] at h
    rcases List.mem_cons.1 hm with rfl | hm
    · exact h.1
    · exact ih h.2 hm

theorem enter_sub {N : Names} {R R' : Runner I} (hR : SubEq N R R') {bs : List Block} (hf : formedB N bs) (vs : List I.V)
    (e : Env I) (s : I.S) : enter R' (subB N bs) vs e s = enter R bs vs e s := by
  unfold enter
  rw [firstLabel_sub]
  cases firstLabel bs with
  | none => rfl
  | some l => exact hR _ hf _ _ _ _

theorem iterate_sub {N : Names} {R R' : Runner I} (hR : SubEq N R R') {bs : List Block} (hf : formedB N bs) (h : Label)
    (res : List Value) : ∀ k vs e s, iterate R' (subB N bs) h res k vs e s = iterate R bs h res k vs e s
  | 0, _, _, _ => rfl
  | k + 1, vs, e, s => by
    rw [iterate_succ, iterate_succ, hR _ hf]
    have : iterate R' (subB N bs) h res k = iterate R bs h res k := by
      funext vs e s; exact iterate_sub hR hf h res k vs e s
    rw [this]

/-- The new operations do what the list operations do. -/
theorem prepend_eq {N : Names} {D : Nodes N I} (L : Lists D) {n ty : Nat} (h : N.kind n = some (.prepend ty)) (a v : I.V) (s : I.S) :
    I.plain n [a, v] s = some ([D.node a v], s) := by
  by_cases hv : ∃ xs, v = D.list xs
  · obtain ⟨xs, rfl⟩ := hv
    rw [L.prepend n ty a xs s h, Nodes.list]
  · exact L.prependOther n ty a v s h (fun xs hx => hv ⟨xs, hx⟩)

theorem isEmpty_eq {N : Names} {D : Nodes N I} (L : Lists D) {n ty : Nat} (h : N.kind n = some (.isEmpty ty)) (v : I.V) (s : I.S) :
    I.plain n [v] s = some ([D.bool (decide (v = D.null))], s) := by
  by_cases hv : ∃ xs, v = D.list xs
  · obtain ⟨xs, rfl⟩ := hv
    rw [L.isEmpty n ty xs s h]
    cases xs with
    | nil => simp [Nodes.list]
    | cons x xs => simp [Nodes.list, D.node_ne]
  · rw [L.isEmptyOther n ty v s h (fun xs hx => hv ⟨xs, hx⟩)]
    have : v ≠ D.null := fun hx => hv ⟨[], hx⟩
    simp [this]

theorem execOp_sub {N : Names} {D : Nodes N I} (L : Lists D) {R R' : Runner I} (hR : SubEq N R R') (n : Nat) (e : Env I) (s : I.S)
    {o : Op} (hf : Op.formed N o) : execOp R' n e s (Op.sub N o) = execOp R n e s o := by
  cases o
  case plain name as rs =>
    rw [Op.formed.eq_def] at hf
    simp only at hf
    rw [Op.sub.eq_def]
    simp only
    cases hk : N.kind name with
    | none => rfl
    | some k =>
      rw [hk] at hf
      cases k with
      | empty ty =>
        simp only at hf ⊢
        have := List.length_eq_zero_iff.1 hf.1
        subst this
        simp only [execOp, List.map_nil, D.opNull, L.empty name ty s hk, Nodes.list]
      | prepend ty =>
        simp only at hf ⊢
        obtain ⟨a, b, rfl⟩ : ∃ a b, as = [a, b] := by
          rcases as with _ | ⟨a, _ | ⟨b, _ | ⟨x, as⟩⟩⟩
          · simp at hf
          · simp at hf
          · exact ⟨a, b, rfl⟩
          · simp at hf
        simp only [execOp, List.map_cons, List.map_nil, D.opNode, prepend_eq L hk]
      | isEmpty ty =>
        simp only at hf ⊢
        obtain ⟨a, rfl⟩ := List.length_eq_one_iff.1 hf.1
        simp only [execOp, List.map_cons, List.map_nil, D.opIsNull, isEmpty_eq L hk]
      | observe ty f => rfl
  case ite c rs t el =>
    rw [Op.formed] at hf
    simp only [Op.sub, execOp]
    cases I.truth (e c) with
    | true => simp only [if_true]; rw [enter_sub hR hf.1]
    | false => simp only [Bool.false_eq_true, if_false]; rw [enter_sub hR hf.2]
  case loop i rs b =>
    rw [Op.formed] at hf
    simp only [Op.sub, execOp, firstLabel_sub]
    cases firstLabel b with
    | none => rfl
    | some h => exact iterate_sub hR hf h rs _ _ _ _
  case switch d rs cs =>
    rw [Op.formed] at hf
    simp only [Op.sub, execOp, choose_sub]
    cases hc : choose (e d) cs with
    | none => rfl
    | some b => simp only [Option.map_some]; rw [enter_sub hR (choose_formed hf hc)]
  all_goals rfl

theorem exec_sub {N : Names} {D : Nodes N I} (L : Lists D) {R R' : Runner I} (hR : SubEq N R R') (n : Nat) : ∀ (os : List Op),
    formedO N os → ∀ e s, exec R' n (subO N os) e s = exec R n os e s
  | [], _, _, _ => by rw [subO]; rfl
  | o :: os, hf, e, s => by
    rw [formedO] at hf
    rw [subO, exec_cons, exec_cons, execOp_sub L hR n e s hf.1]
    have : exec R' n (subO N os) = exec R n os := by funext e s; exact exec_sub L hR n os hf.2 e s
    rw [this]

theorem labels_subB (N : Names) : ∀ bs, (subB N bs).map Block.label = bs.map Block.label
  | [] => by rw [subB]
  | .mk l ps os :: bs => by rw [subB, List.map_cons, List.map_cons, labels_subB N bs]; rfl

theorem findBlock_sub (N : Names) (l : Label) : ∀ bs, formedB N bs →
    (findBlock l bs = none ∧ findBlock l (subB N bs) = none) ∨
    ∃ b ps os, formedO N os ∧ findBlock l bs = some (.mk b ps os) ∧ findBlock l (subB N bs) = some (.mk b ps (subO N os))
  | [], _ => .inl ⟨rfl, by rw [subB]; rfl⟩
  | .mk b ps os :: bs, h => by
    rw [formedB] at h
    rw [subB, findBlock_cons, findBlock_cons]
    by_cases hb : b = l
    · rw [if_pos hb, if_pos hb]; exact .inr ⟨b, ps, os, h.1, rfl, rfl⟩
    · rw [if_neg hb, if_neg hb]; exact findBlock_sub N l bs h.2

theorem run_sub {N : Names} {D : Nodes N I} (L : Lists D) : ∀ n, SubEq (I := I) N (run n) (run n)
  | 0 => fun _ _ _ _ _ _ => rfl
  | n + 1 => by
    intro bs hf l as e s
    have IH := run_sub L n
    rcases findBlock_sub N l bs hf with ⟨h1, h2⟩ | ⟨b, ps, os, h0, h1, h2⟩
    · rw [run_none _ _ _ _ _ _ h1, run_none _ _ _ _ _ _ h2]
    · rw [run_succ _ _ _ _ _ _ h1, run_succ _ _ _ _ _ _ h2, exec_sub L IH n os h0]
      have : ∀ r, settle (I := I) n (subB N bs) r = settle n bs r := by
        intro r
        rcases r with _ | ⟨o, e, s⟩
        · rfl
        · cases o <;> first | rfl | skip
          simp only [settle, labels_subB]
          split
          · exact IH _ hf _ _ _ _
          · rfl
      rw [this]

theorem behaves_sub {N : Names} {D : Nodes N I} (L : Lists D) {bs : List Block} (hf : formedB N bs) (args : List I.V) (s : I.S)
    (o : Out I.V) (s' : I.S) : Behaves I (subB N bs) args s o s' ↔ Behaves I bs args s o s' := by
  unfold Behaves
  constructor
  · rintro ⟨l, n, e, hl, hr⟩
    rw [firstLabel_sub] at hl
    rw [run_sub L n bs hf] at hr
    exact ⟨l, n, e, hl, hr⟩
  · rintro ⟨l, n, e, hl, hr⟩
    refine ⟨l, n, e, by rw [firstLabel_sub]; exact hl, ?_⟩
    rw [run_sub L n bs hf]; exact hr

mutual
theorem listless_op {N : Names} (hD : Distinct N) : ∀ x : Op, Op.left N (fun _ => False) x → Op.listless N (Op.sub N x)
  | .plain n as rs, h => by
    rw [Op.left] at h
    rw [Op.sub.eq_def]
    simp only
    cases hk : N.kind n with
    | none => simp only; rw [Op.listless]; exact hk
    | some k =>
      cases k with
      | empty ty => simp only; rw [Op.listless]; exact hD.null ty
      | prepend ty => simp only; rw [Op.listless]; exact hD.node ty
      | isEmpty ty => simp only; rw [Op.listless]; exact hD.isNull
      | observe ty f => obtain ⟨_, _, hF⟩ := h ty f hk; exact hF.elim
  | .ite c rs t e, h => by
    rw [Op.left] at h
    rw [Op.sub, Op.listless]
    exact ⟨listless_blocks hD t h.1, listless_blocks hD e h.2⟩
  | .loop i rs b, h => by
    rw [Op.left] at h
    rw [Op.sub, Op.listless]
    exact listless_blocks hD b h
  | .switch d rs cs, h => by
    rw [Op.left] at h
    rw [Op.sub, Op.listless]
    exact listless_cases hD cs h
  | .const _ _, _ => by rw [Op.sub, Op.listless] <;> simp
  | .cmpEq _ _ _, _ => by rw [Op.sub, Op.listless] <;> simp
  | .yield _, _ => by rw [Op.sub, Op.listless] <;> simp
  | .cont _, _ => by rw [Op.sub, Op.listless] <;> simp
  | .brk _, _ => by rw [Op.sub, Op.listless] <;> simp
  | .br _ _, _ => by rw [Op.sub, Op.listless] <;> simp
  | .condBr _ _ _, _ => by rw [Op.sub, Op.listless] <;> simp
  | .exit _ _, _ => by rw [Op.sub, Op.listless] <;> simp
theorem listless_ops {N : Names} (hD : Distinct N) : ∀ xs : List Op, leftO N (fun _ => False) xs → listlessO N (subO N xs)
  | [], _ => by rw [subO, listlessO]; trivial
  | x :: xs, h => by
    rw [leftO] at h
    rw [subO, listlessO]
    exact ⟨listless_op hD x h.1, listless_ops hD xs h.2⟩
theorem listless_blocks {N : Names} (hD : Distinct N) : ∀ xs : List Block, leftB N (fun _ => False) xs → listlessB N (subB N xs)
  | [], _ => by rw [subB, listlessB]; trivial
  | .mk l ps os :: bs, h => by
    rw [leftB] at h
    rw [subB, listlessB]
    exact ⟨listless_ops hD os h.1, listless_blocks hD bs h.2⟩
theorem listless_cases {N : Names} (hD : Distinct N) : ∀ xs : List Case, leftC N (fun _ => False) xs → listlessC N (subC N xs)
  | [], _ => by rw [subC, listlessC]; trivial
  | .mk v b :: cs, h => by
    rw [leftC] at h
    rw [subC, listlessC]
    exact ⟨listless_blocks hD b h.1, listless_cases hD cs h.2⟩
end

end Verif.ListLower
