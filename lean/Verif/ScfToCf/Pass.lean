import Verif.ScfToCf.Lower

/-
One lowering as the pass makes it: names replaced, blocks put in place.
-/
namespace Verif.ScfToCf

/-! ## Finding the operation -/

theorem splitScf_none {os : List Op} : splitScf os = none ↔ ∀ o ∈ os, o.isScf = false := by
  induction os with
  | nil => simp [splitScf]
  | cons o os ih =>
    unfold splitScf
    cases ho : o.isScf with
    | true => simp [ho]
    | false => simp [ho, ih]

theorem splitScf_some {os before after : List Op} {op : Op}
    (h : splitScf os = some (before, op, after)) :
    os = before ++ op :: after ∧ op.isScf = true ∧ ∀ o ∈ before, o.isScf = false := by
  induction os generalizing before with
  | nil => cases h
  | cons o os ih =>
    unfold splitScf at h
    cases ho : o.isScf with
    | true => simp only [ho, if_true] at h; cases h; exact ⟨rfl, ho, by simp⟩
    | false =>
      simp only [ho, Bool.false_eq_true, if_false] at h
      cases hs : splitScf os with
      | none => rw [hs] at h; cases h
      | some y =>
        obtain ⟨b1, o1, a1⟩ := y
        rw [hs] at h
        cases h
        obtain ⟨h1, h2, h3⟩ := ih hs
        refine ⟨by rw [h1]; rfl, h2, ?_⟩
        intro o' ho'
        rcases List.mem_cons.1 ho' with rfl | ho'
        · exact ho
        · exact h3 o' ho'

/-! ## Replacing uses, piece by piece -/

theorem rauwO_append (r x : Value) (a b : List Op) : rauwO r x (a ++ b) = rauwO r x a ++ rauwO r x b := by
  induction a with
  | nil => rfl
  | cons o a ih => simp [rauwO, ih]

theorem rauwB_append (r x : Value) (a b : List Block) :
    rauwB r x (a ++ b) = rauwB r x a ++ rauwB r x b := by
  induction a with
  | nil => rfl
  | cons o a ih => obtain ⟨l, ps, os⟩ := o; simp [rauwB, ih]

theorem rauwB_labels (r x : Value) (bs : List Block) :
    (rauwB r x bs).map Block.label = bs.map Block.label := by
  induction bs with
  | nil => rfl
  | cons o a ih => obtain ⟨l, ps, os⟩ := o; simp [rauwB, Block.label, ih]

theorem swap_inj {r x a b : Value} (h : swap r x a = swap r x b) : a = b := by
  rw [← swap_swap r x a, h, swap_swap]

theorem ren_wf {bs : List Block} {nl nv r : Nat} (W : WF ⟨bs, nl, nv⟩) (hr : r < nv) :
    WF ⟨renB (swap r nv) bs, nl, nv + 1⟩ := by
  obtain ⟨w1, w2, w3, w4, w5, w9, w6, w7⟩ := W
  have hs : ∀ v : Nat, v < nv → swap r nv v < nv + 1 := by
    intro v hv
    unfold swap
    split
    · exact Nat.lt_succ_self nv
    · split
      · exact Nat.lt_succ_of_lt hr
      · exact Nat.lt_succ_of_lt hv
  refine ⟨renB_nil _ w1, ?_, ?_, ?_, ?_, ?_, ?_, ?_⟩
  · simpa [renB_labels_all] using w2
  · simp only [renB_defs_all]
    exact w3.map fun a b h => swap_inj h
  · simp only [renB_labels]
    exact renB_scopes _ _ _ w4
  · exact renB_tidy _ (fun a b h => swap_inj h) _ w5
  · exact renB_placed _ _ _ _ w9
  · simpa [renB_labels_all] using w6
  · intro v hv
    simp only [renB_defs_all, renB_uses_all, ← List.map_append] at hv
    obtain ⟨w, hw, rfl⟩ := List.mem_map.1 hv
    exact hs w (w7 w hw)

/-! ## One step -/

/-- The second block is the first one, with names replaced. -/
def Like (x y : Block) : Prop :=
  y.label = x.label ∧ weightO y.ops = weightO x.ops ∧
    ((∀ o ∈ x.ops, o.isScf = false) → ∀ o ∈ y.ops, o.isScf = false)

/-- What a lowering in block `b`, of operations of weight `w`, does to the function; `inl` are the
inlined blocks. -/
structure Lowers (c c' : Ctx) (b : Label) (w : Nat) (inl : List Label) : Prop where
  wf : WF c'
  same : ∀ (I : Interp) as s o s', Behaves I c.blocks as s o s' ↔ Behaves I c'.blocks as s o s'
  weight : weightB c'.blocks ≤ weightB c.blocks
  order : ∀ pre, pre ++ [b] <+: c.blocks.map Block.label → pre ++ [b] <+: c'.blocks.map Block.label
  others : ∀ x ∈ c.blocks, x.label ≠ b → ∃ y ∈ c'.blocks, Like x y
  flat : ∃ y ∈ c'.blocks, y.label = b ∧ ∀ o ∈ y.ops, o.isScf = false
  inlined : ∀ l ∈ inl, l ∉ c.blocks.map Block.label ∧
    ∃ y ∈ c'.blocks, y.label = l ∧ weightO y.ops < w

theorem weightB_mem {bs : List Block} {blk : Block} (h : blk ∈ bs) :
    weightO blk.ops + 1 ≤ weightB bs := by
  induction bs with
  | nil => cases h
  | cons x bs ih =>
    obtain ⟨l, ps, os⟩ := x
    simp only [weightB]
    rcases List.mem_cons.1 h with rfl | h
    · simp only [Block.ops]; omega
    · have := ih h; omega

theorem prefix_unique {pre pre' : List Label} {b : Label} {post : List Label}
    (hn : (pre ++ b :: post).Nodup) (h : pre' ++ [b] <+: pre ++ b :: post) : pre' = pre := by
  induction pre generalizing pre' with
  | nil =>
    cases pre' with
    | nil => rfl
    | cons x xs =>
      obtain ⟨t, ht⟩ := h
      simp only [List.nil_append, List.cons_append, List.cons.injEq] at ht hn
      obtain ⟨rfl, rfl⟩ := ht
      simp at hn
  | cons a pre ih =>
    cases pre' with
    | nil =>
      obtain ⟨t, ht⟩ := h
      simp only [List.nil_append, List.cons_append, List.cons.injEq] at ht
      obtain ⟨rfl, rfl⟩ := ht
      simp at hn
    | cons x xs =>
      obtain ⟨t, ht⟩ := h
      simp only [List.cons_append, List.cons.injEq] at ht hn
      obtain ⟨rfl, ht⟩ := ht
      rw [ih (List.nodup_cons.1 hn).2 ⟨t, ht⟩]

theorem lowers_of {c c' : Ctx} {pre post pre' post' mid : List Block} {b m : Label}
    {ps mps : List Value} {before after before' tail after' : List Op} {op : Op} {inl : List Label}
    (hc : c.blocks = source pre post b ps before op after)
    (hc' : c'.blocks = target pre' post' mid b m ps mps before' tail after') (W : WF c) (W' : WF c')
    (same : ∀ (I : Interp) as s o s', Behaves I c.blocks as s o s' ↔ Behaves I c'.blocks as s o s')
    (hlab : pre'.map Block.label = pre.map Block.label)
    (hlike : ∀ x ∈ pre ++ post, ∃ y ∈ pre' ++ post', Like x y)
    (hw : weightB pre' = weightB pre ∧ weightB post' = weightB post ∧
      weightO before' = weightO before ∧ weightO after' = weightO after)
    (hwm : weightO tail + weightB mid + 1 ≤ op.weight)
    (hflat : ∀ o ∈ before' ++ tail, o.isScf = false)
    (hinl : ∀ l ∈ inl, l ∈ mid.map Block.label ∧ l ∈ op.labels) :
    Lowers c c' b (weightO (before ++ op :: after)) inl := by
  refine ⟨W', same, ?_, ?_, ?_, ?_, ?_⟩
  · rw [hc, hc']
    simp only [source, target, weightB_append, weightB, weightO_append, weightO, hw.1, hw.2.1,
      hw.2.2.1, hw.2.2.2]
    omega
  · intro p hp
    have hn := map_nodup W.labels
    rw [hc] at hp hn
    simp only [source, List.map_append, List.map_cons, Block.label] at hp hn
    rw [prefix_unique hn hp, hc']
    simp only [target, List.map_append, List.map_cons, Block.label, hlab]
    exact ⟨_, List.append_assoc _ _ _⟩
  · intro x hx hb
    rw [hc] at hx
    have : x ∈ pre ++ post := by
      simp only [source, List.mem_append, List.mem_cons] at hx ⊢
      rcases hx with h | rfl | h
      · exact .inl h
      · exact absurd rfl hb
      · exact .inr h
    obtain ⟨y, hy, h1⟩ := hlike x this
    refine ⟨y, ?_, h1⟩
    rw [hc']
    simp only [target, List.mem_append, List.mem_cons] at hy ⊢
    tauto
  · refine ⟨.mk b ps (before' ++ tail), ?_, rfl, hflat⟩
    rw [hc']; simp [target]
  · intro l hl
    obtain ⟨h1, h2⟩ := hinl l hl
    refine ⟨fun hm => ?_, ?_⟩
    · refine label_deep W.labels hm (blk := .mk b ps (before ++ op :: after)) ?_ ?_
      · rw [hc]; simp [source]
      · simp only [Block.ops, labelsO_append, labelsO, List.mem_append]
        exact .inr (.inl h2)
    · obtain ⟨y, hy, h3⟩ := List.mem_map.1 h1
      refine ⟨y, by rw [hc']; simp only [target, List.mem_append, List.mem_cons]; tauto, h3, ?_⟩
      have := weightB_mem hy
      simp only [weightO_append, weightO]
      omega

theorem like_refl (bs : List Block) : ∀ x ∈ bs, ∃ y ∈ bs, Like x y :=
  fun x hx => ⟨x, hx, rfl, rfl, fun h => h⟩

theorem renO_flat (f : Value → Value) {os : List Op} (h : ∀ o ∈ os, o.isScf = false) :
    ∀ o ∈ renO f os, o.isScf = false := by
  induction os with
  | nil => intro o ho; cases ho
  | cons x os ih =>
    intro o ho
    rcases List.mem_cons.1 ho with rfl | ho
    · have := h x (.head _)
      cases x <;> first | rfl | cases this
    · exact ih (fun o ho => h o (.tail _ ho)) o ho

theorem like_ren (f : Value → Value) (bs : List Block) : ∀ x ∈ bs, ∃ y ∈ renB f bs, Like x y := by
  induction bs with
  | nil => intro x hx; cases hx
  | cons b bs ih =>
    obtain ⟨l, ps, os⟩ := b
    intro x hx
    rcases List.mem_cons.1 hx with rfl | hx
    · exact ⟨_, .head _, rfl, renO_weight f os, renO_flat f⟩
    · obtain ⟨y, hy, h⟩ := ih x hx
      exact ⟨y, .tail _ hy, h⟩

/-! ## The three operations -/

theorem firstLabel_some {bs : List Block} (h : bs ≠ []) : ∃ l, firstLabel bs = some l := by
  cases bs with
  | nil => exact absurd rfl h
  | cons b bs => exact ⟨_, rfl⟩

theorem replaceBlock_at {b : Label} {ps : List Value} {os : List Op} {pre post new : List Block}
    (hb : b ∉ pre.map Block.label) :
    replaceBlock b new (pre ++ .mk b ps os :: post) = pre ++ (new ++ post) :=
  replaceBlock_eq (b := b) (blk := .mk b ps os) rfl hb

theorem swap_self (r x : Value) : swap r x r = x := by simp [swap]

theorem firstLabel_rauw (r x : Value) (bs : List Block) : firstLabel (rauwB r x bs) = firstLabel bs := by
  cases bs with
  | nil => rfl
  | cons b bs => obtain ⟨l, ps, os⟩ := b; rfl

section
variable {pre post : List Block} {b : Label} {ps : List Value} {before after : List Op} {nl nv : Nat}

theorem if_lowers {cond : Value} {res : List Value} {t e : List Block}
    (hb : b ∉ pre.map Block.label) (hflat : ∀ o ∈ before, o.isScf = false)
    (W : WF ⟨source pre post b ps before (.ite cond res t e) after, nl, nv⟩) :
    ∃ c' inl, lowerIf ⟨source pre post b ps before (.ite cond res t e) after, nl, nv⟩ b ps before after
        cond res t e = .done c' inl ∧
      Lowers ⟨source pre post b ps before (.ite cond res t e) after, nl, nv⟩ c' b
        (weightO (before ++ .ite cond res t e :: after)) inl := by
  have htd := W.tidy
  simp only [source, tidyB_append, tidyB] at htd
  obtain ⟨-, -, ⟨⟨hlen, hcr⟩, htn, hen, ht1, ht2⟩, -⟩ := tidyO_split htd.2.1
  obtain ⟨te, hte⟩ := firstLabel_some htn
  obtain ⟨ee, hee⟩ := firstLabel_some hen
  have hinl : ∀ l ∈ t.map Block.label ++ e.map Block.label,
      l ∈ (Op.ite cond res t e).labels := fun l hl => by
    simp only [Op.labels, List.mem_append] at hl ⊢
    exact hl.imp labelsB_shallow labelsB_shallow
  have hfl : ∀ before' : List Op, (∀ o ∈ before', o.isScf = false) →
      ∀ o ∈ before' ++ [.condBr cond te ee], o.isScf = false := by
    intro before' h o ho
    rcases List.mem_append.1 ho with ho | ho
    · exact h o ho
    · rw [List.mem_singleton.1 ho]; rfl
  -- no name is replaced
  have keep : ∀ (_ : ifResult ⟨source pre post b ps before (.ite cond res t e) after, nl, nv⟩ res =
      some none) (_ : [] = res ∨ ([] : List Value) = [] ∧ ∀ r ∈ res,
        r ∉ usesB (source pre post b ps before (.ite cond res t e) after)),
      ∃ c' inl, lowerIf ⟨source pre post b ps before (.ite cond res t e) after, nl, nv⟩ b ps before
        after cond res t e = .done c' inl ∧
      Lowers ⟨source pre post b ps before (.ite cond res t e) after, nl, nv⟩ c' b
        (weightO (before ++ .ite cond res t e :: after)) inl := by
    intro h1 h2
    obtain ⟨W', hbeh⟩ := ite_ok W hte hee h2
    refine ⟨⟨target pre post ((t ++ e).map (redirYBlk nl 0)) b nl ps [] before [.condBr cond te ee]
      after, nl + 1, nv⟩, t.map Block.label ++ e.map Block.label, ?_, ?_⟩
    · simp only [lowerIf, h1, hte, hee, replaceUses, replaceUsesO, mergeParams, List.length_nil,
        Nat.add_zero, Lowered.done.injEq, Ctx.mk.injEq, and_true]
      rw [replaceBlock_at hb, replaceYield_eq _ _ _ ht1, replaceYield_eq _ _ _ ht2]
      simp [target]
    · refine lowers_of rfl rfl W W' hbeh rfl (like_refl _) ⟨rfl, rfl, rfl, rfl⟩ ?_ (hfl _ hflat) ?_
      · simp only [weightO, Op.weight, redirYB_weight, weightB_append]; omega
      · intro l hl
        exact ⟨by rw [redirY_labels, List.map_append]; exact hl, hinl l hl⟩
  match res, hlen with
  | [], _ => exact keep rfl (.inl rfl)
  | [r], _ =>
    by_cases hu : r ∈ usesB (source pre post b ps before (.ite cond [r] t e) after)
    · have hrdef : r ∈ defsB (source pre post b ps before (.ite cond [r] t e) after) := by
        simp [source, defsB_append, defsB, defsO_append, defsO, Op.defs]
      have hfresh : ∀ v ∈ defsB (source pre post b ps before (.ite cond [r] t e) after) ++
          usesB (source pre post b ps before (.ite cond [r] t e) after), v ≠ nv := fun v hv =>
        Nat.ne_of_lt (W.freshValue v hv)
      have hfd : nv ∉ defsB (source pre post b ps before (.ite cond [r] t e) after) := fun h =>
        hfresh nv (List.mem_append_left _ h) rfl
      have hfu : nv ∉ usesB (source pre post b ps before (.ite cond [r] t e) after) := fun h =>
        hfresh nv (List.mem_append_right _ h) rfl
      have hcount := List.nodup_iff_count_le_one.1 W.defs r
      simp only [source, defsB_append, defsB, defsO_append, defsO, Op.defs, List.count_append,
        List.count_singleton_self] at hcount
      simp only [source, defsB_append, defsB, defsO_append, defsO, Op.defs, List.mem_append,
        not_or] at hfd
      simp only [source, usesB_append, usesB, usesO_append, usesO, Op.uses, List.mem_append,
        List.mem_cons, not_or] at hfu
      have z : ∀ xs : List Value, xs.count r = 0 → r ∉ xs := fun xs h => List.count_eq_zero.1 h
      have e1 := rauwB_ren pre (z _ (by omega)) hfd.1 hfu.1
      have e2 := rauwB_ren post (z _ (by omega)) hfd.2.2.2 hfu.2.2
      have e3 := rauwO_ren before (z _ (by omega)) hfd.2.2.1.1 hfu.2.1.1
      have e4 := rauwO_ren after (z _ (by omega)) hfd.2.2.1.2.2 hfu.2.1.2.2
      have e5 := rauwB_ren t (z _ (by omega)) hfd.2.2.1.2.1.2.1 hfu.2.1.2.1.2.1
      have e6 := rauwB_ren e (z _ (by omega)) hfd.2.2.1.2.1.2.2 hfu.2.1.2.1.2.2
      have e7 : ps.map (swap r nv) = ps := swap_others (z _ (by omega)) hfd.2.1
      have e8 : swap r nv cond = cond :=
        swap_other (fun h => hcr (by rw [h]; exact .head _)) fun h => hfu.2.1.2.1.1 h.symm
      have hsrc : renB (swap r nv) (source pre post b ps before (.ite cond [r] t e) after) =
          source (renB (swap r nv) pre) (renB (swap r nv) post) b ps (renO (swap r nv) before)
            (.ite cond [nv] (renB (swap r nv) t) (renB (swap r nv) e)) (renO (swap r nv) after) := by
        simp [source, renB_append, renB, renO_append, renO, Op.ren, e7, e8, swap_self]
      have W1 := ren_wf W (r := r) (W.freshValue r (List.mem_append_left _ hrdef))
      rw [hsrc] at W1
      obtain ⟨W', hbeh⟩ := ite_ok (mps := [nv]) W1 ((renB_first _ t).trans hte)
        ((renB_first _ e).trans hee) (.inl rfl)
      have htd1 := W1.tidy
      simp only [source, tidyB_append, tidyB] at htd1
      obtain ⟨-, -, ⟨-, -, -, ht1', ht2'⟩, -⟩ := tidyO_split htd1.2.1
      refine ⟨⟨_, nl + 1, nv + 1⟩, t.map Block.label ++ e.map Block.label, ?_,
        lowers_of rfl rfl W W' (fun I as s o s' => ?_) (renB_labels _ _) ?_
          ⟨renB_weight_all _ _, renB_weight_all _ _, renO_weight _ _, renO_weight _ _⟩ ?_
          (hfl _ (renO_flat _ hflat)) ?_⟩
      · have h1 : ifResult ⟨source pre post b ps before (.ite cond [r] t e) after, nl, nv⟩ [r] =
            some (some (r, nv)) := by simp only [ifResult]; rw [if_pos hu]
        have h2 : rauwB r nv (source pre post b ps before (.ite cond [r] t e) after) =
            renB (swap r nv) pre ++ .mk b ps (rauwO r nv (before ++ .ite cond [r] t e :: after)) ::
              renB (swap r nv) post := by
          simp [source, rauwB_append, rauwB, e1, e2]
        simp only [lowerIf, h1, hte, hee, replaceUses, replaceUsesO, mergeParams, List.length_cons,
          List.length_nil, Lowered.done.injEq, Ctx.mk.injEq, and_true, h2, e3, e4, e5, e6]
        rw [replaceBlock_at (by rw [renB_labels]; exact hb), replaceYield_eq _ _ _ ht1',
          replaceYield_eq _ _ _ ht2']
        simp [target]
      · simp only
        rw [← hbeh, ← hsrc]
        exact (behaves_ren (swap_swap r nv) _ as s o s').symm
      · intro x hx
        rcases List.mem_append.1 hx with hx | hx
        · obtain ⟨y, hy, h⟩ := like_ren (swap r nv) pre x hx
          exact ⟨y, List.mem_append_left _ hy, h⟩
        · obtain ⟨y, hy, h⟩ := like_ren (swap r nv) post x hx
          exact ⟨y, List.mem_append_right _ hy, h⟩
      · simp only [weightO, Op.weight, redirYB_weight, weightB_append, renB_weight_all]; omega
      · intro l hl
        exact ⟨by rw [redirY_labels, List.map_append, renB_labels, renB_labels]; exact hl, hinl l hl⟩
    · refine keep ?_ (.inr ⟨rfl, fun r' hr' => ?_⟩)
      · simp only [ifResult]; rw [if_neg hu]
      · rw [List.mem_singleton.1 hr']; exact hu

theorem loop_lowers {init res : List Value} {body : List Block}
    (hb : b ∉ pre.map Block.label) (hflat : ∀ o ∈ before, o.isScf = false)
    (W : WF ⟨source pre post b ps before (.loop init res body) after, nl, nv⟩) :
    ∃ c' inl, lowerLoop ⟨source pre post b ps before (.loop init res body) after, nl, nv⟩ b ps before
        after init res body = .done c' inl ∧
      Lowers ⟨source pre post b ps before (.loop init res body) after, nl, nv⟩ c' b
        (weightO (before ++ .loop init res body :: after)) inl := by
  have htd := W.tidy
  simp only [source, tidyB_append, tidyB] at htd
  obtain ⟨-, -, ⟨⟨hlen, hcr⟩, htn, ht1⟩, -⟩ := tidyO_split htd.2.1
  obtain ⟨h, hh⟩ := firstLabel_some htn
  have hinl : ∀ l ∈ body.map Block.label, l ∈ (Op.loop init res body).labels := fun l hl =>
    labelsB_shallow hl
  have hfl : ∀ before' : List Op, (∀ o ∈ before', o.isScf = false) →
      ∀ o ∈ before' ++ [.br init h], o.isScf = false := by
    intro before' h o ho
    rcases List.mem_append.1 ho with ho | ho
    · exact h o ho
    · rw [List.mem_singleton.1 ho]; rfl
  match res, hlen with
  | [], _ =>
    obtain ⟨W', hbeh⟩ := loop_ok W hh
    refine ⟨⟨_, nl + 1, nv⟩, body.map Block.label, ?_,
      lowers_of rfl rfl W W' hbeh rfl (like_refl _) ⟨rfl, rfl, rfl, rfl⟩ ?_ (hfl _ hflat) ?_⟩
    · simp only [lowerLoop, loopResult, hh, replaceUses, replaceUsesO, mergeParams, List.length_nil,
        Nat.add_zero, Lowered.done.injEq, Ctx.mk.injEq, and_true]
      rw [replaceBlock_at hb, replaceCB_blocks _ _ _ _ ht1]
      simp [target]
    · simp only [weightO, Op.weight, redirCB_weight_all]; omega
    · intro l hl
      exact ⟨by rw [redirCB_labels]; exact hl, hinl l hl⟩
  | [r], _ =>
    have hrdef : r ∈ defsB (source pre post b ps before (.loop init [r] body) after) := by
      simp [source, defsB_append, defsB, defsO_append, defsO, Op.defs]
    have hfresh : ∀ v ∈ defsB (source pre post b ps before (.loop init [r] body) after) ++
        usesB (source pre post b ps before (.loop init [r] body) after), v ≠ nv := fun v hv =>
      Nat.ne_of_lt (W.freshValue v hv)
    have hfd : nv ∉ defsB (source pre post b ps before (.loop init [r] body) after) := fun h =>
      hfresh nv (List.mem_append_left _ h) rfl
    have hfu : nv ∉ usesB (source pre post b ps before (.loop init [r] body) after) := fun h =>
      hfresh nv (List.mem_append_right _ h) rfl
    have hcount := List.nodup_iff_count_le_one.1 W.defs r
    simp only [source, defsB_append, defsB, defsO_append, defsO, Op.defs, List.count_append,
      List.count_singleton_self] at hcount
    simp only [source, defsB_append, defsB, defsO_append, defsO, Op.defs, List.mem_append,
      not_or] at hfd
    simp only [source, usesB_append, usesB, usesO_append, usesO, Op.uses, List.mem_append,
      not_or] at hfu
    have z : ∀ xs : List Value, xs.count r = 0 → r ∉ xs := fun xs h => List.count_eq_zero.1 h
    have e1 := rauwB_ren pre (z _ (by omega)) hfd.1 hfu.1
    have e2 := rauwB_ren post (z _ (by omega)) hfd.2.2.2 hfu.2.2
    have e3 := rauwO_ren before (z _ (by omega)) hfd.2.2.1.1 hfu.2.1.1
    have e4 := rauwO_ren after (z _ (by omega)) hfd.2.2.1.2.2 hfu.2.1.2.2
    have e5 := rauwB_ren body (z _ (by omega)) hfd.2.2.1.2.1.2 hfu.2.1.2.1.2
    have e7 : ps.map (swap r nv) = ps := swap_others (z _ (by omega)) hfd.2.1
    have e8 : init.map (swap r nv) = init :=
      swap_others (fun h => hcr r h (.head _)) hfu.2.1.2.1.1
    have hsrc : renB (swap r nv) (source pre post b ps before (.loop init [r] body) after) =
        source (renB (swap r nv) pre) (renB (swap r nv) post) b ps (renO (swap r nv) before)
          (.loop init [nv] (renB (swap r nv) body)) (renO (swap r nv) after) := by
      simp [source, renB_append, renB, renO_append, renO, Op.ren, e7, e8, swap_self]
    have W1 := ren_wf W (r := r) (W.freshValue r (List.mem_append_left _ hrdef))
    rw [hsrc] at W1
    obtain ⟨W', hbeh⟩ := loop_ok W1 ((renB_first _ body).trans hh)
    have htd1 := W1.tidy
    simp only [source, tidyB_append, tidyB] at htd1
    obtain ⟨-, -, ⟨-, -, ht1'⟩, -⟩ := tidyO_split htd1.2.1
    refine ⟨⟨_, nl + 1, nv + 1⟩, body.map Block.label, ?_,
      lowers_of rfl rfl W W' (fun I as s o s' => ?_) (renB_labels _ _) ?_
        ⟨renB_weight_all _ _, renB_weight_all _ _, renO_weight _ _, renO_weight _ _⟩ ?_
        (hfl _ (renO_flat _ hflat)) ?_⟩
    · have h2 : rauwB r nv (source pre post b ps before (.loop init [r] body) after) =
          renB (swap r nv) pre ++ .mk b ps (rauwO r nv (before ++ .loop init [r] body :: after)) ::
            renB (swap r nv) post := by
        simp [source, rauwB_append, rauwB, e1, e2]
      simp only [lowerLoop, loopResult, hh, replaceUses, replaceUsesO, mergeParams, List.length_cons,
        List.length_nil, Lowered.done.injEq, Ctx.mk.injEq, and_true, h2, e3, e4, e5]
      rw [replaceBlock_at (by rw [renB_labels]; exact hb), replaceCB_blocks _ _ _ _ ht1']
      simp [target]
    · simp only
      rw [← hbeh, ← hsrc]
      exact (behaves_ren (swap_swap r nv) _ as s o s').symm
    · intro x hx
      rcases List.mem_append.1 hx with hx | hx
      · obtain ⟨y, hy, h⟩ := like_ren (swap r nv) pre x hx
        exact ⟨y, List.mem_append_left _ hy, h⟩
      · obtain ⟨y, hy, h⟩ := like_ren (swap r nv) post x hx
        exact ⟨y, List.mem_append_right _ hy, h⟩
    · simp only [weightO, Op.weight, redirCB_weight_all, renB_weight_all]; omega
    · intro l hl
      exact ⟨by rw [redirCB_labels, renB_labels]; exact hl, hinl l hl⟩

theorem entries_some {cs : List Case} (h : tidyC cs) : ∃ es, entries (casesOf cs) = some es ∧
    es.length = (casesOf cs).length := by
  induction cs with
  | nil => exact ⟨[], rfl, rfl⟩
  | cons c cs ih =>
    obtain ⟨v, bs⟩ := c
    obtain ⟨es, h1, h2⟩ := ih h.2.2
    cases v with
    | none => exact ⟨es, h1, h2⟩
    | some v =>
      obtain ⟨l, hl⟩ := firstLabel_some h.1
      exact ⟨(v, l) :: es, by simp only [casesOf, entries, hl, h1], by simp [casesOf, h2]⟩

theorem default_tidy {cs : List Case} (h : tidyC cs) {db : List Block} (hd : defaultOf cs = some db) :
    db ≠ [] ∧ tidyB db := by
  induction cs with
  | nil => cases hd
  | cons c cs ih =>
    obtain ⟨v, bs⟩ := c
    cases v with
    | some v => exact ih h.2.2 hd
    | none =>
      simp only [defaultOf] at hd
      cases hc : defaultOf cs with
      | none => rw [hc] at hd; cases hd; exact ⟨h.1, h.2.1⟩
      | some x => rw [hc] at hd; cases hd; exact ih h.2.2 hc

theorem cases_tidy {cs : List Case} (h : tidyC cs) : ∀ p ∈ casesOf cs, tidyB p.2 := by
  induction cs with
  | nil => intro p hp; cases hp
  | cons c cs ih =>
    obtain ⟨v, bs⟩ := c
    cases v with
    | none => exact ih h.2.2
    | some v =>
      intro p hp
      rcases List.mem_cons.1 hp with rfl | hp
      · exact h.2.1
      · exact ih h.2.2 p hp

theorem bodies_inl {cs : List Case} : ∀ l ∈ (bodies cs).map Block.label, l ∈ labelsC cs := by
  intro l hl
  have h1 := List.count_pos_iff.2 (labelsB_shallow hl)
  have h2 := bodies_labels cs l
  exact List.count_pos_iff.1 (Nat.lt_of_lt_of_le h1 h2)

theorem switch_lowers {d : Value} {res : List Value} {cs : List Case}
    (hb : b ∉ pre.map Block.label) (hflat : ∀ o ∈ before, o.isScf = false)
    (W : WF ⟨source pre post b ps before (.switch d res cs) after, nl, nv⟩) :
    ∃ c' inl, lowerSwitch ⟨source pre post b ps before (.switch d res cs) after, nl, nv⟩ b ps before
        after d res cs = .done c' inl ∧
      Lowers ⟨source pre post b ps before (.switch d res cs) after, nl, nv⟩ c' b
        (weightO (before ++ .switch d res cs :: after)) inl := by
  have htd := W.tidy
  simp only [source, tidyB_append, tidyB] at htd
  obtain ⟨-, -, ⟨hres, ht⟩, -⟩ := tidyO_split htd.2.1
  subst hres
  obtain ⟨es, hes, hlen⟩ := entries_some ht
  have hfl : ∀ dflt l, ∀ o ∈ before ++ chainTail d dflt l nv es, o.isScf = false := by
    intro dflt l o ho
    rcases List.mem_append.1 ho with ho | ho
    · exact hflat o ho
    · match es with
      | [] => rw [List.mem_singleton.1 ho]; rfl
      | [(_, _)] =>
        simp only [chainTail, List.mem_cons, List.not_mem_nil, or_false] at ho
        rcases ho with rfl | rfl | rfl <;> rfl
      | (_, _) :: _ :: _ =>
        simp only [chainTail, List.mem_cons, List.not_mem_nil, or_false] at ho
        rcases ho with rfl | rfl | rfl <;> rfl
  have hmap : ((casesOf cs).flatMap fun p => replaceYield nl 0 p.2) =
      ((casesOf cs).flatMap Prod.snd).map (redirYBlk nl 0) := by
    rw [List.map_flatMap]
    exact List.flatMap_congr fun p hp => replaceYield_eq _ _ _ (cases_tidy ht p hp)
  have hmapL : ((casesOf cs).flatMap fun p => p.2.map Block.label) =
      ((casesOf cs).flatMap Prod.snd).map Block.label := by
    rw [List.map_flatMap]
  have hwb := bodies_weight cs
  -- from the blocks to the result
  have fin : ∀ (extra : List Block) (dflt l : Nat), DefaultBlock nl cs extra dflt l →
      weightB extra ≤ 1 →
      Lowers ⟨source pre post b ps before (.switch d [] cs) after, nl, nv⟩
        ⟨target pre post ((bodies cs).map (redirYBlk nl 0) ++ extra ++ chainRest d dflt l nv es) b nl ps
          [] before (chainTail d dflt l nv es) after, l + (es.length - 1), nv + 2 * es.length⟩ b
        (weightO (before ++ .switch d [] cs :: after)) ((bodies cs).map Block.label) := by
    intro extra dflt l hD hwx
    obtain ⟨W', hbeh⟩ := switch_ok W hes hD
    refine lowers_of rfl rfl W W' hbeh rfl (like_refl _) ⟨rfl, rfl, rfl, rfl⟩ ?_ (hfl _ _) ?_
    · obtain ⟨w1, w2⟩ := chain_weight d dflt es l nv
      simp only [weightB_append, redirYB_weight, w1, w2, Op.weight]
      omega
    · intro a ha
      refine ⟨?_, bodies_inl a ha⟩
      rw [List.map_append, List.map_append, redirY_labels]
      exact List.mem_append_left _ (List.mem_append_left _ ha)
  cases hdef : defaultOf cs with
  | some db =>
    obtain ⟨hd1, hd2⟩ := default_tidy ht hdef
    obtain ⟨dflt, hdl⟩ := firstLabel_some hd1
    refine ⟨_, _, ?_, fin [] dflt (nl + 1) (.given hdef hdl) (by simp [weightB])⟩
    simp only [lowerSwitch, ne_eq, not_true_eq_false, if_false, hes, hdef, hdl, Lowered.done.injEq,
      Ctx.mk.injEq, and_true, chain_eq]
    rw [replaceBlock_at hb, hmap, hmapL, replaceYield_eq _ _ _ hd2]
    simp [target, bodies, hdef]
  | none =>
    refine ⟨_, _, ?_, fin _ (nl + 1) (nl + 2) (.missing hdef)
      (by simp [weightB, weightO, Op.weight])⟩
    simp only [lowerSwitch, ne_eq, not_true_eq_false, if_false, hes, hdef, Lowered.done.injEq,
      Ctx.mk.injEq, and_true, chain_eq]
    rw [replaceBlock_at hb, hmap, hmapL]
    simp [target, bodies, hdef]

end

theorem lowerOp_lowers {c : Ctx} {b b' : Label} {ps : List Value} {ops before after : List Op} {op : Op}
    (W : WF c) (hf : findBlock b c.blocks = some (.mk b' ps ops))
    (hs : splitScf ops = some (before, op, after)) :
    ∃ c' inl, lowerOp c b ps before op after = .done c' inl ∧ Lowers c c' b (weightO ops) inl := by
  obtain ⟨bs, nl, nv⟩ := c
  obtain ⟨pre, post, h1, h2, h3⟩ := split_block hf
  obtain ⟨h4, h5, h6⟩ := splitScf_some hs
  simp only [Block.label] at h2
  subst h2 h4
  simp only at h1
  subst h1
  cases op <;> first | cases h5; done | skip
  · exact if_lowers h3 h6 W
  · exact loop_lowers h3 h6 W
  · exact switch_lowers h3 h6 W

end Verif.ScfToCf
