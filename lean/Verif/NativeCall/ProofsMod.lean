import Verif.NativeCall.ProofsTy

namespace Verif.NativeCall

variable {conv : Ty → Option Ty}

/-! ### Blocks, functions, modules -/

theorem lowerOps_good (hs : Sound conv) (s₀ : St) (decl decl' : String → Option (List Ty × Ty))
    (hd : ∀ f, decl' f = (decl f).map fun p => (p.1.map (orSame conv), orSame conv p.2))
    (result : Ty) (ops : List Op) : ∀ s : St, Ext conv s₀ s →
    (∀ op ∈ ops, (∀ v ∈ op.ids, v < s₀.next) ∧ Fits conv s₀.ty decl result op) →
    Ext conv s (lowerOps conv ops s).2 ∧
    (lowerOps conv ops s).1.filterMap Op.recordedSig = ops.filterMap (Op.indirectSig conv s₀.ty) ∧
    (∀ o ∈ (lowerOps conv ops s).1, o.illegal = false) ∧
    ∀ s', Ext conv (lowerOps conv ops s).2 s' →
      lowerOps conv (lowerOps conv ops s).1 s' = ((lowerOps conv ops s).1, s') ∧
      ((∀ op ∈ ops, TailFixed conv s₀.ty op) → ∀ o ∈ (lowerOps conv ops s).1,
        FitsNative conv s'.ty decl' (orSame conv result) o) := by
  have stable : ∀ (l : List Op) (s' : St), (∀ o ∈ l, lowerOp conv o s' = ([o], s')) → ∀ l',
      lowerOps conv l' s' = (l', s') → lowerOps conv (l ++ l') s' = (l ++ l', s') := by
    intro l s' h l' h'
    induction l with
    | nil => exact h'
    | cons o l ih =>
      have := ih fun o ho => h o (List.mem_cons_of_mem _ ho)
      simp only [List.cons_append, lowerOps, h o (List.mem_cons_self ..), this, List.nil_append]
  induction ops with
  | nil =>
    intro s _ _
    refine ⟨Ext.refl _, rfl, ?_, fun s' _ => ⟨rfl, ?_⟩⟩
    · intro o h; cases h
    · intro _ o h; cases h
  | cons op ops ih =>
    intro s hx h
    have g := lowerOp_good hs s₀ s decl decl' hd result op hx (h op (List.mem_cons_self ..)).1
      (h op (List.mem_cons_self ..)).2
    obtain ⟨h1, h2, h3, h4⟩ := ih (lowerOp conv op s).2 (hx.trans g.ext)
      (fun o ho => h o (List.mem_cons_of_mem _ ho))
    simp only [lowerOps]
    refine ⟨g.ext.trans h1, ?_, ?_, fun s' hx' => ?_⟩
    · rw [List.filterMap_append, g.sigs, h2, ← List.filterMap_append]
      rfl
    · intro o ho
      rcases List.mem_append.1 ho with ho | ho
      · exact g.legal o ho
      · exact h3 o ho
    · obtain ⟨h5, h6⟩ := h4 s' hx'
      refine ⟨stable _ s' (fun o ho => (g.stable s' (h1.trans hx') o ho).1) _ h5, fun ht o ho => ?_⟩
      rcases List.mem_append.1 ho with ho | ho
      · exact (g.stable s' (h1.trans hx') o ho).2 (ht op (List.mem_cons_self ..))
      · exact h6 (fun o ho => ht o (List.mem_cons_of_mem _ ho)) o ho

theorem convertArgs_ty (hs : Sound conv) (vs : List Nat) : ∀ s : St, (∀ v ∈ vs, v < s.next) →
    Ext conv s (convertArgs conv vs s) ∧
    ∀ v ∈ vs, (convertArgs conv vs s).ty v = orSame conv (s.ty v) := by
  induction vs with
  | nil =>
    intro s _
    refine ⟨Ext.refl _, ?_⟩
    intro v h; cases h
  | cons v vs ih =>
    intro s h
    have hv := h v (List.mem_cons_self ..)
    have key : ∀ s₁ : St, s₁.next = s.next → Ext conv s s₁ → s₁.ty v = orSame conv (s.ty v) →
        Ext conv s (convertArgs conv vs s₁) ∧
        ∀ x ∈ v :: vs, (convertArgs conv vs s₁).ty x = orSame conv (s.ty x) := by
      intro s₁ hn hx ht
      obtain ⟨h1, h2⟩ := ih s₁ (fun x hx => by rw [hn]; exact h x (List.mem_cons_of_mem _ hx))
      refine ⟨hx.trans h1, fun x hxm => ?_⟩
      by_cases hxv : x ∈ vs
      · rw [h2 x hxv, hx.2.1 x (h x hxm)]
      · rcases List.mem_cons.1 hxm with rfl | hm
        · rw [h1.2.2 x (by omega) (by rw [ht]; exact hs.again _), ht]
        · exact absurd hm hxv
    simp only [convertArgs]
    cases hc : conv (s.ty v) with
    | none => exact key s rfl (Ext.refl _) (by simp [orSame, hc])
    | some t =>
      simp only
      by_cases ht : t = s.ty v
      · rw [if_neg (by simp [ht])]
        exact key s rfl (Ext.refl _) (by simp [orSame, hc, ht])
      · rw [if_pos ht]
        have hcv : orSame conv (s.ty v) = t := by simp [orSame, hc]
        have htf : orSame conv t = t := by rw [← hcv]; exact hs.again (s.ty v)
        have hset : (s.set v t).ty v = t := by simp [St.set]
        refine key _ rfl ⟨Nat.le_refl _, fun x _ => ?_, fun x _ hf => ?_⟩ (by rw [hset, hcv])
        · by_cases hxv : x = v
          · subst hxv; rw [hset, htf, hcv]
          · simp [St.set, hxv]
        · by_cases hxv : x = v
          · subst hxv; rw [hset, ← hf, hcv]
          · simp [St.set, hxv]

theorem convertArgs_fixed (vs : List Nat) : ∀ s : St, (∀ v ∈ vs, orSame conv (s.ty v) = s.ty v) →
    convertArgs conv vs s = s := by
  induction vs with
  | nil => intro s _; rfl
  | cons v vs ih =>
    intro s h
    have hv := h v (List.mem_cons_self ..)
    simp only [convertArgs]
    unfold orSame at hv
    cases hc : conv (s.ty v) with
    | none => exact ih s fun x hx => h x (List.mem_cons_of_mem _ hx)
    | some t =>
      rw [hc] at hv
      simp only [Option.getD_some] at hv
      simp only [hv, ne_eq, not_true_eq_false, if_false]
      exact ih s fun x hx => h x (List.mem_cons_of_mem _ hx)

theorem lowerBlocks_good (hs : Sound conv) (s₀ : St) (decl decl' : String → Option (List Ty × Ty))
    (hd : ∀ f, decl' f = (decl f).map fun p => (p.1.map (orSame conv), orSame conv p.2))
    (result : Ty) (bs : List Block) : ∀ s : St, Ext conv s₀ s →
    (∀ b ∈ bs, (∀ v ∈ b.args, v < s₀.next) ∧ ∀ op ∈ b.ops, (∀ v ∈ op.ids, v < s₀.next) ∧
      Fits conv s₀.ty decl result op) →
    Ext conv s (lowerBlocks conv bs s).2 ∧
    (lowerBlocks conv bs s).1.flatMap (fun b => b.ops.filterMap Op.recordedSig) =
      bs.flatMap (fun b => b.ops.filterMap (Op.indirectSig conv s₀.ty)) ∧
    (∀ b ∈ (lowerBlocks conv bs s).1, ∀ o ∈ b.ops, o.illegal = false) ∧
    ∀ s', Ext conv (lowerBlocks conv bs s).2 s' →
      lowerBlocks conv (lowerBlocks conv bs s).1 s' = ((lowerBlocks conv bs s).1, s') ∧
      (∀ b', (lowerBlocks conv bs s).1.head? = some b' → ∃ b, bs.head? = some b ∧
        b'.args.map s'.ty = (b.args.map s₀.ty).map (orSame conv)) ∧
      ((∀ b ∈ bs, ∀ op ∈ b.ops, TailFixed conv s₀.ty op) → ∀ b ∈ (lowerBlocks conv bs s).1,
        ∀ o ∈ b.ops, FitsNative conv s'.ty decl' (orSame conv result) o) := by
  induction bs with
  | nil =>
    intro s _ _
    refine ⟨Ext.refl _, rfl, ?_, fun s' _ => ⟨rfl, ?_, ?_⟩⟩
    · intro o h; cases h
    · intro o h; cases h
    · intro _ o h; cases h
  | cons b bs ih =>
    intro s hx h
    obtain ⟨hb1, hb2⟩ := h b (List.mem_cons_self ..)
    obtain ⟨c1, c2⟩ := convertArgs_ty hs b.args s (fun v hv => by
      have := hb1 v hv; have := hx.1; omega)
    obtain ⟨o1, o2, o3, o4⟩ := lowerOps_good hs s₀ decl decl' hd result b.ops
      (convertArgs conv b.args s) (hx.trans c1) hb2
    obtain ⟨h1, h2, h3, h4⟩ := ih (lowerBlock conv b s).2 (hx.trans (c1.trans o1))
      (fun o ho => h o (List.mem_cons_of_mem _ ho))
    have hargs : ∀ s', Ext conv (lowerBlocks conv bs (lowerBlock conv b s).2).2 s' → ∀ v ∈ b.args,
        s'.ty v = orSame conv (s₀.ty v) := by
      intro s' hx' v hv
      have hv' := hb1 v hv
      have e := (o1.trans h1).trans hx'
      rw [e.2.2 v (by rw [convertArgs_next]; have := hx.1; omega)
        (by rw [c2 v hv]; exact hs.again _), c2 v hv, hx.2.1 v hv']
    simp only [lowerBlocks]
    refine ⟨(c1.trans o1).trans h1, ?_, ?_, fun s' hx' => ⟨?_, ?_, ?_⟩⟩
    · simp only [List.flatMap_cons, h2]
      congr 1
    · intro b' hb'
      rcases List.mem_cons.1 hb' with rfl | hb'
      · exact o3
      · exact h3 b' hb'
    · have hfix : convertArgs conv b.args s' = s' := convertArgs_fixed _ _ fun v hv => by
        rw [hargs s' hx' v hv]; exact hs.again _
      have ho := (o4 s' (h1.trans hx')).1
      have hlb : lowerBlock conv (lowerBlock conv b s).1 s' = ((lowerBlock conv b s).1, s') := by
        simp only [lowerBlock, hfix, ho]
      simp only [lowerBlocks, hlb, (h4 s' hx').1]
    · intro b' hb'
      simp only [List.head?_cons, Option.some.injEq] at hb'
      refine ⟨b, rfl, ?_⟩
      rw [← hb', List.map_map]
      exact List.map_congr_left fun v hv => hargs s' hx' v hv
    · intro ht b' hb'
      rcases List.mem_cons.1 hb' with rfl | hb'
      · exact (o4 s' (h1.trans hx')).2 (ht b (List.mem_cons_self ..))
      · exact (h4 s' hx').2.2 (fun b hb => ht b (List.mem_cons_of_mem _ hb)) b' hb'

theorem lowerFnTy_sig (conv : Ty → Option Ty) (hn : orSame conv .nil = .nil) (t : FnTy) :
    (lowerFnTy conv t).sig = t.sig.map fun p => (p.1.map (orSame conv), orSame conv p.2) := by
  match t with
  | .func params (some r) => rfl
  | .func (r :: params) none => rfl
  | .func [] none => simp [lowerFnTy, FnTy.sig, hn]
  | .other n => rfl

theorem declared_lower (conv : Ty → Option Ty) (hn : orSame conv .nil = .nil) (fs : List Func) :
    (∀ f ∈ fs, f.clif = false) → ∀ (s : St) (name : String),
    declared (lowerFuncs conv fs s).1 name =
      (declared fs name).map fun p => (p.1.map (orSame conv), orSame conv p.2) := by
  induction fs with
  | nil => intro _ s name; rfl
  | cons f fs ih =>
    intro hc s name
    have h := ih (fun g hg => hc g (List.mem_cons_of_mem _ hg)) (lowerFunc conv f s).2 name
    obtain ⟨-, -, e3, -, e5⟩ := lowerFunc_eq conv f s
    have e5 := e5 (hc f (List.mem_cons_self ..))
    unfold declared at h ⊢
    simp only [lowerFuncs, List.find?_cons, e3]
    by_cases hname : f.name = name
    · simp only [hname, decide_true, Option.bind_some, e5, lowerFnTy_sig conv hn]
    · simp only [hname, decide_false, h]

theorem lowerFuncs_good (hs : Sound conv) (s₀ : St) (decl decl' : String → Option (List Ty × Ty))
    (hd : ∀ f, decl' f = (decl f).map fun p => (p.1.map (orSame conv), orSame conv p.2))
    (fs : List Func) : ∀ s : St, Ext conv s₀ s → (∀ f ∈ fs, f.clif = false) → Below s₀.next fs →
    (∀ f ∈ fs, ∃ sig, f.ty.sig = some sig ∧
      (∀ b, f.blocks.head? = some b → b.args.map s₀.ty = sig.1) ∧
      ∀ b ∈ f.blocks, ∀ op ∈ b.ops, Fits conv s₀.ty decl sig.2 op) →
    Ext conv s (lowerFuncs conv fs s).2 ∧
    recordedSigs (lowerFuncs conv fs s).1 = indirectSigs conv s₀.ty fs ∧
    (∀ f ∈ (lowerFuncs conv fs s).1, f.clif = true ∧ ∀ b ∈ f.blocks, ∀ o ∈ b.ops, o.illegal = false) ∧
    ∀ s', Ext conv (lowerFuncs conv fs s).2 s' →
      lowerFuncs conv (lowerFuncs conv fs s).1 s' = ((lowerFuncs conv fs s).1, s') ∧
      ((∀ f ∈ fs, ∀ b ∈ f.blocks, ∀ op ∈ b.ops, TailFixed conv s₀.ty op) →
        ∀ f ∈ (lowerFuncs conv fs s).1, ∃ sig, f.ty.sig = some sig ∧
          (∀ b, f.blocks.head? = some b → b.args.map s'.ty = sig.1) ∧
          ∀ b ∈ f.blocks, ∀ op ∈ b.ops, FitsNative conv s'.ty decl' sig.2 op) := by
  induction fs with
  | nil =>
    intro s _ _ _ _
    refine ⟨Ext.refl _, rfl, ?_, fun s' _ => ⟨rfl, ?_⟩⟩
    · intro o h; cases h
    · intro _ o h; cases h
  | cons f fs ih =>
    intro s hx hc hb h
    obtain ⟨sig, f1, f2, f3⟩ := h f (List.mem_cons_self ..)
    obtain ⟨e1, e2, e3, e4, e5⟩ := lowerFunc_eq conv f s
    have e5 := e5 (hc f (List.mem_cons_self ..))
    have hbf := hb f (List.mem_cons_self ..)
    obtain ⟨b1, b2, b3, b4⟩ := lowerBlocks_good hs s₀ decl decl' hd sig.2 f.blocks s hx
      (fun b hb => ⟨(hbf b hb).1, fun op ho => ⟨(hbf b hb).2 op ho, f3 b hb op ho⟩⟩)
    rw [← e1] at b1
    obtain ⟨h1, h2, h3, h4⟩ := ih (lowerFunc conv f s).2 (hx.trans b1)
      (fun g hg => hc g (List.mem_cons_of_mem _ hg)) (fun g hg => hb g (List.mem_cons_of_mem _ hg))
      (fun g hg => h g (List.mem_cons_of_mem _ hg))
    simp only [lowerFuncs]
    refine ⟨b1.trans h1, ?_, ?_, fun s' hx' => ⟨?_, ?_⟩⟩
    · unfold recordedSigs indirectSigs at h2 ⊢
      simp only [List.flatMap_cons, h2, e2, b2]
    · intro g hg
      rcases List.mem_cons.1 hg with rfl | hg
      · exact ⟨e4, by rw [e2]; exact b3⟩
      · exact h3 g hg
    · have hbs := (b4 s' (by rw [← e1]; exact h1.trans hx')).1
      have hlf : lowerFunc conv (lowerFunc conv f s).1 s' = ((lowerFunc conv f s).1, s') := by
        generalize (lowerFunc conv f s).1 = g at e2 e4
        obtain ⟨c, n, t, b⟩ := g
        simp only at e2 e4
        subst e4
        subst e2
        simp only [lowerFunc, hbs, if_true]
      simp only [lowerFuncs, hlf, (h4 s' hx').1]
    · intro ht g hg
      rcases List.mem_cons.1 hg with rfl | hg
      · have hb4 := b4 s' (by rw [← e1]; exact h1.trans hx')
        refine ⟨(sig.1.map (orSame conv), orSame conv sig.2), ?_, ?_, ?_⟩
        · rw [e5, lowerFnTy_sig conv ((hs.nil .nil).2 rfl), f1]; rfl
        · intro b' hb'
          rw [e2] at hb'
          obtain ⟨b, hb, hm⟩ := hb4.2.1 b' hb'
          rw [hm, f2 b hb]
        · rw [e2]
          exact hb4.2.2 (ht f (List.mem_cons_self ..))
      · exact (h4 s' hx').2 (fun g hg => ht g (List.mem_cons_of_mem _ hg)) g hg

end Verif.NativeCall
