import Verif.NativeCall.Proofs

namespace Verif.NativeCall

variable {conv : Ty → Option Ty}

/-! ### Types -/

/-- A later state: values keep their types up to conversion, converted ones altogether. -/
def Ext (conv : Ty → Option Ty) (s s' : St) : Prop :=
  s.next ≤ s'.next ∧ (∀ v < s.next, orSame conv (s'.ty v) = orSame conv (s.ty v)) ∧
  ∀ v < s.next, orSame conv (s.ty v) = s.ty v → s'.ty v = s.ty v

theorem Ext.refl (s : St) : Ext conv s s := ⟨Nat.le_refl _, fun _ _ => rfl, fun _ _ _ => rfl⟩

theorem Ext.trans {s s₁ s₂ : St} (h : Ext conv s s₁) (h' : Ext conv s₁ s₂) : Ext conv s s₂ := by
  refine ⟨by have := h.1; have := h'.1; omega, fun v hv => ?_, fun v hv hf => ?_⟩
  · rw [h'.2.1 v (by have := h.1; omega), h.2.1 v hv]
  · have h1 := h.2.2 v hv hf
    rw [h'.2.2 v (by have := h.1; omega) (by rw [h1]; exact hf), h1]

theorem castArgs_ty (hs : Sound conv) (args : List Nat) : ∀ s : St, (∀ v ∈ args, v < s.next) →
    Ext conv s (castArgs conv args s).2.2 ∧
    (castArgs conv args s).1.filterMap Op.recordedSig = [] ∧
    (∀ op ∈ (castArgs conv args s).1, op.illegal = false) ∧
    ∀ s', Ext conv (castArgs conv args s).2.2 s' →
      (castArgs conv args s).2.1.map s'.ty = args.map (fun v => orSame conv (s.ty v)) ∧
      ∀ op ∈ (castArgs conv args s).1, lowerOp conv op s' = ([op], s') ∧
        ∀ decl result, FitsNative conv s'.ty decl result op := by
  induction args with
  | nil =>
    intro s _
    refine ⟨Ext.refl _, rfl, ?_, fun s' _ => ⟨rfl, ?_⟩⟩
    · intro op h; cases h
    · intro op h; cases h
  | cons v vs ih =>
    intro s hv
    have hvs : ∀ x ∈ vs, x < s.next := fun x hx => hv x (List.mem_cons_of_mem _ hx)
    have hv0 : v < s.next := hv v (List.mem_cons_self ..)
    have keep : orSame conv (s.ty v) = s.ty v →
        castArgs conv (v :: vs) s = ((castArgs conv vs s).1, v :: (castArgs conv vs s).2.1,
        (castArgs conv vs s).2.2) →
        Ext conv s (castArgs conv (v :: vs) s).2.2 ∧
        (castArgs conv (v :: vs) s).1.filterMap Op.recordedSig = [] ∧
        (∀ op ∈ (castArgs conv (v :: vs) s).1, op.illegal = false) ∧
        ∀ s', Ext conv (castArgs conv (v :: vs) s).2.2 s' →
          (castArgs conv (v :: vs) s).2.1.map s'.ty = (v :: vs).map (fun v => orSame conv (s.ty v)) ∧
          ∀ op ∈ (castArgs conv (v :: vs) s).1, lowerOp conv op s' = ([op], s') ∧
            ∀ decl result, FitsNative conv s'.ty decl result op := by
      intro hf he
      obtain ⟨h1, h2, h2', h3⟩ := ih s hvs
      rw [he]
      refine ⟨h1, h2, h2', fun s' hx => ?_⟩
      obtain ⟨h4, h5⟩ := h3 s' hx
      refine ⟨?_, h5⟩
      simp only [List.map_cons, h4, hf, (h1.trans hx).2.2 v hv0 hf]
    cases hc : conv (s.ty v) with
    | none => exact keep (by simp [orSame, hc]) (by simp only [castArgs, hc])
    | some t =>
      by_cases ht : t = s.ty v
      · exact keep (by simp [orSame, hc, ht])
          (by simp only [castArgs, hc, ht, ne_eq, not_true_eq_false, if_false])
      · have hcv : orSame conv (s.ty v) = t := by simp [orSame, hc]
        have htf : orSame conv t = t := by rw [← hcv]; exact hs.again (s.ty v)
        have he : castArgs conv (v :: vs) s =
            (.cast v t s.next :: (castArgs conv vs { (s.set s.next t) with next := s.next + 1 }).1,
              s.next :: (castArgs conv vs { (s.set s.next t) with next := s.next + 1 }).2.1,
              (castArgs conv vs { (s.set s.next t) with next := s.next + 1 }).2.2) := by
          simp only [castArgs, hc, ne_eq, ht, not_false_eq_true, if_true]
        rw [he]
        have hold : ∀ x < s.next, (s.set s.next t).ty x = s.ty x := by
          intro x hx
          have : x ≠ s.next := by omega
          simp [St.set, this]
        have hnew : (s.set s.next t).ty s.next = t := by simp [St.set]
        have hx0 : Ext conv s { (s.set s.next t) with next := s.next + 1 } :=
          ⟨by simp only; omega, fun x hx => by simp only [hold x hx], fun x hx _ => hold x hx⟩
        generalize hs₁ : ({ (s.set s.next t) with next := s.next + 1 } : St) = s₁ at *
        have hn₁ : s₁.next = s.next + 1 := by rw [← hs₁]
        have hty₁ : s₁.ty = (s.set s.next t).ty := by rw [← hs₁]
        obtain ⟨h1, h2, h2', h3⟩ := ih s₁ (fun x hx => by have := hvs x hx; omega)
        refine ⟨hx0.trans h1, by simpa [Op.recordedSig] using h2, ?_, fun s' hx => ?_⟩
        · intro op hop
          rcases List.mem_cons.1 hop with rfl | hop
          · rfl
          · exact h2' op hop
        obtain ⟨h4, h5⟩ := h3 s' hx
        have hr : s'.ty s.next = t := by
          rw [(h1.trans hx).2.2 s.next (by omega) (by rw [hty₁, hnew]; exact htf), hty₁, hnew]
        refine ⟨?_, ?_⟩
        · simp only [List.map_cons, hr, h4, hcv]
          congr 1
          apply List.map_congr_left
          intro x hx
          rw [hty₁, hold x (hvs x hx)]
        · intro op hop
          rcases List.mem_cons.1 hop with rfl | hop
          · refine ⟨rfl, fun decl result => ⟨hr, ?_⟩⟩
            have := ((hx0.trans h1).trans hx).2.1 v hv0
            rw [hcv] at this
            exact this
          · exact h5 op hop

/-- Operands that are converted already. -/
theorem castArgs_fixed (args : List Nat) : ∀ s : St, (∀ v ∈ args, orSame conv (s.ty v) = s.ty v) →
    castArgs conv args s = ([], args, s) := by
  induction args with
  | nil => intro s _; rfl
  | cons v vs ih =>
    intro s h
    have hv := h v (List.mem_cons_self ..)
    have := ih s (fun x hx => h x (List.mem_cons_of_mem _ hx))
    simp only [castArgs, this]
    unfold orSame at hv
    cases hc : conv (s.ty v) with
    | none => rfl
    | some t =>
      rw [hc] at hv
      simp only [Option.getD_some] at hv
      simp [hv]

theorem map_fixed (hs : Sound conv) {l l' : List Nat} {s s' : St}
    (h : l.map s'.ty = l'.map (fun v => orSame conv (s.ty v))) :
    ∀ v ∈ l, orSame conv (s'.ty v) = s'.ty v := by
  intro v hv
  have : s'.ty v ∈ l.map s'.ty := List.mem_map.2 ⟨v, hv, rfl⟩
  rw [h] at this
  obtain ⟨x, -, hx⟩ := List.mem_map.1 this
  rw [← hx]
  exact hs.again (s.ty x)

/-- What is known of a lowered operation. -/
structure OpGood (conv : Ty → Option Ty) (s₀ s : St) (decl decl' : String → Option (List Ty × Ty))
    (result : Ty) (op : Op) : Prop where
  ext : Ext conv s (lowerOp conv op s).2
  sigs : (lowerOp conv op s).1.filterMap Op.recordedSig =
    [op].filterMap (Op.indirectSig conv s₀.ty)
  legal : ∀ o ∈ (lowerOp conv op s).1, o.illegal = false
  stable : ∀ s', Ext conv (lowerOp conv op s).2 s' → ∀ o ∈ (lowerOp conv op s).1,
    (lowerOp conv o s' = ([o], s')) ∧
    (TailFixed conv s₀.ty op → FitsNative conv s'.ty decl' (orSame conv result) o)

theorem map_ext {s₀ s : St} (h : Ext conv s₀ s) {args : List Nat} (ha : ∀ v ∈ args, v < s₀.next) :
    args.map (fun v => orSame conv (s.ty v)) = (args.map s₀.ty).map (orSame conv) := by
  rw [List.map_map]
  exact List.map_congr_left fun v hv => h.2.1 v (ha v hv)

theorem lowerOp_good (hs : Sound conv) (s₀ s : St) (decl decl' : String → Option (List Ty × Ty))
    (hd : ∀ f, decl' f = (decl f).map fun p => (p.1.map (orSame conv), orSame conv p.2))
    (result : Ty) (op : Op) (hx : Ext conv s₀ s) (hv : ∀ v ∈ op.ids, v < s₀.next)
    (hf : Fits conv s₀.ty decl result op) : OpGood conv s₀ s decl decl' result op := by
  have lt : ∀ {v}, v < s₀.next → v < s.next := fun h => by have := hx.1; omega
  -- operations that pass on their operands
  have direct : ∀ args : List Nat, (∀ v ∈ args, v < s₀.next) → ∀ mk : List Nat → Op,
      (lowerOp conv op s = ((castArgs conv args s).1 ++ [mk (castArgs conv args s).2.1],
        (castArgs conv args s).2.2)) → (∀ a, (mk a).recordedSig = none) → (∀ a, (mk a).illegal = false) →
      op.indirectSig conv s₀.ty = none →
      (∀ s', Ext conv s₀ s' → ∀ a, a.map s'.ty = (args.map s₀.ty).map (orSame conv) →
        (∀ v ∈ a, orSame conv (s'.ty v) = s'.ty v) →
        lowerOp conv (mk a) s' = ([mk a], s') ∧
        (TailFixed conv s₀.ty op → FitsNative conv s'.ty decl' (orSame conv result) (mk a))) →
      OpGood conv s₀ s decl decl' result op := by
    intro args ha mk he hrec hleg hsig hfit
    obtain ⟨h1, h2, h2', h3⟩ := castArgs_ty hs args s (fun v h => lt (ha v h))
    refine ⟨by rw [he]; exact h1, ?_, ?_, ?_⟩
    · rw [he]
      simp [List.filterMap_append, h2, hrec, hsig]
    · rw [he]
      intro o ho
      rcases List.mem_append.1 ho with ho | ho
      · exact h2' o ho
      · rw [List.mem_singleton.1 ho]; exact hleg _
    · rw [he]
      intro s' hx' o ho
      obtain ⟨h4, h5⟩ := h3 s' hx'
      rcases List.mem_append.1 ho with ho | ho
      · exact ⟨(h5 o ho).1, fun _ => (h5 o ho).2 _ _⟩
      · rw [List.mem_singleton.1 ho]
        exact hfit s' ((hx.trans h1).trans hx') _ (h4.trans (map_ext hx ha)) (map_fixed hs h4)
  have simple : ∀ o : Op, lowerOp conv op s = ([o], s) → o.recordedSig = none → o.illegal = false →
      op.indirectSig conv s₀.ty = none →
      (∀ s', Ext conv s₀ s' → lowerOp conv o s' = ([o], s') ∧
        FitsNative conv s'.ty decl' (orSame conv result) o) →
      OpGood conv s₀ s decl decl' result op := by
    intro o he hrec hleg hsig hfit
    refine ⟨by rw [he]; exact Ext.refl _, by rw [he]; simp [hrec, hsig], ?_, ?_⟩
    · rw [he]
      intro o' ho
      rw [List.mem_singleton.1 ho]; exact hleg
    · rw [he]
      intro s' hx' o' ho
      rw [List.mem_singleton.1 ho]
      exact ⟨(hfit s' (hx.trans hx')).1, fun _ => (hfit s' (hx.trans hx')).2⟩
  cases op with
  | call f args r =>
    have hr : r < s₀.next := hv r (by simp [Op.ids])
    refine direct args (fun v h => hv v (by simp [Op.ids, h])) (fun a => .clifCall f a r) rfl
      (fun _ => rfl) (fun _ => rfl) rfl fun s' hx' a ha _ => ⟨rfl, fun _ => ?_⟩
    simp only [Fits] at hf
    simp only [FitsNative, hd, hf, Option.map_some, ha]
    rw [← hx'.2.1 r hr]
    rfl
  | callIndirect c args r =>
    have hr : r < s₀.next := hv r (by simp [Op.ids])
    have hc : ∀ v ∈ c :: args, v < s₀.next := fun v h => hv v (by
      simp only [Op.ids]; exact List.mem_cons_of_mem _ h)
    obtain ⟨h1, h2, h2', h3⟩ := castArgs_ty hs (c :: args) s (fun v h => lt (hc v h))
    obtain ⟨c', args', hq⟩ := castArgs_cons conv c args s
    have hm : ∀ s', Ext conv (castArgs conv (c :: args) s).2.2 s' →
        args'.map s'.ty = (args.map s₀.ty).map (orSame conv) := by
      intro s' hx'
      have h4 := (h3 s' hx').1
      rw [hq, map_ext hx hc] at h4
      simp only [List.map_cons, List.cons.injEq] at h4
      exact h4.2
    have hq0 := hm _ (Ext.refl _)
    have hrr : orSame conv ((castArgs conv (c :: args) s).2.2.ty r) = orSame conv (s₀.ty r) :=
      (hx.trans h1).2.1 r hr
    refine ⟨h1, ?_, ?_, ?_⟩
    · simp only [lowerOp, List.filterMap_append, h2, hq, List.tail_cons, List.nil_append,
        List.filterMap_cons, List.filterMap_nil, Op.recordedSig, Op.indirectSig, hq0, hrr,
        List.map_map]
      rfl
    · simp only [lowerOp]
      intro o ho
      rcases List.mem_append.1 ho with ho | ho
      · exact h2' o ho
      · rw [List.mem_singleton.1 ho]; rfl
    · simp only [lowerOp]
      intro s' hx' o ho
      rcases List.mem_append.1 ho with ho | ho
      · exact ⟨((h3 s' hx').2 o ho).1, fun _ => ((h3 s' hx').2 o ho).2 _ _⟩
      · rw [List.mem_singleton.1 ho]
        refine ⟨rfl, fun _ => ?_⟩
        simp only [FitsNative, hq, List.tail_cons, hq0, hm s' hx', hrr]
        rw [← ((hx.trans h1).trans hx').2.1 r hr]
        rfl
  | tailCall f args =>
    refine direct args hv (fun a => .returnCall f a) rfl (fun _ => rfl) (fun _ => rfl) rfl
      fun s' hx' a ha _ => ⟨rfl, fun _ => ?_⟩
    simp only [Fits] at hf
    simp only [FitsNative, hd, hf, Option.map_some, ha]
  | tailCallIndirect cc sig c args =>
    obtain ⟨rfl, rfl⟩ := hf
    have hca : ∀ v ∈ args, v < s₀.next := fun v h => hv v (by simp [Op.ids, h])
    refine direct (c :: args) hv (fun a => .returnCallIndirect (args.map s₀.ty, .nil) (a.headD c) a.tail)
      rfl (fun _ => rfl) (fun _ => rfl) rfl fun s' hx' a ha _ => ⟨rfl, fun ht => ?_⟩
    cases a with
    | nil => simp at ha
    | cons a0 a =>
      simp only [List.map_cons, List.cons.injEq] at ha
      simp only [FitsNative, List.tail_cons, ha.2, List.map_map]
      congr 1
      exact List.map_congr_left fun v hv => (ht v hv).symm
  | ret vs =>
    refine direct vs hv (fun a => .clifReturn a) rfl (fun _ => rfl) (fun _ => rfl) rfl
      fun s' hx' a ha _ => ⟨rfl, fun _ => ?_⟩
    simp only [Fits] at hf
    simp only [FitsNative, ha, hf, returned]
    have hn := hs.nil result
    by_cases hr : result = .nil
    · have : orSame conv result = .nil := hn.2 hr
      rw [if_pos hr, if_pos this]; rfl
    · have : ¬ orSame conv result = .nil := fun h => hr (hn.1 h)
      rw [if_neg hr, if_neg this]; rfl
  | unreachable => exact simple .trap rfl rfl rfl rfl fun s' _ => ⟨rfl, trivial⟩
  | constant f r =>
    have hr : r < s₀.next := hv r (by simp [Op.ids])
    have hp : orSame conv (s₀.ty r) = .ptr := hf
    have hpf : orSame conv .ptr = .ptr := by rw [← hp]; exact hs.again (s₀.ty r)
    have hsr : orSame conv (s.ty r) = .ptr := by rw [hx.2.1 r hr, hp]
    have hset : (s.set r .ptr).ty r = .ptr := by simp [St.set]
    have he : Ext conv s (s.set r .ptr) := by
      refine ⟨Nat.le_refl _, fun v _ => ?_, fun v _ h => ?_⟩
      · by_cases hvr : v = r
        · subst hvr; rw [hset, hsr, hpf]
        · simp [St.set, hvr]
      · by_cases hvr : v = r
        · subst hvr; rw [hset, ← h, hsr]
        · simp [St.set, hvr]
    refine ⟨he, rfl, ?_, ?_⟩
    · intro o ho
      rw [List.mem_singleton.1 ho]; rfl
    · intro s' hx' o ho
      rw [List.mem_singleton.1 ho]
      refine ⟨rfl, fun _ => ?_⟩
      simp only [FitsNative]
      have := hx'.2.2 r (lt hr)
      simp only [lowerOp] at this
      rw [this (by rw [hset]; exact hpf), hset]
  | cast v t r =>
    have hr : r < s₀.next := hv r (by simp [Op.ids])
    have hv' : v < s₀.next := hv v (by simp [Op.ids])
    obtain ⟨f1, f2, f3⟩ := hf
    refine simple (.cast v t r) rfl rfl rfl rfl fun s' hx' => ⟨rfl, ?_, ?_⟩
    · rw [hx'.2.2 r hr (by rw [f1]; exact f3), f1]
    · exact (hx'.2.1 v hv').trans f2
  | other k args rs =>
    refine direct args (fun v h => hv v (by simp [Op.ids, h])) (fun a => .other k a rs) rfl
      (fun _ => rfl) (fun _ => rfl) rfl fun s' hx' a ha hfx => ⟨?_, fun _ => hfx⟩
    simp only [lowerOp, castArgs_fixed a s' hfx, List.nil_append]
  | clifCall => exact hf.elim
  | clifCallIndirect => exact hf.elim
  | returnCall => exact hf.elim
  | returnCallIndirect => exact hf.elim
  | clifReturn => exact hf.elim
  | trap => exact hf.elim
  | symbolAddr => exact hf.elim

end Verif.NativeCall
