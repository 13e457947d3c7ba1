import Verif.NativeCall.Spec

namespace Verif.NativeCall

variable {conv : Ty → Option Ty}

/-! ### What operations do -/

theorem castArgs_trace (conv : Ty → Option Ty) (n₀ : Nat) (args : List Nat) :
    ∀ (s : St) (al : Nat → Nat), n₀ ≤ s.next → (∀ v ∈ args, v < n₀) →
    s.next ≤ (castArgs conv args s).2.2.next ∧
    ∃ al' : Nat → Nat, (∀ x < s.next, al' x = al x) ∧
      (castArgs conv args s).2.1.map al' = args.map al ∧
      ∀ rest, trace ((castArgs conv args s).1 ++ rest) al = trace rest al' := by
  induction args with
  | nil => intro s al _ _; exact ⟨Nat.le_refl _, al, fun _ _ => rfl, rfl, fun _ => rfl⟩
  | cons v vs ih =>
    intro s al hn hv
    have hvs : ∀ x ∈ vs, x < n₀ := fun x hx => hv x (List.mem_cons_of_mem _ hx)
    have hv0 : v < n₀ := hv v (List.mem_cons_self ..)
    have keep : castArgs conv (v :: vs) s = ((castArgs conv vs s).1, v :: (castArgs conv vs s).2.1,
        (castArgs conv vs s).2.2) →
        s.next ≤ (castArgs conv (v :: vs) s).2.2.next ∧
        ∃ al' : Nat → Nat, (∀ x < s.next, al' x = al x) ∧
          (castArgs conv (v :: vs) s).2.1.map al' = (v :: vs).map al ∧
          ∀ rest, trace ((castArgs conv (v :: vs) s).1 ++ rest) al = trace rest al' := by
      intro he
      obtain ⟨h1, al', h2, h3, h4⟩ := ih s al hn hvs
      rw [he]
      refine ⟨h1, al', h2, ?_, h4⟩
      simp only [List.map_cons, h3, h2 v (by omega)]
    cases hc : conv (s.ty v) with
    | none => exact keep (by simp only [castArgs, hc])
    | some t =>
      by_cases ht : t = s.ty v
      · exact keep (by simp only [castArgs, hc, ht, ne_eq, not_true_eq_false, if_false])
      · have he : castArgs conv (v :: vs) s =
            (.cast v t s.next :: (castArgs conv vs { (s.set s.next t) with next := s.next + 1 }).1,
              s.next :: (castArgs conv vs { (s.set s.next t) with next := s.next + 1 }).2.1,
              (castArgs conv vs { (s.set s.next t) with next := s.next + 1 }).2.2) := by
          simp only [castArgs, hc, ne_eq, ht, not_false_eq_true, if_true]
        obtain ⟨h1, al', h2, h3, h4⟩ := ih { (s.set s.next t) with next := s.next + 1 }
          (fun x => if x = s.next then al v else al x) (by simp only; omega) hvs
        simp only at h1 h2
        rw [he]
        refine ⟨by simp only; omega, al', ?_, ?_, ?_⟩
        · intro x hx
          rw [h2 x (by omega)]
          have : x ≠ s.next := by omega
          simp [this]
        · simp only [List.map_cons, h3, h2 s.next (by omega), if_true]
          congr 1
          apply List.map_congr_left
          intro x hx
          have := hvs x hx
          have : x ≠ s.next := by omega
          simp [this]
        · intro rest
          simp only [List.cons_append, trace]
          exact h4 rest

theorem map_al {al al' : Nat → Nat} {n : Nat} {l : List Nat} (h : ∀ x < n, al' x = al x)
    (hl : ∀ v ∈ l, v < n) : l.map al' = l.map al :=
  List.map_congr_left fun v hv => h v (hl v hv)

theorem castArgs_cons (conv : Ty → Option Ty) (c : Nat) (args : List Nat) (s : St) :
    ∃ c' args', (castArgs conv (c :: args) s).2.1 = c' :: args' := by
  simp only [castArgs]
  split
  · split
    · exact ⟨_, _, rfl⟩
    · exact ⟨_, _, rfl⟩
  · exact ⟨_, _, rfl⟩

/-- An operation followed by others. -/
theorem lowerOp_trace (conv : Ty → Option Ty) (n₀ : Nat) (op : Op) (s : St) (al₀ al : Nat → Nat)
    (hn : n₀ ≤ s.next) (hv : ∀ v ∈ op.ids, v < n₀) (hal : ∀ x < n₀, al x = al₀ x)
    (ops rest : List Op)
    (hrest : ∀ al al₀ : Nat → Nat, (∀ x < n₀, al x = al₀ x) → trace rest al = trace ops al₀) :
    s.next ≤ (lowerOp conv op s).2.next ∧
    trace ((lowerOp conv op s).1 ++ rest) al = trace (op :: ops) al₀ := by
  have direct : ∀ args : List Nat, (∀ v ∈ args, v < n₀) → ∀ mk : List Nat → Op, ∀ ev : List Nat → Event,
      (∀ a l al, trace (mk a :: l) al = ev (a.map al) :: trace l al) →
      trace ((castArgs conv args s).1 ++ mk (castArgs conv args s).2.1 :: rest) al =
        ev (args.map al₀) :: trace ops al₀ := by
    intro args ha mk ev hm
    obtain ⟨-, al', h1, h2, h3⟩ := castArgs_trace conv n₀ args s al hn ha
    rw [h3, hm, h2, map_al hal ha]
    congr 1
    exact hrest _ _ fun x hx => by rw [h1 x (by omega), hal x hx]
  have indirect : ∀ (c : Nat) (args : List Nat), c < n₀ → (∀ v ∈ args, v < n₀) →
      ∀ mk : Nat → List Nat → Op, ∀ ev : Nat → List Nat → Event,
      (∀ c a l al, trace (mk c a :: l) al = ev (al c) (a.map al) :: trace l al) →
      trace ((castArgs conv (c :: args) s).1 ++ mk ((castArgs conv (c :: args) s).2.1.headD c)
        (castArgs conv (c :: args) s).2.1.tail :: rest) al =
        ev (al₀ c) (args.map al₀) :: trace ops al₀ := by
    intro c args hc ha mk ev hm
    have hca : ∀ v ∈ c :: args, v < n₀ := by
      intro v hv
      rcases List.mem_cons.1 hv with rfl | hv
      · exact hc
      · exact ha v hv
    obtain ⟨-, al', h1, h2, h3⟩ := castArgs_trace conv n₀ (c :: args) s al hn hca
    obtain ⟨c', args', hq⟩ := castArgs_cons conv c args s
    rw [hq] at h2
    simp only [List.map_cons, List.cons.injEq] at h2
    rw [h3, hq]
    simp only [List.headD_cons, List.tail_cons]
    rw [hm, h2.1, h2.2, map_al hal ha, hal c hc]
    congr 1
    exact hrest _ _ fun x hx => by rw [h1 x (by omega), hal x hx]
  have next : ∀ args : List Nat, (∀ v ∈ args, v < n₀) → s.next ≤ (castArgs conv args s).2.2.next :=
    fun args ha => (castArgs_trace conv n₀ args s al hn ha).1
  cases op with
  | call f args r =>
    have ha : ∀ v ∈ args, v < n₀ := fun v h => hv v (List.mem_cons_of_mem _ h)
    refine ⟨next _ ha, ?_⟩
    simp only [lowerOp, List.append_assoc, List.singleton_append]
    exact direct args ha (fun a => .clifCall f a r) (fun a => .call f a r) (fun _ _ _ => rfl)
  | callIndirect c args r =>
    have hc : c < n₀ := hv c (by simp [Op.ids])
    have ha : ∀ v ∈ args, v < n₀ := fun v h => hv v (by simp [Op.ids, h])
    refine ⟨next _ fun v h => hv v (by simp only [Op.ids]; exact List.mem_cons_of_mem _ h), ?_⟩
    simp only [lowerOp, List.append_assoc, List.singleton_append]
    exact indirect c args hc ha (fun c a => .clifCallIndirect _ c a r) (fun c a => .indirect c a r)
      (fun _ _ _ _ => rfl)
  | tailCall f args =>
    refine ⟨next _ hv, ?_⟩
    simp only [lowerOp, List.append_assoc, List.singleton_append]
    exact direct args hv (fun a => .returnCall f a) (fun a => .tail f a) (fun _ _ _ => rfl)
  | tailCallIndirect cc sig c args =>
    have hc : c < n₀ := hv c (by simp [Op.ids])
    have ha : ∀ v ∈ args, v < n₀ := fun v h => hv v (by simp [Op.ids, h])
    have hk := indirect c args hc ha (fun c a => .tailCallIndirect cc sig c a)
      (fun c a => .tailIndirect c a) (fun _ _ _ _ => rfl)
    have hnx := next (c :: args) hv
    simp only [lowerOp]
    split
    · refine ⟨hnx, ?_⟩
      simp only [List.append_assoc, List.singleton_append]; exact hk
    · split
      · refine ⟨hnx, ?_⟩
        simp only [List.append_assoc, List.singleton_append]; exact hk
      · split
        · refine ⟨hnx, ?_⟩
          simp only [List.append_assoc, List.singleton_append]; exact hk
        · refine ⟨hnx, ?_⟩
          simp only [List.append_assoc, List.singleton_append]
          exact indirect c args hc ha (fun c a => .returnCallIndirect _ c a)
            (fun c a => .tailIndirect c a) (fun _ _ _ _ => rfl)
  | ret vs =>
    refine ⟨next _ hv, ?_⟩
    simp only [lowerOp, List.append_assoc, List.singleton_append]
    exact direct vs hv (fun a => .clifReturn a) (fun a => .ret a) (fun _ _ _ => rfl)
  | unreachable =>
    refine ⟨Nat.le_refl _, ?_⟩
    simp only [lowerOp, List.singleton_append, trace]
    rw [hrest al al₀ hal]
  | constant f r =>
    refine ⟨Nat.le_refl _, ?_⟩
    simp only [lowerOp, List.singleton_append, trace]
    rw [hrest al al₀ hal]
  | cast v t r =>
    refine ⟨Nat.le_refl _, ?_⟩
    simp only [lowerOp, List.singleton_append, trace]
    refine hrest _ _ fun x hx => ?_
    beta_reduce
    rw [hal v (hv v (by simp [Op.ids])), hal x hx]
  | clifCall f args r =>
    refine ⟨Nat.le_refl _, ?_⟩
    simp only [lowerOp, List.singleton_append, trace]
    rw [hrest al al₀ hal, map_al hal fun v h => hv v (by simp [Op.ids, h])]
  | clifCallIndirect sig c args r =>
    refine ⟨Nat.le_refl _, ?_⟩
    simp only [lowerOp, List.singleton_append, trace]
    rw [hrest al al₀ hal, map_al hal fun v h => hv v (by simp [Op.ids, h]),
      hal c (hv c (by simp [Op.ids]))]
  | returnCall f args =>
    refine ⟨Nat.le_refl _, ?_⟩
    simp only [lowerOp, List.singleton_append, trace]
    rw [hrest al al₀ hal, map_al hal fun v h => hv v (by simp [Op.ids, h])]
  | returnCallIndirect sig c args =>
    refine ⟨Nat.le_refl _, ?_⟩
    simp only [lowerOp, List.singleton_append, trace]
    rw [hrest al al₀ hal, map_al hal fun v h => hv v (by simp [Op.ids, h]),
      hal c (hv c (by simp [Op.ids]))]
  | clifReturn vs =>
    refine ⟨Nat.le_refl _, ?_⟩
    simp only [lowerOp, List.singleton_append, trace]
    rw [hrest al al₀ hal, map_al hal fun v h => hv v (by simp [Op.ids, h])]
  | trap =>
    refine ⟨Nat.le_refl _, ?_⟩
    simp only [lowerOp, List.singleton_append, trace]
    rw [hrest al al₀ hal]
  | symbolAddr f r =>
    refine ⟨Nat.le_refl _, ?_⟩
    simp only [lowerOp, List.singleton_append, trace]
    rw [hrest al al₀ hal]
  | other k args rs =>
    have ha : ∀ v ∈ args, v < n₀ := fun v h => hv v (by simp [Op.ids, h])
    refine ⟨next _ ha, ?_⟩
    simp only [lowerOp, List.append_assoc, List.singleton_append]
    exact direct args ha (fun a => .other k a rs) (fun a => .other k a rs) (fun _ _ _ => rfl)

theorem lowerOp_next (conv : Ty → Option Ty) (n₀ : Nat) (op : Op) (s : St)
    (hn : n₀ ≤ s.next) (hv : ∀ v ∈ op.ids, v < n₀) : s.next ≤ (lowerOp conv op s).2.next :=
  (lowerOp_trace conv n₀ op s (fun _ => 0) (fun _ => 0) hn hv (fun _ _ => rfl) [] []
    (fun _ _ _ => rfl)).1

theorem lowerOps_trace (conv : Ty → Option Ty) (n₀ : Nat) (ops : List Op) :
    ∀ (s : St), n₀ ≤ s.next → (∀ op ∈ ops, ∀ v ∈ op.ids, v < n₀) →
    s.next ≤ (lowerOps conv ops s).2.next ∧
    ∀ al al₀ : Nat → Nat, (∀ x < n₀, al x = al₀ x) →
      trace (lowerOps conv ops s).1 al = trace ops al₀ := by
  induction ops with
  | nil => intro s _ _; exact ⟨Nat.le_refl _, fun _ _ _ => rfl⟩
  | cons op ops ih =>
    intro s hn hv
    have h1 := lowerOp_next conv n₀ op s hn (hv op (List.mem_cons_self ..))
    obtain ⟨h2, h3⟩ := ih (lowerOp conv op s).2 (by omega)
      (fun o ho => hv o (List.mem_cons_of_mem _ ho))
    refine ⟨by simp only [lowerOps]; omega, fun al al₀ hal => ?_⟩
    simp only [lowerOps]
    exact (lowerOp_trace conv n₀ op s al₀ al hn (hv op (List.mem_cons_self ..)) hal ops _ h3).2

theorem convertArgs_next (conv : Ty → Option Ty) (vs : List Nat) : ∀ s : St,
    (convertArgs conv vs s).next = s.next := by
  induction vs with
  | nil => intro s; rfl
  | cons v vs ih =>
    intro s
    simp only [convertArgs]
    rw [ih]
    split
    · split <;> rfl
    · rfl

theorem lowerBlocks_trace (conv : Ty → Option Ty) (n₀ : Nat) (bs : List Block) :
    ∀ (s : St), n₀ ≤ s.next → (∀ b ∈ bs, ∀ op ∈ b.ops, ∀ v ∈ op.ids, v < n₀) →
    s.next ≤ (lowerBlocks conv bs s).2.next ∧
    (lowerBlocks conv bs s).1.map (fun b => (b.args, trace b.ops id)) =
      bs.map (fun b => (b.args, trace b.ops id)) := by
  induction bs with
  | nil => intro s _ _; exact ⟨Nat.le_refl _, rfl⟩
  | cons b bs ih =>
    intro s hn hv
    obtain ⟨h1, h2⟩ := lowerOps_trace conv n₀ b.ops (convertArgs conv b.args s)
      (by rw [convertArgs_next]; exact hn) (hv b (List.mem_cons_self ..))
    rw [convertArgs_next] at h1
    obtain ⟨h3, h4⟩ := ih (lowerBlock conv b s).2 (by simp only [lowerBlock]; omega)
      (fun o ho => hv o (List.mem_cons_of_mem _ ho))
    refine ⟨by simp only [lowerBlocks]; simp only [lowerBlock] at h3 ⊢; omega, ?_⟩
    simp only [lowerBlocks, List.map_cons, h4]
    congr 1
    simp only [lowerBlock]
    rw [h2 id id (fun _ _ => rfl)]

theorem lowerFunc_eq (conv : Ty → Option Ty) (f : Func) (s : St) :
    (lowerFunc conv f s).2 = (lowerBlocks conv f.blocks s).2 ∧
    (lowerFunc conv f s).1.blocks = (lowerBlocks conv f.blocks s).1 ∧
    (lowerFunc conv f s).1.name = f.name ∧ (lowerFunc conv f s).1.clif = true ∧
    (f.clif = false → (lowerFunc conv f s).1.ty = lowerFnTy conv f.ty) := by
  unfold lowerFunc
  cases h : f.clif <;> simp [h]

theorem lowerFuncs_trace (conv : Ty → Option Ty) (n₀ : Nat) (fs : List Func) :
    ∀ (s : St), n₀ ≤ s.next → Below n₀ fs →
    s.next ≤ (lowerFuncs conv fs s).2.next ∧
    behaviour (lowerFuncs conv fs s).1 = behaviour fs := by
  induction fs with
  | nil => intro s _ _; exact ⟨Nat.le_refl _, rfl⟩
  | cons f fs ih =>
    intro s hn hv
    obtain ⟨e1, e2, e3, -, -⟩ := lowerFunc_eq conv f s
    obtain ⟨h1, h2⟩ := lowerBlocks_trace conv n₀ f.blocks s hn
      (fun b hb => (hv f (List.mem_cons_self ..) b hb).2)
    rw [← e1] at h1
    rw [← e2] at h2
    obtain ⟨h3, h4⟩ := ih (lowerFunc conv f s).2 (by omega)
      (fun g hg => hv g (List.mem_cons_of_mem _ hg))
    refine ⟨by simp only [lowerFuncs]; omega, ?_⟩
    unfold behaviour at h4 ⊢
    simp only [lowerFuncs, List.map_cons, h4, h2, e3]

end Verif.NativeCall
