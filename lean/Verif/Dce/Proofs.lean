import Verif.Dce.Spec
namespace Verif.Dce

variable {pure : OpName → Bool} {D : Value → Prop}

mutual
theorem shrunkOps_refl : ∀ os, ShrunkOps pure D os os
  | .nil => .nil
  | .cons (.mk _ rs) os => .keep (shrunkRegions_refl rs) (shrunkOps_refl os)
theorem shrunkBlocks_refl : ∀ bs, ShrunkBlocks pure D bs bs
  | .nil => .nil
  | .cons _ os bs => .cons (shrunkOps_refl os) (shrunkBlocks_refl bs)
theorem shrunkRegions_refl : ∀ rs, ShrunkRegions pure D rs rs
  | .nil => .nil
  | .cons bs rs => .cons (shrunkBlocks_refl bs) (shrunkRegions_refl rs)
end

mutual
theorem shrunkOps_trans : ∀ {a b c}, ShrunkOps pure D a b → ShrunkOps pure D b c →
    ShrunkOps pure D a c
  | _, _, _, .nil, h => h
  | _, _, _, .drop hp hd h1, h => .drop hp hd (shrunkOps_trans h1 h)
  | _, _, _, .keep _ h2, .drop hp hd h3 => .drop hp hd (shrunkOps_trans h2 h3)
  | _, _, _, .keep h1 h2, .keep h3 h4 => .keep (shrunkRegions_trans h1 h3) (shrunkOps_trans h2 h4)
theorem shrunkBlocks_trans : ∀ {a b c}, ShrunkBlocks pure D a b → ShrunkBlocks pure D b c →
    ShrunkBlocks pure D a c
  | _, _, _, .nil, h => h
  | _, _, _, .cons h1 h2, .cons h3 h4 => .cons (shrunkOps_trans h1 h3) (shrunkBlocks_trans h2 h4)
theorem shrunkRegions_trans : ∀ {a b c}, ShrunkRegions pure D a b → ShrunkRegions pure D b c →
    ShrunkRegions pure D a c
  | _, _, _, .nil, h => h
  | _, _, _, .cons h1 h2, .cons h3 h4 =>
    .cons (shrunkBlocks_trans h1 h3) (shrunkRegions_trans h2 h4)
end

theorem isDead_iff (u : Uses) (h : Head) (rs : Regions) :
    isDead pure u (.mk h rs) = true ↔ pure h.name = true ∧ ∀ r ∈ h.results, u r = 0 := by
  obtain ⟨name, operands, succs, results⟩ := h
  show isDead pure u _ = true ↔ pure name = true ∧ ∀ r ∈ results, u r = 0
  unfold isDead
  cases hp : pure name
  · simp [hp]
  · cases results <;> simp [hp]

/-- Uses only shrink. -/
theorem sweepRev_le (u : Uses) : ∀ os v, (sweepRev pure u os).uses v ≤ u v
  | .nil, v => Nat.le_refl _
  | .cons o os, v => by
    have ih := sweepRev_le u os v
    simp only [sweepRev]
    split
    · exact Nat.le_trans (Nat.sub_le _ _) ih
    · exact ih

mutual
theorem sweepRegions_le (rec : Bool) : ∀ rs u v, (sweepRegions pure rec u rs).uses v ≤ u v
  | .nil, u, v => Nat.le_refl _
  | .cons bs rs, u, v => by
    simp only [sweepRegions]
    exact Nat.le_trans (sweepRegions_le rec rs _ v) (sweepBlocks_le rec bs u v)
theorem sweepBlocks_le (rec : Bool) : ∀ bs u v, (sweepBlocks pure rec u bs).uses v ≤ u v
  | .nil, u, v => Nat.le_refl _
  | .cons ps os bs, u, v => by
    simp only [sweepBlocks]
    exact Nat.le_trans (sweepBlocks_le rec bs _ v)
      (Nat.le_trans (sweepRev_le _ _ v) (sweepNested_le rec os u v))
theorem sweepNested_le (rec : Bool) : ∀ os u v, (sweepNested pure rec u os).uses v ≤ u v
  | .nil, u, v => Nat.le_refl _
  | .cons (.mk h rs) os, u, v => by
    simp only [sweepNested]
    split
    · exact Nat.le_trans (sweepNested_le rec os _ v) (sweepRegions_le rec rs u v)
    · exact sweepNested_le rec os u v
end

/-- Only dead operations are dropped. -/
theorem sweepRev_shrunk (u : Uses) : ∀ os,
    (∀ v, (sweepRev pure u os).uses v = 0 → D v) → ShrunkOps pure D os (sweepRev pure u os).tree
  | .nil, _ => .nil
  | .cons (.mk h rs) os, hD => by
    simp only [sweepRev] at hD ⊢
    split at hD
    · rename_i hdead
      rw [if_pos hdead]
      rw [isDead_iff] at hdead
      refine .drop hdead.1 (fun v hv => hD v ?_) (sweepRev_shrunk u os fun v hv => hD v ?_)
      · show _ - _ = 0
        rw [hdead.2 v hv]; simp
      · show _ - _ = 0
        rw [hv]; simp
    · rename_i hdead
      rw [if_neg hdead]
      exact .keep (shrunkRegions_refl rs) (sweepRev_shrunk u os hD)

mutual
theorem sweepRegions_shrunk (rec : Bool) : ∀ rs u,
    (∀ v, (sweepRegions pure rec u rs).uses v = 0 → D v) →
    ShrunkRegions pure D rs (sweepRegions pure rec u rs).tree
  | .nil, u, _ => .nil
  | .cons bs rs, u, hD => by
    simp only [sweepRegions] at hD ⊢
    refine .cons (sweepBlocks_shrunk rec bs u fun v hv => hD v ?_) (sweepRegions_shrunk rec rs _ hD)
    have := sweepRegions_le (pure := pure) rec rs (sweepBlocks pure rec u bs).uses v
    omega
theorem sweepBlocks_shrunk (rec : Bool) : ∀ bs u,
    (∀ v, (sweepBlocks pure rec u bs).uses v = 0 → D v) →
    ShrunkBlocks pure D bs (sweepBlocks pure rec u bs).tree
  | .nil, u, _ => .nil
  | .cons ps os bs, u, hD => by
    simp only [sweepBlocks] at hD ⊢
    have h2 : ∀ v, (sweepRev pure (sweepNested pure rec u os).uses
        (sweepNested pure rec u os).tree).uses v = 0 → D v := by
      intro v hv
      apply hD v
      have := sweepBlocks_le (pure := pure) rec bs (sweepRev pure (sweepNested pure rec u os).uses
        (sweepNested pure rec u os).tree).uses v
      omega
    refine .cons (shrunkOps_trans (sweepNested_shrunk rec os u fun v hv => h2 v ?_)
      (sweepRev_shrunk _ _ h2)) (sweepBlocks_shrunk rec bs _ hD)
    have := sweepRev_le (pure := pure) (sweepNested pure rec u os).uses (sweepNested pure rec u os).tree v
    omega
theorem sweepNested_shrunk (rec : Bool) : ∀ os u,
    (∀ v, (sweepNested pure rec u os).uses v = 0 → D v) →
    ShrunkOps pure D os (sweepNested pure rec u os).tree
  | .nil, u, _ => .nil
  | .cons (.mk h rs) os, u, hD => by
    simp only [sweepNested] at hD ⊢
    split at hD
    · rename_i hr
      rw [if_pos hr]
      refine .keep (sweepRegions_shrunk rec rs u fun v hv => hD v ?_)
        (sweepNested_shrunk rec os _ hD)
      show (sweepNested pure rec (sweepRegions pure rec u rs).uses os).uses v = 0
      have := sweepNested_le (pure := pure) rec os (sweepRegions pure rec u rs).uses v
      omega
    · rename_i hr
      rw [if_neg hr]
      exact .keep (shrunkRegions_refl rs) (sweepNested_shrunk rec os u hD)
end

/-- The use chains stay exact. -/
theorem sweepRev_exact (c : Value → Nat) (u : Uses) : ∀ os, (∀ v, u v = c v + os.count v) →
    ∀ v, (sweepRev pure u os).uses v = c v + (sweepRev pure u os).tree.count v
  | .nil, h, v => h v
  | .cons o os, h, v => by
    have ih := sweepRev_exact (fun v => c v + o.count v) u os (by
      intro v; rw [h v]; simp only [Ops.count]; omega)
    simp only [sweepRev]
    split
    · show _ - _ = _
      rw [ih v]; show _ = c v + (sweepRev pure u os).tree.count v; omega
    · rw [ih v]; simp only [Ops.count]; omega

mutual
theorem sweepRegions_exact (rec : Bool) : ∀ rs (c : Value → Nat) (u : Uses),
    (∀ v, u v = c v + rs.count v) →
    ∀ v, (sweepRegions pure rec u rs).uses v = c v + (sweepRegions pure rec u rs).tree.count v
  | .nil, c, u, h, v => h v
  | .cons bs rs, c, u, h, v => by
    simp only [sweepRegions, Regions.count]
    have h1 := sweepBlocks_exact rec bs (fun v => c v + rs.count v) u (by
      intro v; rw [h v]; simp only [Regions.count]; omega)
    have h2 := sweepRegions_exact rec rs (fun v => c v + (sweepBlocks pure rec u bs).tree.count v)
      (sweepBlocks pure rec u bs).uses (by intro v; rw [h1 v]; omega) v
    rw [h2]; omega
theorem sweepBlocks_exact (rec : Bool) : ∀ bs (c : Value → Nat) (u : Uses),
    (∀ v, u v = c v + bs.count v) →
    ∀ v, (sweepBlocks pure rec u bs).uses v = c v + (sweepBlocks pure rec u bs).tree.count v
  | .nil, c, u, h, v => h v
  | .cons ps os bs, c, u, h, v => by
    simp only [sweepBlocks, Blocks.count]
    have h1 := sweepNested_exact rec os (fun v => c v + bs.count v) u (by
      intro v; rw [h v]; simp only [Blocks.count]; omega)
    have h2 := sweepRev_exact (pure := pure) (fun v => c v + bs.count v)
      (sweepNested pure rec u os).uses (sweepNested pure rec u os).tree h1
    have h3 := sweepBlocks_exact rec bs (fun v => c v + (sweepRev pure
      (sweepNested pure rec u os).uses (sweepNested pure rec u os).tree).tree.count v)
      (sweepRev pure (sweepNested pure rec u os).uses (sweepNested pure rec u os).tree).uses
      (by intro v; rw [h2 v]; omega) v
    rw [h3]; omega
theorem sweepNested_exact (rec : Bool) : ∀ os (c : Value → Nat) (u : Uses),
    (∀ v, u v = c v + os.count v) →
    ∀ v, (sweepNested pure rec u os).uses v = c v + (sweepNested pure rec u os).tree.count v
  | .nil, c, u, h, v => h v
  | .cons (.mk hd rs) os, c, u, h, v => by
    simp only [sweepNested]
    split
    · have h1 := sweepRegions_exact rec rs
        (fun v => c v + hd.operands.count v + os.count v) u (by
        intro v; rw [h v]; simp only [Ops.count, Op.count]; omega)
      have h2 := sweepNested_exact rec os
        (fun v => c v + hd.operands.count v + (sweepRegions pure rec u rs).tree.count v)
        (sweepRegions pure rec u rs).uses (by intro v; rw [h1 v]; omega) v
      simp only [Ops.count, Op.count]
      rw [h2]; omega
    · have h2 := sweepNested_exact rec os
        (fun v => c v + hd.operands.count v + rs.count v) u (by
        intro v; rw [h v]; simp only [Ops.count, Op.count]; omega) v
      simp only [Ops.count, Op.count]
      rw [h2]; omega
end

/-- A sweep that removes nothing leaves everything in place, and nothing was dead. -/
theorem sweepRev_zero (u : Uses) : ∀ os, (sweepRev pure u os).removed = 0 →
    (sweepRev pure u os).tree = os ∧ (sweepRev pure u os).uses = u
  | .nil, _ => ⟨rfl, rfl⟩
  | .cons o os, h => by
    have ih := sweepRev_zero u os
    simp only [sweepRev] at h ⊢
    split at h
    · simp at h
    · rename_i hd
      rw [if_neg hd]
      exact ⟨by rw [(ih h).1], (ih h).2⟩

/-- No operation directly in the list is dead. -/
def AliveTop (pure : OpName → Bool) (u : Uses) : Ops → Prop
  | .nil => True
  | .cons o os => isDead pure u o = false ∧ AliveTop pure u os

theorem sweepRev_zero_alive (u : Uses) : ∀ os, (sweepRev pure u os).removed = 0 →
    AliveTop pure u os
  | .nil, _ => trivial
  | .cons o os, h => by
    have hz := sweepRev_zero (pure := pure) u os
    have ih := sweepRev_zero_alive u os
    simp only [sweepRev] at h
    split at h
    · simp at h
    · rename_i hd
      rw [(hz h).2] at hd
      exact ⟨by simpa using hd, ih h⟩

mutual
theorem sweepRegions_zero (rec : Bool) : ∀ rs u, (sweepRegions pure rec u rs).removed = 0 →
    (sweepRegions pure rec u rs).tree = rs ∧ (sweepRegions pure rec u rs).uses = u
  | .nil, _, _ => ⟨rfl, rfl⟩
  | .cons bs rs, u, h => by
    simp only [sweepRegions] at h ⊢
    have h1 := sweepBlocks_zero rec bs u (by omega)
    rw [h1.2] at h ⊢
    have h2 := sweepRegions_zero rec rs u (by omega)
    exact ⟨by rw [h1.1, h2.1], h2.2⟩
theorem sweepBlocks_zero (rec : Bool) : ∀ bs u, (sweepBlocks pure rec u bs).removed = 0 →
    (sweepBlocks pure rec u bs).tree = bs ∧ (sweepBlocks pure rec u bs).uses = u
  | .nil, _, _ => ⟨rfl, rfl⟩
  | .cons ps os bs, u, h => by
    simp only [sweepBlocks] at h ⊢
    have h1 := sweepNested_zero rec os u (by omega)
    rw [h1.1, h1.2] at h ⊢
    have h2 := sweepRev_zero (pure := pure) u os (by omega)
    rw [h2.2] at h ⊢
    have h3 := sweepBlocks_zero rec bs u (by omega)
    exact ⟨by rw [h2.1, h3.1], h3.2⟩
theorem sweepNested_zero (rec : Bool) : ∀ os u, (sweepNested pure rec u os).removed = 0 →
    (sweepNested pure rec u os).tree = os ∧ (sweepNested pure rec u os).uses = u
  | .nil, _, _ => ⟨rfl, rfl⟩
  | .cons (.mk hd rs) os, u, h => by
    simp only [sweepNested] at h ⊢
    split at h
    · rename_i hr
      rw [if_pos hr]
      simp only [] at h ⊢
      have h1 := sweepRegions_zero rec rs u (by omega)
      rw [h1.2] at h ⊢
      have h2 := sweepNested_zero rec os u (by omega)
      exact ⟨by rw [h1.1, h2.1], h2.2⟩
    · rename_i hr
      rw [if_neg hr]
      simp only [] at h ⊢
      have h2 := sweepNested_zero rec os u h
      exact ⟨by rw [h2.1], h2.2⟩
end

/-- Nothing below the operations of the list is dead. -/
def AliveBelow (pure : OpName → Bool) (u : Uses) : Ops → Prop
  | .nil => True
  | .cons o os => ¬ OccursRegions (fun o => isDead pure u o = true) o.regions ∧
    AliveBelow pure u os

theorem alive_occurs {u : Uses} : ∀ os, AliveTop pure u os → AliveBelow pure u os →
    ¬ OccursOps (fun o => isDead pure u o = true) os
  | .nil, _, _, h => h
  | .cons (.mk hd rs) os, h1, h2, h => by
    rcases h with h | h
    · rcases h with h | h
      · rw [h1.1] at h; cases h
      · exact h2.1 h
    · exact alive_occurs os h1.2 h2.2 h

mutual
theorem sweepRegions_alive : ∀ rs u, (sweepRegions pure true u rs).removed = 0 →
    ¬ OccursRegions (fun o => isDead pure u o = true) rs
  | .nil, _, _ => fun h => h
  | .cons bs rs, u, h => by
    simp only [sweepRegions] at h
    have h1 := sweepBlocks_zero (pure := pure) true bs u (by omega)
    rw [h1.2] at h
    rintro (h' | h')
    · exact sweepBlocks_alive bs u (by omega) h'
    · exact sweepRegions_alive rs u (by omega) h'
theorem sweepBlocks_alive : ∀ bs u, (sweepBlocks pure true u bs).removed = 0 →
    ¬ OccursBlocks (fun o => isDead pure u o = true) bs
  | .nil, _, _ => fun h => h
  | .cons ps os bs, u, h => by
    simp only [sweepBlocks] at h
    have h1 := sweepNested_zero (pure := pure) true os u (by omega)
    have h1' := sweepNested_alive os u (by omega)
    rw [h1.1, h1.2] at h
    have h2 := sweepRev_zero (pure := pure) u os (by omega)
    have h2' := sweepRev_zero_alive (pure := pure) u os (by omega)
    rw [h2.2] at h
    rintro (h' | h')
    · exact alive_occurs os h2' h1' h'
    · exact sweepBlocks_alive bs u (by omega) h'
theorem sweepNested_alive : ∀ os u, (sweepNested pure true u os).removed = 0 →
    AliveBelow pure u os
  | .nil, _, _ => trivial
  | .cons (.mk hd rs) os, u, h => by
    simp only [sweepNested, if_true] at h
    have h1 := sweepRegions_zero (pure := pure) true rs u (by omega)
    rw [h1.2] at h
    exact ⟨sweepRegions_alive rs u (by omega), sweepNested_alive os u (by omega)⟩
end


/-! ## The loop -/

theorem loop_spec (rec : Bool) (max : Nat) (c : Value → Nat) : ∀ left rs u total,
    (∀ v, u v = c v + rs.count v) →
    let r := loop pure rec max left rs u total
    (∀ v, r.uses v = c v + r.scope.count v) ∧ (∀ v, r.uses v ≤ u v) ∧
    ShrunkRegions pure (fun v => r.uses v = 0) rs r.scope ∧
    (r.reachedFixpoint = true → rec = true →
      ¬ OccursRegions (fun o => isDead pure r.uses o = true) r.scope)
  | 0, rs, u, total, h => by
    refine ⟨h, fun v => Nat.le_refl _, shrunkRegions_refl rs, ?_⟩
    intro h; cases h
  | left + 1, rs, u, total, h => by
    have he := sweepRegions_exact (pure := pure) rec rs c u h
    have hle := sweepRegions_le (pure := pure) rec rs u
    simp only [loop]
    split
    · rename_i hz
      have h0 := sweepRegions_zero rec rs u hz
      refine ⟨he, hle, sweepRegions_shrunk rec rs u fun v hv => hv, ?_⟩
      rintro - rfl
      simp only [h0.1, h0.2]
      exact sweepRegions_alive rs u hz
    · have ih := loop_spec rec max c left (sweepRegions pure rec u rs).tree
        (sweepRegions pure rec u rs).uses (total + (sweepRegions pure rec u rs).removed) he
      refine ⟨ih.1, fun v => Nat.le_trans (ih.2.1 v) (hle v), ?_, ih.2.2.2⟩
      refine shrunkRegions_trans (sweepRegions_shrunk rec rs u fun v hv => ?_) ih.2.2.1
      have := ih.2.1 v
      omega

mutual
theorem countOp_pos {v : Value} : ∀ o : Op, 0 < o.count v ↔
    OccursOp (fun o => v ∈ o.head.operands) o
  | .mk h rs => by
    show 0 < h.operands.count v + rs.count v ↔ v ∈ h.operands ∨ OccursRegions _ rs
    rw [← countRegions_pos rs, ← List.count_pos_iff]
    omega
theorem countOps_pos {v : Value} : ∀ os : Ops, 0 < os.count v ↔
    OccursOps (fun o => v ∈ o.head.operands) os
  | .nil => by simp [Ops.count, OccursOps]
  | .cons o os => by
    simp only [Ops.count, OccursOps]
    rw [← countOp_pos o, ← countOps_pos os]
    omega
theorem countBlocks_pos {v : Value} : ∀ bs : Blocks, 0 < bs.count v ↔
    OccursBlocks (fun o => v ∈ o.head.operands) bs
  | .nil => by simp [Blocks.count, OccursBlocks]
  | .cons ps os bs => by
    simp only [Blocks.count, OccursBlocks]
    rw [← countOps_pos os, ← countBlocks_pos bs]
    omega
theorem countRegions_pos {v : Value} : ∀ rs : Regions, 0 < rs.count v ↔
    OccursRegions (fun o => v ∈ o.head.operands) rs
  | .nil => by simp [Regions.count, OccursRegions]
  | .cons bs rs => by
    simp only [Regions.count, OccursRegions]
    rw [← countBlocks_pos bs, ← countRegions_pos rs]
    omega
end

mutual
theorem shrunkOps_mono {D E : Value → Prop} (hDE : ∀ v, D v → E v) : ∀ {a b},
    ShrunkOps pure D a b → ShrunkOps pure E a b
  | _, _, .nil => .nil
  | _, _, .drop hp hd h => .drop hp (fun v hv => hDE v (hd v hv)) (shrunkOps_mono hDE h)
  | _, _, .keep h1 h2 => .keep (shrunkRegions_mono hDE h1) (shrunkOps_mono hDE h2)
theorem shrunkBlocks_mono {D E : Value → Prop} (hDE : ∀ v, D v → E v) : ∀ {a b},
    ShrunkBlocks pure D a b → ShrunkBlocks pure E a b
  | _, _, .nil => .nil
  | _, _, .cons h1 h2 => .cons (shrunkOps_mono hDE h1) (shrunkBlocks_mono hDE h2)
theorem shrunkRegions_mono {D E : Value → Prop} (hDE : ∀ v, D v → E v) : ∀ {a b},
    ShrunkRegions pure D a b → ShrunkRegions pure E a b
  | _, _, .nil => .nil
  | _, _, .cons h1 h2 => .cons (shrunkBlocks_mono hDE h1) (shrunkRegions_mono hDE h2)
end

/-! ## Simulation -/

/-- Environments agree outside `D`. -/
def Agree {Val : Type} (D : Value → Prop) (e e' : Env Val) : Prop := ∀ v, ¬ D v → e v = e' v

variable {Val S : Type}

theorem look_agree {e e' : Env Val} (h : Agree D e e') : ∀ vs : List Value, (∀ v ∈ vs, ¬ D v) →
    look e vs = look e' vs
  | [], _ => rfl
  | v :: vs, hv => by
    simp only [look]
    rw [h v (hv v (by simp)), look_agree h vs fun w hw => hv w (by simp [hw])]

theorem bindAll_agree {e e' : Env Val} (h : Agree D e e') : ∀ (ns : List Value) (vs : List Val),
    (bindAll e ns vs = none ∧ bindAll e' ns vs = none) ∨
    ∃ f f', bindAll e ns vs = some f ∧ bindAll e' ns vs = some f' ∧ Agree D f f'
  | [], [] => .inr ⟨e, e', rfl, rfl, h⟩
  | [], _ :: _ => .inl ⟨rfl, rfl⟩
  | _ :: _, [] => .inl ⟨rfl, rfl⟩
  | n :: ns, v :: vs => by
    simp only [bindAll]
    apply bindAll_agree
    intro x hx
    simp only []
    split
    · rfl
    · exact h x hx

theorem bindAll_dead {e e' : Env Val} (h : Agree D e e') : ∀ (ns : List Value) (vs : List Val),
    (∀ v ∈ ns, D v) → bindAll e ns vs = none ∨ ∃ f, bindAll e ns vs = some f ∧ Agree D f e'
  | [], [], _ => .inr ⟨e, rfl, h⟩
  | [], _ :: _, _ => .inl rfl
  | _ :: _, [], _ => .inl rfl
  | n :: ns, v :: vs, hd => by
    simp only [bindAll]
    apply bindAll_dead _ ns vs (fun w hw => hd w (by simp [hw]))
    intro x hx
    have : x ≠ n := by rintro rfl; exact hx (hd x (by simp))
    simp [this, h x hx]

theorem get_shrunk : ∀ {bs bs'}, ShrunkBlocks pure D bs bs' → ∀ i,
    (bs.get? i = none ∧ bs'.get? i = none) ∨
    ∃ ps os os', bs.get? i = some (ps, os) ∧ bs'.get? i = some (ps, os') ∧
      ShrunkOps pure D os os' ∧ ∀ v, os'.count v ≤ bs'.count v
  | _, _, .nil, _ => .inl ⟨rfl, rfl⟩
  | _, _, .cons (os := os) (os' := os') h1 _, 0 =>
    .inr ⟨_, os, os', rfl, rfl, h1, fun v => by simp only [Blocks.count]; omega⟩
  | _, _, .cons h1 h2, i + 1 => by
    rcases get_shrunk h2 i with h | ⟨ps, os, os', e1, e2, h, hc⟩
    · exact .inl h
    · refine .inr ⟨ps, os, os', e1, e2, h, fun v => ?_⟩
      have := hc v
      simp only [Blocks.count]; omega

theorem toList_shrunk : ∀ {rs rs'}, ShrunkRegions pure D rs rs' →
    rs.toList.length = rs'.toList.length ∧
    ∀ (i : Nat) b b', rs.toList[i]? = some b → rs'.toList[i]? = some b' →
      ShrunkBlocks pure D b b' ∧ ∀ v, b'.count v ≤ rs'.count v
  | _, _, .nil => ⟨rfl, fun i b b' h => by simp [Regions.toList] at h⟩
  | _, _, .cons (rs := rs) (rs' := rs') h1 h2 => by
    have ih := toList_shrunk h2
    refine ⟨by simp [Regions.toList, ih.1], ?_⟩
    intro i b b' hb hb'
    cases i with
    | zero =>
      simp only [Regions.toList, List.getElem?_cons_zero, Option.some.injEq] at hb hb'
      subst hb hb'
      exact ⟨h1, fun v => by simp only [Regions.count]; omega⟩
    | succ i =>
      simp only [Regions.toList, List.getElem?_cons_succ] at hb hb'
      obtain ⟨hs, hc⟩ := ih.2 i b b' hb hb'
      exact ⟨hs, fun v => by have := hc v; simp only [Regions.count]; omega⟩

/-- Related callees. -/
def CallOk (T : Bool) (pure : OpName → Bool) (D : Value → Prop)
    (call : Blocks → Nat → Env Val → List Val → S → Out Val S) : Prop :=
  ∀ bs bs', ShrunkBlocks pure D bs bs' → (∀ v, D v → bs'.count v = 0) → ∀ i e e', Agree D e e' →
    ∀ args s, (call bs i e args s).Refines T (call bs' i e' args s)

theorem runOps_sim {T : Bool} {I : Interp Val S} (hP : RespectsPure T I pure)
    (hM : FaultsUnobserved T I)
    {call : Blocks → Nat → Env Val → List Val → S → Out Val S} (hc : CallOk T pure D call)
    {bs bs' : Blocks} (hbs : ShrunkBlocks pure D bs bs') (hu : ∀ v, D v → bs'.count v = 0) :
    ∀ {os os'}, ShrunkOps pure D os os' → (∀ v, D v → os'.count v = 0) → ∀ {e e'}, Agree D e e' →
    ∀ s, (runOps I call bs os e s).Refines T (runOps I call bs' os' e' s)
  | _, _, .nil, _, _, _, _, _ => .inl rfl
  | _, _, .drop (h := h) (rs := rs) (os := os) hp hd hs, ho, e, e', he, s => by
    simp only [runOps]
    cases hl : look e h.operands with
    | none => exact .inr (.inl rfl)
    | some vals =>
      simp only []
      rcases hP h.name hp vals h.successors (rs.toList.map fun bs args s => call bs 0 e args s) s
        with ⟨res, hI⟩ | ⟨hT, hI⟩
      · rw [hI]
        rcases bindAll_dead he h.results res hd with hf | ⟨f, hf, hfa⟩
        · simp only [hf]; exact .inr (.inl rfl)
        · simp only [hf]
          exact runOps_sim hP hM hc hbs hu hs ho hfa s
      · rw [hI]
        exact .inr (.inr ⟨hT, rfl⟩)
  | _, _, .keep (h := h) (rs := rs) (rs' := rs') (os := os) (os' := os') hr hs, ho, e, e', he, s => by
    have hop : ∀ v ∈ h.operands, ¬ D v := by
      intro v hv hD
      have := ho v hD
      simp only [Ops.count, Op.count] at this
      have := List.count_pos_iff.2 hv
      omega
    have hrs : ∀ v, D v → rs'.count v = 0 := by
      intro v hD
      have := ho v hD
      simp only [Ops.count, Op.count] at this
      omega
    have hos : ∀ v, D v → os'.count v = 0 := by
      intro v hD
      have := ho v hD
      simp only [Ops.count, Op.count] at this
      omega
    simp only [runOps]
    rw [look_agree he h.operands hop]
    cases hl : look e' h.operands with
    | none => exact .inl rfl
    | some vals =>
      simp only []
      have hm := hM h.name vals h.successors (rs.toList.map fun bs args s => call bs 0 e args s)
        (rs'.toList.map fun bs args s => call bs 0 e' args s) s
        (by simp [(toList_shrunk hr).1]) (by
          intro i a b ha hb args s
          simp only [List.getElem?_map, Option.map_eq_some_iff] at ha hb
          obtain ⟨x, hx, rfl⟩ := ha
          obtain ⟨y, hy, rfl⟩ := hb
          obtain ⟨h1, h2⟩ := (toList_shrunk hr).2 i x y hx hy
          exact hc x y h1 (fun v hD => by have := h2 v; have := hrs v hD; omega) 0 e e' he args s)
      generalize I h.name vals h.successors (rs.toList.map fun bs args s => call bs 0 e args s) s
        = st at hm
      generalize I h.name vals h.successors (rs'.toList.map fun bs args s => call bs 0 e' args s) s
        = st' at hm
      rcases hm with rfl | rfl | ⟨hT, rfl⟩
      · cases st with
        | next res s' =>
          simp only []
          rcases bindAll_agree he h.results res with ⟨h1, h2⟩ | ⟨f, f', h1, h2, hf⟩
          · rw [h1, h2]; exact .inl rfl
          · rw [h1, h2]; exact runOps_sim hP hM hc hbs hu hs hos hf s'
        | jump b args s' => exact hc bs bs' hbs hu b e e' he args s'
        | leave vs s' => exact .inl rfl
        | trap => exact .inl rfl
        | stuck => exact .inl rfl
        | outOfFuel => exact .inl rfl
      · exact .inr (.inl rfl)
      · exact .inr (.inr ⟨hT, rfl⟩)

theorem run_sim {T : Bool} {I : Interp Val S} (hP : RespectsPure T I pure)
    (hM : FaultsUnobserved T I) : ∀ n, CallOk T pure D (run I n)
  | 0 => fun _ _ _ _ _ _ _ _ _ _ => .inl rfl
  | n + 1 => by
    intro bs bs' hbs hu i e e' he args s
    simp only [run]
    rcases get_shrunk hbs i with ⟨h1, h2⟩ | ⟨ps, os, os', h1, h2, hs, hcnt⟩
    · rw [h1, h2]; exact .inl rfl
    · rw [h1, h2]
      simp only []
      rcases bindAll_agree he ps args with ⟨h1, h2⟩ | ⟨f, f', h1, h2, hf⟩
      · rw [h1, h2]; exact .inl rfl
      · rw [h1, h2]
        exact runOps_sim hP hM (run_sim hP hM n) hbs hu hs
          (fun v hD => by have := hcnt v; have := hu v hD; omega) hf s

mutual
theorem headsOp_count (v : Value) : ∀ o : Op, (o.heads.flatMap Head.operands).count v = o.count v
  | .mk h rs => by simp [Op.heads, Op.count, List.count_append, headsRegions_count v rs]
theorem headsOps_count (v : Value) : ∀ o : Ops, (o.heads.flatMap Head.operands).count v = o.count v
  | .nil => rfl
  | .cons o os => by
    simp [Ops.heads, Ops.count, List.count_append, headsOp_count v o, headsOps_count v os]
theorem headsBlocks_count (v : Value) : ∀ o : Blocks,
    (o.heads.flatMap Head.operands).count v = o.count v
  | .nil => rfl
  | .cons _ os bs => by
    simp [Blocks.heads, Blocks.count, List.count_append, headsOps_count v os, headsBlocks_count v bs]
theorem headsRegions_count (v : Value) : ∀ o : Regions,
    (o.heads.flatMap Head.operands).count v = o.count v
  | .nil => rfl
  | .cons bs rs => by
    simp [Regions.heads, Regions.count, List.count_append, headsBlocks_count v bs,
      headsRegions_count v rs]
end

/-! ## Impure operations -/

mutual
theorem impureOps {D : Value → Prop} : ∀ {os os'}, ShrunkOps pure D os os' →
    ¬ OccursOps (fun o => pure o.head.name = true ∧ o.regions ≠ .nil) os →
    os'.heads.filter (fun h => !pure h.name) = os.heads.filter (fun h => !pure h.name)
  | _, _, .nil, _ => rfl
  | _, _, .drop (rs := rs) hp hd hs, hn => by
    have h1 := impureOps hs fun h => hn (.inr h)
    have h2 : rs = .nil := by
      apply Classical.byContradiction
      intro hne
      exact hn (.inl (.inl ⟨hp, hne⟩))
    subst h2
    simp [Ops.heads, Op.heads, Regions.heads, hp, h1]
  | _, _, .keep hr hs, hn => by
    have h1 := impureOps hs fun h => hn (.inr h)
    have h2 := impureRegions hr fun h => hn (.inl (.inr h))
    simp [Ops.heads, Op.heads, List.filter_cons, h1, h2]
theorem impureBlocks {D : Value → Prop} : ∀ {bs bs'}, ShrunkBlocks pure D bs bs' →
    ¬ OccursBlocks (fun o => pure o.head.name = true ∧ o.regions ≠ .nil) bs →
    bs'.heads.filter (fun h => !pure h.name) = bs.heads.filter (fun h => !pure h.name)
  | _, _, .nil, _ => rfl
  | _, _, .cons h1 h2, hn => by
    have h1 := impureOps h1 fun h => hn (.inl h)
    have h2 := impureBlocks h2 fun h => hn (.inr h)
    simp [Blocks.heads, h1, h2]
theorem impureRegions {D : Value → Prop} : ∀ {rs rs'}, ShrunkRegions pure D rs rs' →
    ¬ OccursRegions (fun o => pure o.head.name = true ∧ o.regions ≠ .nil) rs →
    rs'.heads.filter (fun h => !pure h.name) = rs.heads.filter (fun h => !pure h.name)
  | _, _, .nil, _ => rfl
  | _, _, .cons h1 h2, hn => by
    have h1 := impureBlocks h1 fun h => hn (.inl h)
    have h2 := impureRegions h2 fun h => hn (.inr h)
    simp [Regions.heads, h1, h2]
end

end Verif.Dce
