import Verif.Dominance.Proofs
/-!
# Property C15: dominance analysis is exact
-/
namespace Verif.Dominance
variable {n : Nat}

/-- The analysis ran to completion with result `t`: for every sufficiently large number of rounds
allowed to the loop, the loop stops by itself with `t`. -/
def Computes (g : Cfg n) (t : Tree n) : Prop := ∃ N, ∀ fuel ≥ N, g.compute fuel = .done t

theorem loop_mono {g : Cfg n} {e : Fin n} {fuel : Nat} {s s' : St n}
    (h : g.loop e fuel s = .done s') : ∀ k, g.loop e (fuel + k) s = .done s' := by
  induction fuel generalizing s with
  | zero => simp [Cfg.loop] at h
  | succ fuel ih =>
    intro k
    have e1 : fuel + 1 + k = (fuel + k) + 1 := by omega
    rw [e1]
    rw [Cfg.loop] at h ⊢
    split at h
    · cases h
    · rename_i s1 hs
      split at h
      · rename_i hc; rw [if_pos hc]; exact ih h k
      · rename_i hc; rw [if_neg hc]; exact h

/-- C15: the analysis always terminates without panicking; a block is reported reachable exactly
when a path from the entry leads to it; `a` is reported to dominate `b` exactly when `b` is
reachable and every path from the entry to `b` passes through `a`; and the region is reported valid
exactly when every successor is a block of the region. -/
theorem C15_exact (g : Cfg n) : ∃ t, Computes g t ∧
    (∀ b, t.isReachable b = true ↔ Reachable g b) ∧
    (∀ a b, t.dominates a b = true ↔ Dominates g a b) ∧
    (t.valid = true ↔ ∀ b, ∀ s ∈ g.succs b, s ≠ none) := by
  have hvalid : g.valid0 = true ↔ ∀ b, ∀ s ∈ g.succs b, s ≠ none := by
    simp only [Cfg.valid0, List.all_eq_true, blocks, List.mem_finRange, forall_const]
    constructor
    · intro h b s hs hn; have := h b s hs; rw [hn] at this; cases this
    · intro h b s hs; exact Option.isSome_iff_ne_none.mpr (h b s hs)
  match he : entry n with
  | none =>
    have hn : n = 0 := by
      unfold entry at he
      split at he
      · cases he
      · omega
    subst hn
    refine ⟨⟨g.reachable, fun _ => none, g.valid0⟩, ⟨0, fun fuel _ => by simp only [Cfg.compute, he]⟩, ?_, ?_, hvalid⟩
    · intro b; exact b.elim0
    · intro a; exact a.elim0
  | some e =>
    have hi := inv_init (g := g) he
    let s0 : St n := ⟨g.initDom e, g.valid0, true⟩
    obtain ⟨s, h1, h2, h3, h4⟩ := loop_spec he (total s0.dom + 1) s0 hi (by omega)
    refine ⟨⟨g.reachable, s.dom, s.valid⟩, ⟨total s0.dom + 1, ?_⟩, ?_, ?_, ?_⟩
    · intro fuel hf
      obtain ⟨k, rfl⟩ := Nat.exists_eq_add_of_le hf
      simp only [Cfg.compute, he]
      have := loop_mono h1 k
      rw [this]
    · intro b
      simp only [Tree.isReachable, decide_eq_true_eq]
      exact mem_reachable g b
    · intro a b
      simp only [Tree.dominates]
      have hd := h3.dom b
      match hdb : s.dom b with
      | none =>
        rw [hdb] at hd
        simp only [Bool.false_eq_true, false_iff]
        intro hab
        have : b ∈ g.reachable := (mem_reachable g b).mpr hab.1
        simp [this] at hd
      | some ds =>
        rw [hdb] at hd
        have hb : b ∈ g.reachable := by simpa using hd.symm
        simp only [decide_eq_true_eq]
        rw [← h4 b hb a]
        simp [get, hdb]
    · show s.valid = true ↔ _
      rw [h2]; exact hvalid

/-- Results do not depend on the bound. -/
theorem C15_deterministic (g : Cfg n) (t t' : Tree n) (h : Computes g t) (h' : Computes g t') :
    t = t' := by
  obtain ⟨N, hN⟩ := h
  obtain ⟨M, hM⟩ := h'
  have h1 := hN (max N M) (by omega)
  have h2 := hM (max N M) (by omega)
  rw [h1] at h2
  cases h2
  rfl

/-- An irreducible loop with an unreachable block and a self loop:
`0 → 1, 2; 1 → 2; 2 → 1, 3; 3 → 3; 4 → 3`. -/
def sample : Cfg 5 where
  succs := fun b => match b with
    | 0 => [some 1, some 2]
    | 1 => [some 2]
    | 2 => [some 1, some 3]
    | 3 => [some 3]
    | 4 => [some 3]

/-- Block 2 dominates 3; neither 1 nor 2 dominates the other; 4 is unreachable. -/
example : Dominates sample 2 3 ∧ ¬ Dominates sample 1 2 ∧ ¬ Dominates sample 2 1 ∧
    ¬ Reachable sample 4 := by
  have reach4 : ∀ b p, PathTo sample b p → b ≠ 4 := by
    intro b p hp
    induction hp with
    | start b h => intro e; subst e; simp at h
    | @step b c p hp hs ih =>
      intro e
      subst e
      revert hs
      match b with
      | 0 | 1 | 2 | 3 | 4 => decide
  have p2 : PathTo sample 2 [2, 0] := (PathTo.start 0 rfl).step (by decide)
  refine ⟨⟨⟨_, p2.step (c := 3) (by decide)⟩, ?_⟩, ?_, ?_, ?_⟩
  · intro p hp
    have : ∀ b p, PathTo sample b p → b = 3 → (2 : Fin 5) ∈ p := by
      intro b p hp
      induction hp with
      | start b h => intro e; subst e; simp at h
      | @step b c p hp hs ih =>
        intro e
        subst e
        have hb : b = 2 ∨ b = 3 ∨ b = 4 := by
          revert hs
          match b with
          | 0 | 1 | 2 | 3 | 4 => decide
        rcases hb with rfl | rfl | rfl
        · cases hp <;> simp
        · exact List.mem_cons_of_mem _ (ih rfl)
        · exact absurd rfl (reach4 _ _ hp)
    exact this 3 p hp rfl
  · intro h
    have := h.2 _ p2
    simp at this
  · intro h
    have := h.2 _ ((PathTo.start 0 rfl).step (c := 1) (by decide))
    simp at this
  · rintro ⟨p, hp⟩
    exact reach4 _ _ hp rfl

end Verif.Dominance
