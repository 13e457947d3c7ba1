import Verif.Perform.Proofs

namespace Verif.Perform

/-! ### Values are defined once -/

theorem opsDefs_append (l l' : List Op) : opsDefs (l ++ l') = opsDefs l ++ opsDefs l' := by
  induction l with
  | nil => simp [opsDefs]
  | cons o l ih => simp [opsDefs, ih, List.append_assoc]

/-- Definitions of a piece of the result: those of the source and new ones from `n` to `n'`. -/
structure Defs (src : List Nat) (n n' : Nat) (dst : List Nat) : Prop where
  le : n ≤ n'
  mem : ∀ x ∈ dst, x ∈ src ∨ (n ≤ x ∧ x < n')
  nodup : src.Nodup → (∀ x ∈ src, x < n) → dst.Nodup

theorem Defs.append {a b a' b' : List Nat} {n₁ n₂ n₃ : Nat} (h : Defs a n₁ n₂ a')
    (h' : Defs b n₂ n₃ b') : Defs (a ++ b) n₁ n₃ (a' ++ b') := by
  refine ⟨by have := h.le; have := h'.le; omega, fun x hx => ?_, fun hn hlt => ?_⟩
  · have l1 := h.le
    have l2 := h'.le
    rcases List.mem_append.1 hx with hx | hx
    · rcases h.mem x hx with hx | hx
      · exact .inl (List.mem_append_left _ hx)
      · exact .inr ⟨by omega, by omega⟩
    · rcases h'.mem x hx with hx | hx
      · exact .inl (List.mem_append_right _ hx)
      · exact .inr ⟨by omega, by omega⟩
  · have l1 := h.le
    rw [List.nodup_append] at hn ⊢
    obtain ⟨ha, hb, hd⟩ := hn
    refine ⟨h.nodup ha fun x hx => hlt x (List.mem_append_left _ hx),
      h'.nodup hb fun x hx => by have := hlt x (List.mem_append_right _ hx); omega, ?_⟩
    intro x hx y hy hxy
    subst hxy
    rcases h.mem x hx with hx | hx
    · have := hlt x (List.mem_append_left _ hx)
      rcases h'.mem x hy with hy | hy
      · exact hd x hx x hy rfl
      · omega
    · rcases h'.mem x hy with hy | hy
      · have := hlt x (List.mem_append_right _ hy); omega
      · omega

theorem Defs.same (l : List Nat) (n : Nat) : Defs l n n l :=
  ⟨Nat.le_refl _, fun _ h => .inl h, fun h _ => h⟩

/-- Dropped definitions. -/
theorem Defs.weaken {a b a' : List Nat} {n n' : Nat} (h : Defs a n n' a') :
    Defs (a ++ b) n n' a' := by
  refine ⟨h.le, fun x hx => ?_, fun hn hlt => ?_⟩
  · rcases h.mem x hx with hx | hx
    · exact .inl (List.mem_append_left _ hx)
    · exact .inr hx
  · exact h.nodup (List.nodup_append.1 hn).1 fun x hx => hlt x (List.mem_append_left _ hx)

theorem Defs.fresh (n : Nat) : Defs [] n (n + 1) [n] :=
  ⟨by omega, fun x hx => .inr (by rw [List.mem_singleton.1 hx]; omega), fun _ _ => by simp⟩

theorem pack_defs {legacy : Bool} {a o : Nat} {args : List Nat} {n : Nat} {q : List Op × Nat × Nat}
    (h : pack legacy a o args n = some q) : Defs [] n q.2.2 (opsDefs q.1) := by
  cases legacy with
  | false =>
    simp only [pack, packPayload, Bool.false_eq_true, if_false, Option.some.injEq] at h
    subst h
    have := (Defs.fresh n).append (Defs.fresh (n + 1))
    simpa [opsDefs, Op.defs] using this
  | true =>
    simp only [pack, if_true] at h
    unfold packLegacy at h
    split at h
    · cases h; exact Defs.fresh n
    · cases h; exact Defs.fresh n
    · cases h

theorem returnOps_defs (ret : Ty) (r n : Nat) :
    Defs [] n (returnOps ret r n).2 (opsDefs (returnOps ret r n).1) := by
  cases ret with
  | nil => exact Defs.same [] n
  | anyref => exact Defs.same [] n
  | other t => exact Defs.fresh n

mutual
theorem lowerOp_defs (ev : Nat) (ret : Ty) : ∀ (op : Op) (top : Bool) (n : Nat)
    (q : List Op × Bool × Nat), lowerOp ev ret top op n = some q → Defs op.defs n q.2.2 (opsDefs q.1)
  | .prim .., top, n, q, h => by
    simp only [lowerOp, Option.some.injEq] at h; subst h; simpa [opsDefs] using Defs.same _ n
  | .yield .., top, n, q, h => by
    simp only [lowerOp, Option.some.injEq] at h; subst h; simpa [opsDefs] using Defs.same _ n
  | .ret .., top, n, q, h => by
    simp only [lowerOp, Option.some.injEq] at h; subst h; simpa [opsDefs] using Defs.same _ n
  | .structNew .., top, n, q, h => by
    simp only [lowerOp, Option.some.injEq] at h; subst h; simpa [opsDefs] using Defs.same _ n
  | .refNull .., top, n, q, h => by
    simp only [lowerOp, Option.some.injEq] at h; subst h; simpa [opsDefs] using Defs.same _ n
  | .cast .., top, n, q, h => by
    simp only [lowerOp, Option.some.injEq] at h; subst h; simpa [opsDefs] using Defs.same _ n
  | .dispatchCps .., top, n, q, h => by
    simp only [lowerOp, Option.some.injEq] at h; subst h; simpa [opsDefs] using Defs.same _ n
  | .dispatchTail .., top, n, q, h => by
    simp only [lowerOp, Option.some.injEq] at h; subst h; simpa [opsDefs] using Defs.same _ n
  | .perform legacy a o k args r, top, n, q, h => by
    rw [lowerOp] at h
    cases hp : pack legacy a o args n with
    | none => rw [hp] at h; cases h
    | some x =>
      obtain ⟨ops, p, n₁⟩ := x
      have hc := pack_defs hp
      rw [hp] at h
      simp only at h
      have hd : Defs [r] n (n₁ + 1)
          (opsDefs (ops ++ [.cast k .anyref n₁, .dispatchCps a o ev n₁ p r])) := by
        have := (hc.append (Defs.fresh n₁)).append (Defs.same [r] (n₁ + 1))
        simpa [opsDefs_append, opsDefs, Op.defs] using this
      split at h
      · simp only [Option.some.injEq] at h
        subst h
        have := hd.append (returnOps_defs ret r (n₁ + 1))
        rw [← opsDefs_append] at this
        simpa [Op.defs] using this
      · simp only [Option.some.injEq] at h
        subst h
        exact hd
  | .call legacy a o args r, top, n, q, h => by
    rw [lowerOp] at h
    cases hp : pack legacy a o args n with
    | none => rw [hp] at h; cases h
    | some x =>
      obtain ⟨ops, p, n₁⟩ := x
      have hc := pack_defs hp
      rw [hp] at h
      simp only [Option.some.injEq] at h
      subst h
      have := hc.append (Defs.same [r] n₁)
      simpa [opsDefs_append, opsDefs, Op.defs] using this
  | .ite c t e r, top, n, q, h => by
    have it := lowerOps_defs ev ret t false n
    have ie := lowerOps_defs ev ret e false
    rw [lowerOp] at h
    cases ht : lowerOps ev ret false t n with
    | none => rw [ht] at h; cases h
    | some x =>
      rw [ht] at h
      simp only at h
      cases he : lowerOps ev ret false e x.2 with
      | none => rw [he] at h; cases h
      | some y =>
        rw [he] at h
        simp only [Option.some.injEq] at h
        subst h
        have := (Defs.same [r] n).append ((it x ht).append (ie x.2 y he))
        simpa [opsDefs, Op.defs] using this
theorem lowerOps_defs (ev : Nat) (ret : Ty) : ∀ (ops : List Op) (top : Bool) (n : Nat)
    (q : List Op × Nat), lowerOps ev ret top ops n = some q → Defs (opsDefs ops) n q.2 (opsDefs q.1)
  | [], top, n, q, h => by
    simp only [lowerOps, Option.some.injEq] at h; subst h; exact Defs.same _ n
  | op :: ops, top, n, q, h => by
    have io := lowerOp_defs ev ret op top n
    have is := lowerOps_defs ev ret ops top
    rw [lowerOps] at h
    cases ho : lowerOp ev ret top op n with
    | none => rw [ho] at h; cases h
    | some x =>
      obtain ⟨l, stop, n₁⟩ := x
      have h1 := io _ ho
      rw [ho] at h
      cases stop with
      | true => simp only [Option.some.injEq] at h; subst h; exact h1.weaken
      | false =>
        simp only at h
        cases hl : lowerOps ev ret top ops n₁ with
        | none => rw [hl] at h; cases h
        | some y =>
          rw [hl] at h
          simp only [Option.some.injEq] at h
          subst h
          rw [opsDefs_append]
          exact h1.append (is n₁ y hl)
end

mutual
theorem Op.defs_bound : ∀ (op : Op), ∀ x ∈ op.defs, x < op.bound
  | .prim f args r, x, h => by
    simp only [Op.defs, List.mem_singleton] at h; simp only [Op.bound, List.foldr_cons]; omega
  | .yield v, x, h => by cases h
  | .ret v, x, h => by cases h
  | .perform l a o k args r, x, h => by
    simp only [Op.defs, List.mem_singleton] at h; simp only [Op.bound, List.foldr_cons]; omega
  | .call l a o args r, x, h => by
    simp only [Op.defs, List.mem_singleton] at h; simp only [Op.bound, List.foldr_cons]; omega
  | .structNew a o args r, x, h => by
    simp only [Op.defs, List.mem_singleton] at h; simp only [Op.bound, List.foldr_cons]; omega
  | .refNull r, x, h => by simp only [Op.defs, List.mem_singleton] at h; simp only [Op.bound]; omega
  | .cast v t r, x, h => by simp only [Op.defs, List.mem_singleton] at h; simp only [Op.bound]; omega
  | .dispatchCps a o y k p r, x, h => by
    simp only [Op.defs, List.mem_singleton] at h; simp only [Op.bound]; omega
  | .dispatchTail a o y p r, x, h => by
    simp only [Op.defs, List.mem_singleton] at h; simp only [Op.bound]; omega
  | .ite c t e r, x, h => by
    have it := opsDefs_bound t
    have ie := opsDefs_bound e
    simp only [Op.defs, List.mem_cons, List.mem_append] at h
    simp only [Op.bound]
    rcases h with rfl | h | h
    · omega
    · have := it x h; omega
    · have := ie x h; omega
theorem opsDefs_bound : ∀ (ops : List Op), ∀ x ∈ opsDefs ops, x < opsBound ops
  | [], x, h => by cases h
  | op :: ops, x, h => by
    have io := Op.defs_bound op
    have is := opsDefs_bound ops
    simp only [opsDefs, List.mem_append] at h
    simp only [opsBound]
    rcases h with h | h
    · have := io x h; omega
    · have := is x h; omega
end

/-! ### The type of payloads and continuations -/

mutual
theorem Op.erased_mono : ∀ (op : Op) (k k' : List Nat), (∀ x ∈ k, x ∈ k') → op.erased k → op.erased k'
  | .prim .., _, _, _, _ => trivial
  | .yield .., _, _, _, _ => trivial
  | .ret .., _, _, _, _ => trivial
  | .perform .., _, _, _, _ => trivial
  | .call .., _, _, _, _ => trivial
  | .structNew .., _, _, _, _ => trivial
  | .refNull .., _, _, _, _ => trivial
  | .cast .., _, _, _, _ => trivial
  | .dispatchCps .., _, _, h, he => ⟨h _ he.1, h _ he.2⟩
  | .dispatchTail .., _, _, h, he => h _ he
  | .ite c t e r, k, k', h, he =>
    ⟨opsErased_mono t k k' h he.1, opsErased_mono e k k' h he.2⟩
theorem opsErased_mono : ∀ (ops : List Op) (k k' : List Nat), (∀ x ∈ k, x ∈ k') → opsErased k ops →
    opsErased k' ops
  | [], _, _, _, _ => trivial
  | op :: ops, k, k', h, he => by
    refine ⟨Op.erased_mono op k k' h he.1, opsErased_mono ops _ _ (fun x hx => ?_) he.2⟩
    rcases List.mem_append.1 hx with hx | hx
    · exact List.mem_append_left _ hx
    · exact List.mem_append_right _ (h x hx)
end

theorem opsErased_append (l l' : List Op) : ∀ k, opsErased k l → opsErased k l' →
    opsErased k (l ++ l') := by
  induction l with
  | nil => intro k _ h; exact h
  | cons o l ih =>
    intro k h h'
    exact ⟨h.1, ih _ h.2 (opsErased_mono l' _ _ (fun x hx => List.mem_append_right _ hx) h')⟩

/-- Packing makes the payload. -/
theorem pack_erased {legacy : Bool} {a o : Nat} {args : List Nat} {n : Nat} {q : List Op × Nat × Nat}
    (h : pack legacy a o args n = some q) (rest : List Op)
    (hr : ∀ k, q.2.1 ∈ k → opsErased k rest) (k : List Nat) : opsErased k (q.1 ++ rest) := by
  cases legacy with
  | false =>
    simp only [pack, packPayload, Bool.false_eq_true, if_false, Option.some.injEq] at h
    subst h
    exact ⟨trivial, trivial, hr _ (by simp [Op.anyrefs])⟩
  | true =>
    simp only [pack, if_true] at h
    unfold packLegacy at h
    split at h
    · cases h; exact ⟨trivial, hr _ (by simp [Op.anyrefs])⟩
    · cases h; exact ⟨trivial, hr _ (by simp [Op.anyrefs])⟩
    · cases h

theorem returnOps_erased (ret : Ty) (r n : Nat) (k : List Nat) :
    opsErased k (returnOps ret r n).1 := by
  cases ret with
  | nil => exact ⟨trivial, trivial⟩
  | anyref => exact ⟨trivial, trivial⟩
  | other t => exact ⟨trivial, trivial, trivial⟩

mutual
theorem lowerOp_erased (ev : Nat) (ret : Ty) : ∀ (op : Op) (top : Bool) (n : Nat)
    (q : List Op × Bool × Nat), op.undispatched = true → lowerOp ev ret top op n = some q →
    opsErased [] q.1
  | .prim .., top, n, q, _, h => by
    simp only [lowerOp, Option.some.injEq] at h; subst h; exact ⟨trivial, trivial⟩
  | .yield .., top, n, q, _, h => by
    simp only [lowerOp, Option.some.injEq] at h; subst h; exact ⟨trivial, trivial⟩
  | .ret .., top, n, q, _, h => by
    simp only [lowerOp, Option.some.injEq] at h; subst h; exact ⟨trivial, trivial⟩
  | .structNew .., top, n, q, _, h => by
    simp only [lowerOp, Option.some.injEq] at h; subst h; exact ⟨trivial, trivial⟩
  | .refNull .., top, n, q, _, h => by
    simp only [lowerOp, Option.some.injEq] at h; subst h; exact ⟨trivial, trivial⟩
  | .cast .., top, n, q, _, h => by
    simp only [lowerOp, Option.some.injEq] at h; subst h; exact ⟨trivial, trivial⟩
  | .dispatchCps .., top, n, q, hu, h => by cases hu
  | .dispatchTail .., top, n, q, hu, h => by cases hu
  | .perform legacy a o k args r, top, n, q, _, h => by
    rw [lowerOp] at h
    cases hp : pack legacy a o args n with
    | none => rw [hp] at h; cases h
    | some x =>
      obtain ⟨ops, p, n₁⟩ := x
      rw [hp] at h
      simp only at h
      have hd : opsErased [] (ops ++ [.cast k .anyref n₁, .dispatchCps a o ev n₁ p r]) :=
        pack_erased hp [.cast k .anyref n₁, .dispatchCps a o ev n₁ p r] (fun k hk => ⟨trivial,
          ⟨by simp [Op.anyrefs], by simp [Op.anyrefs]; exact .inr hk⟩, trivial⟩) []
      split at h
      · simp only [Option.some.injEq] at h
        subst h
        exact opsErased_append _ _ _ hd (returnOps_erased ret r _ _)
      · simp only [Option.some.injEq] at h
        subst h
        exact hd
  | .call legacy a o args r, top, n, q, _, h => by
    rw [lowerOp] at h
    cases hp : pack legacy a o args n with
    | none => rw [hp] at h; cases h
    | some x =>
      obtain ⟨ops, p, n₁⟩ := x
      rw [hp] at h
      simp only [Option.some.injEq] at h
      subst h
      exact pack_erased hp [.dispatchTail a o ev p r] (fun k hk => ⟨hk, trivial⟩) []
  | .ite c t e r, top, n, q, hu, h => by
    simp only [Op.undispatched, Bool.and_eq_true] at hu
    have it := lowerOps_erased ev ret t false n
    have ie := lowerOps_erased ev ret e false
    rw [lowerOp] at h
    cases ht : lowerOps ev ret false t n with
    | none => rw [ht] at h; cases h
    | some x =>
      rw [ht] at h
      simp only at h
      cases he : lowerOps ev ret false e x.2 with
      | none => rw [he] at h; cases h
      | some y =>
        rw [he] at h
        simp only [Option.some.injEq] at h
        subst h
        exact ⟨⟨it x hu.1 ht, ie x.2 y hu.2 he⟩, trivial⟩
theorem lowerOps_erased (ev : Nat) (ret : Ty) : ∀ (ops : List Op) (top : Bool) (n : Nat)
    (q : List Op × Nat), opsUndispatched ops = true → lowerOps ev ret top ops n = some q →
    opsErased [] q.1
  | [], top, n, q, _, h => by
    simp only [lowerOps, Option.some.injEq] at h; subst h; trivial
  | op :: ops, top, n, q, hu, h => by
    simp only [opsUndispatched, Bool.and_eq_true] at hu
    have io := lowerOp_erased ev ret op top n
    have is := lowerOps_erased ev ret ops top
    rw [lowerOps] at h
    cases ho : lowerOp ev ret top op n with
    | none => rw [ho] at h; cases h
    | some x =>
      obtain ⟨l, stop, n₁⟩ := x
      have h1 := io _ hu.1 ho
      rw [ho] at h
      cases stop with
      | true => simp only [Option.some.injEq] at h; subst h; exact h1
      | false =>
        simp only at h
        cases hl : lowerOps ev ret top ops n₁ with
        | none => rw [hl] at h; cases h
        | some y =>
          rw [hl] at h
          simp only [Option.some.injEq] at h
          subst h
          exact opsErased_append _ _ _ h1 (is n₁ y hu.2 hl)
end

end Verif.Perform
