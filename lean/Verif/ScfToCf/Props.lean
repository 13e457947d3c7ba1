import Verif.ScfToCf.Rounds
/-!
# C56 — lowering structured control flow preserves behaviour; C57 — it ends and leaves only branches
-/
namespace Verif.ScfToCf

/-! ## A function to show that the hypotheses can be met -/

/-- Counts from 0 to the argument in a loop whose body has an `if` with a result, one branch of which
leaves the loop; then a `switch` on the count, with an `if` in one case. -/
def sample : Ctx where
  blocks :=
    [.mk 0 [0]
      [.const 0 1,
       .loop [1] [2]
         [.mk 1 [3]
           [.cmpEq 3 0 4,
            .ite 4 [5]
              [.mk 2 [] [.brk 3]]
              [.mk 3 [] [.plain 7 [3] [6], .yield [6]]],
            .cont [5]]],
       .switch 2 []
         [.mk (some 1) [.mk 4 [] [.plain 9 [2] [], .yield []]],
          .mk (some 2) [.mk 5 [] [.ite 2 [7] [.mk 6 [] [.plain 9 [2] [], .yield [2]]]
            [.mk 7 [] [.yield [1]]], .yield []]],
          .mk none [.mk 8 [] [.br [] 9], .mk 9 [] [.yield []]]],
       .exit 8 [2]]]
  nextLabel := 10
  nextValue := 8

theorem sample_wf : WF sample := by
  refine ⟨by simp [sample], by decide, by decide, ?_, ?_, ?_, by decide, by decide⟩
  · simp [sample, scopesB, scopesO, scopesC, Op.scopes, Block.label]
  · simp [sample, tidyB, tidyO, tidyC, Op.tidy, Op.isTerm]
  · simp [sample, placedB, placedO, placedC, Op.placed]

/-- The lowered body, as the pass leaves it. -/
def sampleLowered : Ctx where
  blocks :=
    [.mk 0 [0] [.const 0 1, .br [1] 1],
     .mk 1 [3] [.cmpEq 3 0 4, .condBr 4 2 3],
     .mk 2 [] [.br [3] 10],
     .mk 3 [] [.plain 7 [3] [6], .br [6] 11],
     .mk 11 [9] [.br [9] 1],
     .mk 10 [8] [.const 1 10, .cmpEq 8 10 11, .condBr 11 4 13],
     .mk 4 [] [.plain 9 [8] [], .br [] 12],
     .mk 5 [] [.condBr 8 6 7],
     .mk 6 [] [.plain 9 [8] [], .br [] 14],
     .mk 7 [] [.br [] 14],
     .mk 14 [] [.br [] 12],
     .mk 8 [] [.br [] 9],
     .mk 9 [] [.br [] 12],
     .mk 13 [] [.const 2 12, .cmpEq 8 12 13, .condBr 13 5 8],
     .mk 12 [] [.exit 8 [8]]]
  nextLabel := 15
  nextValue := 14

theorem sample_lowered : lowerFunc sample = some sampleLowered := by rfl

/-- Integers; operation 7 adds one, operation 9 notes its argument. -/
def ints : Interp where
  V := Int
  S := List Int
  plain := fun name as s =>
    match name, as with
    | 7, [a] => some ([a + 1], s)
    | 9, [a] => some ([], s ++ [a])
    | _, _ => none
  const := id
  eq := fun a b => if a = b then 1 else 0
  truth := fun a => a != 0
  undef := -1
  eq_truth := fun a b => by by_cases h : a = b <;> simp [h]

/-- Called with 2 the sample notes 2 and returns it. -/
example : Behaves ints sample.blocks [(2 : Int)] [] (.exit 8 [(2 : Int)]) [(2 : Int)] :=
  ⟨0, 10, _, rfl, rfl⟩

example : Behaves ints sampleLowered.blocks [(2 : Int)] [] (.exit 8 [(2 : Int)]) [(2 : Int)] :=
  ⟨0, 20, _, rfl, rfl⟩

/-! ## C56 -/

/-- A call has at most one outcome: end and final state. -/
theorem C56_outcome_unique (I : Interp) (bs : List Block) (args : List I.V) (s : I.S)
    (o₁ o₂ : Out I.V) (s₁ s₂ : I.S) (h₁ : Behaves I bs args s o₁ s₁) (h₂ : Behaves I bs args s o₂ s₂) :
    o₁ = o₂ ∧ s₁ = s₂ := by
  obtain ⟨l, n, e, hl, h⟩ := h₁
  obtain ⟨l', n', e', hl', h'⟩ := h₂
  obtain rfl : l = l' := Option.some.inj (hl.symm.trans hl')
  have a := run_mono (Nat.le_max_left n n') _ _ _ _ _ _ h
  have b := run_mono (Nat.le_max_right n n') _ _ _ _ _ _ h'
  have := Option.some.inj (a.symm.trans b)
  simp only [Prod.mk.injEq] at this
  exact ⟨this.1, this.2.2⟩

/-- C56: whatever the other operations, constants and conditions mean, the lowered function has the
outcomes of the function as written: called with the same arguments in the same state it ends in the
same way (the same values returned, the same trap) in the same state, or like the original it does
not end. -/
theorem C56_lowering_preserves_behaviour (c c' : Ctx) (hc : WF c) (h : lowerFunc c = some c')
    (I : Interp) (args : List I.V) (s : I.S) (o : Out I.V) (s' : I.S) :
    Behaves I c'.blocks args s o s' ↔ Behaves I c.blocks args s o s' := by
  obtain ⟨c₁, h₁, -, h₂, -⟩ := lowerFunc_done hc
  obtain rfl : c₁ = c' := Option.some.inj (h₁.symm.trans h)
  exact (h₂ I args s o s').symm

example : Behaves ints sampleLowered.blocks [(2 : Int)] [] (.exit 8 [(2 : Int)]) [(2 : Int)] :=
  (C56_lowering_preserves_behaviour sample sampleLowered sample_wf sample_lowered ints _ _ _ _).2
    ⟨0, 10, _, rfl, rfl⟩

/-- C56: in particular, if the original never goes wrong (jumps nowhere, misses a terminator), neither
does the lowered function. -/
theorem C56_never_stuck (c c' : Ctx) (hc : WF c) (h : lowerFunc c = some c') (I : Interp)
    (args : List I.V) (s : I.S) (hs : ∀ s', ¬ Behaves I c.blocks args s .stuck s') :
    ∀ s', ¬ Behaves I c'.blocks args s .stuck s' := fun s' hb =>
  hs s' ((C56_lowering_preserves_behaviour c c' hc h I args s .stuck s').1 hb)

/-! ## C57 -/

/-- C57: the lowering of a function that satisfies the rules of the IR ends without a panic. -/
theorem C57_ends (c : Ctx) (hc : WF c) : ∃ c', lowerFunc c = some c' := by
  obtain ⟨c', h, -⟩ := lowerFunc_done hc
  exact ⟨c', h⟩

example : ∃ c', lowerFunc sample = some c' := C57_ends sample sample_wf

/-- C57: no operation of the structured dialect is left, and the result satisfies the rules again:
every block has its own label, every value one definition, every branch a target in the function,
terminators end their blocks. -/
theorem C57_only_branches_left (c c' : Ctx) (hc : WF c) (h : lowerFunc c = some c') :
    WF c' ∧ ∀ blk ∈ c'.blocks, ∀ op ∈ blk.ops, op.structured = false := by
  obtain ⟨c₁, h₁, h₂, -, h₃⟩ := lowerFunc_done hc
  obtain rfl : c₁ = c' := Option.some.inj (h₁.symm.trans h)
  exact ⟨h₂, h₃⟩

example : WF sampleLowered := (C57_only_branches_left sample _ sample_wf sample_lowered).1

theorem transformBlock_mono {n n' : Nat} (hn : n ≤ n') (b : Label) (c c' : Ctx)
    (h : transformBlock n b c = some c') : transformBlock n' b c = some c' := by
  induction n generalizing n' b c c' with
  | zero => cases h
  | succ n ih =>
    obtain ⟨m, rfl⟩ : ∃ m, n' = m + 1 := ⟨n' - 1, by omega⟩
    have hnm : n ≤ m := by omega
    have hfold : ∀ (inl : List Label) (c₁ : Ctx),
        inl.foldlM (fun c l => transformBlock n l c) c₁ = some c' →
        inl.foldlM (fun c l => transformBlock m l c) c₁ = some c' := by
      intro inl
      induction inl with
      | nil => intro c₁ h; exact h
      | cons a inl ih2 =>
        intro c₁ h
        rw [List.foldlM_cons] at h ⊢
        cases h1 : transformBlock n a c₁ with
        | none => rw [h1] at h; cases h
        | some c₂ => rw [ih hnm a c₁ c₂ h1]; rw [h1] at h; exact ih2 c₂ h
    unfold transformBlock at h ⊢
    cases hf : findBlock b c.blocks with
    | none => rw [hf] at h; cases h
    | some blk =>
      obtain ⟨l, ps, ops⟩ := blk
      rw [hf] at h
      simp only at h ⊢
      cases hs : splitScf ops with
      | none => rw [hs] at h; exact h
      | some q =>
        obtain ⟨before, op, after⟩ := q
        rw [hs] at h
        simp only at h ⊢
        cases hl : lowerOp c b ps before op after with
        | untouched => rw [hl] at h; exact h
        | panic => rw [hl] at h; exact h
        | done c₁ inl => rw [hl] at h; exact hfold inl c₁ h

theorem transformRegion_mono {f f' : Nat} (hf : f ≤ f') {n n' : Nat} (hn : n ≤ n') (i : Nat)
    (c c' : Ctx) (h : transformRegion f n i c = some c') : transformRegion f' n' i c = some c' := by
  induction n generalizing n' i c with
  | zero => cases h
  | succ n ih =>
    obtain ⟨m, rfl⟩ : ∃ m, n' = m + 1 := ⟨n' - 1, by omega⟩
    unfold transformRegion at h ⊢
    cases hb : c.blocks[i]? with
    | none => rw [hb] at h; exact h
    | some blk =>
      rw [hb] at h
      simp only at h ⊢
      cases ht : transformBlock f blk.label c with
      | none => rw [ht] at h; cases h
      | some c₁ =>
        rw [ht] at h
        rw [transformBlock_mono hf _ _ _ ht]
        exact ih (by omega) _ _ h

/-- C57: the limits on rounds and recursion that the model has, and the code has not, change nothing:
with any larger ones the result is the same. -/
theorem C57_limits_do_not_matter (c : Ctx) (hc : WF c) (fuel rounds : Nat)
    (hf : weightB c.blocks < fuel) (hr : weightB c.blocks < rounds) :
    transformRegion fuel rounds 0 c = lowerFunc c := by
  obtain ⟨c', h⟩ := C57_ends c hc
  rw [h]
  exact transformRegion_mono hf hr 0 c c' h

example : transformRegion 100 200 0 sample = some sampleLowered :=
  (C57_limits_do_not_matter sample sample_wf 100 200 (by decide) (by decide)).trans sample_lowered

end Verif.ScfToCf
