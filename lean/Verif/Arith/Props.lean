import Verif.Arith.Proofs
/-!
# C16: constant folding computes what the machine computes
-/
namespace Verif.Arith


/-- For every operation except signed division and remainder: whatever the constant attributes,
if the operation is folded then executing it succeeds and yields the replacement, for every value
of the non-constant operand. In particular an unsigned division that would trap is not folded. -/
theorem C16_fold {op : BinOp} (hop : op ≠ .divsi ∧ op ≠ .remsi) {w : Nat} (h1 : 1 ≤ w)
    (h2 : w ≤ 128) {lhs rhs : Operand} {r : FoldResult} (hf : fold op w lhs rhs = some r)
    (x y : BitVec w) (hx : Holds lhs x) (hy : Holds rhs y) :
    exec op x y = some (replacement r x y) := by
  by_cases hu : op = .divui ∨ op = .remui
  · exact unsigned_division h1 h2 hu hf x y hx hy
  · exact ring_ops h1 h2 ⟨fun e => hu (.inl e), fun e => hu (.inr e), hop.1, hop.2⟩ hf x y hx hy

example : fold .addi 8 (.const 100) (.const 100) = some (.arithConst (-56)) := by decide
example : fold .divui 8 (.const (-1)) (.const 2) = some (.arithConst 127) := by decide
example : fold .muli 8 .other (.const 0) = some (.arithConst 0) := by decide
example : fold .divui 8 (.const 5) (.const 256) = none := by decide

/-- For all ten operations, when the constant attributes are sign extensions of `w`-bit values.
Missing from the full property: signed division and remainder of constants outside that range
(see `C16_fold_violated`). -/
theorem C16_fold_partial (op : BinOp) {w : Nat} (h1 : 1 ≤ w) (h2 : w ≤ 128) {lhs rhs : Operand}
    (hl : NormalOperand w lhs) (hr : NormalOperand w rhs) {r : FoldResult}
    (hf : fold op w lhs rhs = some r) (x y : BitVec w) (hx : Holds lhs x) (hy : Holds rhs y) :
    exec op x y = some (replacement r x y) := by
  by_cases hs : op = .divsi ∨ op = .remsi
  · exact signed_division h1 h2 hl hr hs hf x y hx hy
  · exact C16_fold ⟨fun e => hs (.inl e), fun e => hs (.inr e)⟩ h1 h2 hf x y hx hy

example : NormalOperand 8 (.const (-128)) ∧ NormalOperand 8 (.const 3) ∧
    fold .divsi 8 (.const (-128)) (.const 3) = some (.arithConst (-42)) ∧
    fold .divsi 8 (.const (-128)) (.const (-1)) = none ∧
    fold .remsi 8 (.const (-128)) (.const 3) = some (.arithConst (-2)) := by
  refine ⟨?_, ?_, ?_⟩
  · show Normal 8 _; unfold Normal; decide
  · show Normal 8 _; unfold Normal; decide
  · decide

/-- Constants produced by folding are again sign extensions of `w`-bit values, so folding keeps
the hypothesis of `C16_fold_partial` for the operations that use them. -/
theorem C16_result_in_range (op : BinOp) {w : Nat} (h1 : 1 ≤ w) (h2 : w ≤ 128) {lhs rhs : Operand}
    {v : I128} (hf : fold op w lhs rhs = some (.arithConst v)) :
    -(2 : Int) ^ (w - 1) ≤ v.toInt ∧ v.toInt < 2 ^ (w - 1) := by
  have hn := result_normal h1 h2 hf
  rw [normal_toInt h2 hn]
  exact ⟨BitVec.le_toInt _, BitVec.toInt_lt⟩

example : fold .muli 8 (.const 100) (.const 100) = some (.arithConst 16) := by decide

/-- With two constants the operation is left alone exactly when executing it would trap. -/
theorem C16_folds_constants (op : BinOp) {w : Nat} (h1 : 1 ≤ w) (h2 : w ≤ 128) (a b : I128)
    (ha : Normal w a) (hb : Normal w b) :
    fold op w (.const a) (.const b) = none ↔ exec op (machine w a) (machine w b) = none := by
  constructor
  · intro hf
    cases op with
    | divsi =>
      simp only [fold, foldDivsi, constIntValue, Option.bind_eq_bind, Option.bind_some] at hf
      split at hf
      · rename_i h; subst h; simp [exec, machine]
      · split at hf
        · rename_i h; simp [exec, overflow_true h1 h2 h]
        · cases hf
    | remsi =>
      simp only [fold, foldRemsi, constIntValue, Option.bind_eq_bind, Option.bind_some] at hf
      split at hf
      · rename_i h; subst h; simp [exec, machine]
      · split at hf
        · rename_i h; simp [exec, overflow_true h1 h2 h]
        · cases hf
    | divui =>
      simp only [fold, foldDivui, constIntValue, Option.bind_eq_bind, Option.bind_some] at hf
      split at hf
      · rename_i h
        have : machine w b = 0 := by
          apply BitVec.eq_of_toNat_eq; rw [← mask_machine b h2, h]; simp
        simp [exec, this]
      · cases hf
    | remui =>
      simp only [fold, foldRemui, constIntValue, Option.bind_eq_bind, Option.bind_some] at hf
      split at hf
      · rename_i h
        have : machine w b = 0 := by
          apply BitVec.eq_of_toNat_eq; rw [← mask_machine b h2, h]; simp
        simp [exec, this]
      · cases hf
    | addi => rw [fold, foldAddi] at hf; (repeat' split at hf) <;> simp [constIntValue] at hf
    | subi => rw [fold, foldSubi] at hf; (repeat' split at hf) <;> simp [constIntValue] at hf
    | muli => rw [fold, foldMuli] at hf; (repeat' split at hf) <;> simp [constIntValue] at hf
    | and => rw [fold, foldAnd] at hf; (repeat' split at hf) <;> simp [constIntValue] at hf
    | or => rw [fold, foldOr] at hf; (repeat' split at hf) <;> simp [constIntValue] at hf
    | xor => rw [fold, foldXor] at hf; (repeat' split at hf) <;> simp [constIntValue] at hf
  · intro he
    cases hf : fold op w (.const a) (.const b) with
    | none => rfl
    | some r =>
      have := C16_fold_partial op h1 h2 (lhs := .const a) (rhs := .const b) ha hb hf _ _ rfl rfl
      rw [he] at this
      cases this

example : fold .divsi 8 (.const (-128)) (.const (-1)) = none ∧
    fold .remui 8 (.const 7) (.const 0) = none := by decide

/-- A signed division of a 32-bit constant written as 3000000000 (the attribute is not reduced to
the type) folds to 1500000000, while the machine divides -1294967296 by 2. A division by the
constant 2^32, which is zero at width 32, folds although the machine traps. -/
theorem C16_fold_violated :
    (∃ (lhs rhs : Operand) (r : FoldResult) (x y : BitVec 32), fold .divsi 32 lhs rhs = some r ∧
      Holds lhs x ∧ Holds rhs y ∧ exec .divsi x y ≠ none ∧
      exec .divsi x y ≠ some (replacement r x y)) ∧
    (∃ (lhs rhs : Operand) (r : FoldResult) (x y : BitVec 32), fold .divsi 32 lhs rhs = some r ∧
      Holds lhs x ∧ Holds rhs y ∧ exec .divsi x y = none) := by
  refine ⟨⟨.const 3000000000, .const 2, .arithConst 1500000000, 3000000000, 2, by decide, ?_, ?_,
    by decide, by decide⟩, ⟨.const 1, .const 4294967296, .arithConst 0, 1, 0, by decide, ?_, ?_,
    by decide⟩⟩ <;> (unfold Holds machine; decide)

end Verif.Arith
