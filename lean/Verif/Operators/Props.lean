import Verif.Operators.Spec
import Verif.Operators.Proofs
/-!
# C54, C55: numeric operators
-/
namespace Verif.Operators

/-- Floats for the examples: integers with no fractions. -/
def toyFloats : Floats where
  F _ := Int
  add := (· + ·)
  sub := (· - ·)
  mul := (· * ·)
  div := Int.tdiv
  neg := (- ·)
  eq x y := x == y
  lt x y := decide (x < y)
  le x y := decide (x ≤ y)
  promote x := x
  demote x := x
  ofInt _ z := z
  toInt x := some x

/-! ## C54: operators compute what they are written to compute -/

/-- On the native target, every operator of `Int`, applied directly or through its function value,
computes its meaning for all operands. -/
theorem C54_native_int (fl : Floats) (route : Route) (s : Sym) (x y : BitVec 32) :
    IntMeaning x.toInt y.toInt (operator (runNative fl) route "Int" s .i32 (.int 32 x) (.int 32 y))
      s :=
  native_int route s x y

-- -7 / 2 is -3; 2147483647 + 1 wraps; the smallest number divided by -1 traps.
example : operator (runNative toyFloats) .call "Int" .div .i32 (.int 32 (-7)) (.int 32 2) =
    .value (.int 32 (-3)) := by rw [operator_int]; rfl
example : operator (runNative toyFloats) .value "Int" .add .i32 (.int 32 2147483647) (.int 32 1) =
    .value (.int 32 (BitVec.intMin 32)) := by rw [operator_int]; rfl
example : operator (runNative toyFloats) .call "Int" .div .i32 (.int 32 (BitVec.intMin 32))
    (.int 32 (-1)) = .trap := by rw [operator_int]; rfl

/-- On the native target, every operator of `Nat` computes its meaning for all operands. -/
theorem C54_native_nat (fl : Floats) (route : Route) (s : Sym) (x y : BitVec 32) :
    NatMeaning x.toNat y.toNat (operator (runNative fl) route "Nat" s .i32 (.int 32 x) (.int 32 y))
      s :=
  native_nat route s x y

-- 4294967295 / 2 is 2147483647, where a signed division would give 0.
example : operator (runNative toyFloats) .call "Nat" .div .i32 (.int 32 4294967295) (.int 32 2) =
    .value (.int 32 2147483647) := by rw [operator_nat]; rfl

/-- On the native target, every operator of `Float` computes its meaning for all operands. -/
theorem C54_native_float (fl : Floats) (route : Route) (s : Sym) (x y : fl.F .double) :
    FloatMeaning x y
      (operator (runNative fl) route "Float" s .f64 (.flt .double x) (.flt .double y)) s :=
  native_float route s x y

example : operator (runNative toyFloats) .call "Float" .sub .f64 (.flt .double (5 : Int))
    (.flt .double (7 : Int)) = .value (.flt .double (-2 : Int)) := by
  rw [operator_float _ _ _ (by decide)]; rfl

/-- On WebAssembly, every operator of `Int` computes its meaning. -/
theorem C54_wasm_int (fl : Floats) (route : Route) (s : Sym) (x y : BitVec 32) :
    IntMeaning x.toInt y.toInt (operator (runWasm fl) route "Int" s .i32 (.int 32 x) (.int 32 y))
      s :=
  wasm_int route s x y

/-- On WebAssembly, every operator of `Float` computes its meaning. -/
theorem C54_wasm_float (fl : Floats) (route : Route) (s : Sym) (x y : fl.F .double) :
    FloatMeaning x y
      (operator (runWasm fl) route "Float" s .f64 (.flt .double x) (.flt .double y)) s :=
  wasm_float route s x y

/-- On WebAssembly, the operators of `Nat` compute their meaning, except `<=`, `>` and `>=`.
Missing: those three (see `C54_wasm_nat_violated`). -/
theorem C54_wasm_nat_partial (fl : Floats) (route : Route) (s : Sym)
    (hs : s ≠ .le ∧ s ≠ .gt ∧ s ≠ .ge) (x y : BitVec 32) :
    NatMeaning x.toNat y.toNat (operator (runWasm fl) route "Nat" s .i32 (.int 32 x) (.int 32 y))
      s :=
  wasm_nat route s hs x y

example : operator (runWasm toyFloats) .call "Nat" .lt .i32 (.int 32 1) (.int 32 4294967295) =
    .value (.int 32 1) := by rw [operator_nat]; rfl

/-- The operators `<=`, `>` and `>=` of `Nat` are not available on WebAssembly: for all operands the
compiler refuses the program, so none of them computes its meaning. -/
theorem C54_wasm_nat_violated (fl : Floats) (route : Route) (s : Sym)
    (hs : s = .le ∨ s = .gt ∨ s = .ge) (x y : BitVec 32) :
    operator (runWasm fl) route "Nat" s .i32 (.int 32 x) (.int 32 y) = .rejected ∧
    ¬ NatMeaning x.toNat y.toNat
      (operator (runWasm fl) route "Nat" s .i32 (.int 32 x) (.int 32 y)) s := by
  have h : operator (runWasm fl) route "Nat" s .i32 (.int 32 x) (.int 32 y) = .rejected := by
    rw [operator_nat]
    rcases hs with rfl | rfl | rfl <;> simp [natOp, runWasm, toWasm, typeSuffix, wasmCmpi]
  refine ⟨h, ?_⟩
  rw [h]
  rcases hs with rfl | rfl | rfl <;> simp only [NatMeaning, isBool, reduceCtorEq, imp_false] <;>
    exact fun ⟨h1, h2⟩ => h2 h1

/-! ## C55: the two targets agree on each operation -/

/-- Every well-typed operation of the `arith` dialect has the same outcome on both targets, unless
it depends on a number being unsigned in a way that WebAssembly lowering does not support.
Missing: those operations (see `C55_extend_violated` and `C55_predicate_violated`). -/
theorem C55_targets_agree_partial (fl : Floats) (op : Arith) (src res : Ty) (x y : Val fl)
    (h : Typed op src res x y) (hu : ¬ NeedsUnsigned op src res) :
    runNative fl op src res x y = runWasm fl op src res x y := by
  cases op <;> simp only [Typed] at h
  case addi | subi | muli | divsi | divui | remsi | remui | and | or | xor | shl | shr | shru =>
    exact agree_intBin _ src res x y (by simp) h
  case addf | subf | mulf | divf => exact agree_fltBin _ src res x y (by simp) h
  case negi => exact agree_negi src res x y h
  case negf => exact agree_negf src res x y h
  case cmpi p => exact agree_cmpi p src res x y h.1 h.2 hu
  case cmpf p => exact agree_cmpf p src res x y h.1 h.2
  case cast | trunc | extend | convert => exact agree_conv _ src res x y (by simp) h hu

-- Negation, a shift by more than the width, and a widening cast.
example : runNative toyFloats .negi .i32 .i32 (.int 32 5) (.int 32 0) =
    .value (.int 32 (-5)) := rfl
example : runWasm toyFloats .shl .i64 .i64 (.int 64 3) (.int 64 65) = .value (.int 64 6) := rfl
example : Typed (fl := toyFloats) .cast .int .i64 (.int 32 (-1)) (.int 32 0) ∧
    runWasm toyFloats .cast .int .i64 (.int 32 (-1)) (.int 32 0) = .value (.int 64 (-1)) :=
  ⟨⟨_, _, rfl, rfl, rfl⟩, rfl⟩

/-- Widening a natural number gives different numbers on the two targets: the native one extends
4294967295 to 4294967295, WebAssembly to 18446744073709551615. -/
theorem C55_extend_violated (fl : Floats) :
    Typed (fl := fl) .extend .nat .i64 (.int 32 4294967295#32) (.int 32 0#32) ∧
    runNative fl .extend .nat .i64 (.int 32 4294967295#32) (.int 32 0#32) =
      .value (.int 64 4294967295#64) ∧
    runWasm fl .extend .nat .i64 (.int 32 4294967295#32) (.int 32 0#32) =
      .value (.int 64 18446744073709551615#64) :=
  ⟨⟨_, _, rfl, rfl, rfl⟩, rfl, rfl⟩

/-- An unsigned comparison can be compiled on one target and refused on the other. -/
theorem C55_predicate_violated (fl : Floats) :
    Typed (fl := fl) (.cmpi "ule") .i32 .i1 (.int 32 1#32) (.int 32 2#32) ∧
    runNative fl (.cmpi "ule") .i32 .i1 (.int 32 1#32) (.int 32 2#32) = .value (.int 32 1#32) ∧
    runWasm fl (.cmpi "ule") .i32 .i1 (.int 32 1#32) (.int 32 2#32) = .rejected := by
  refine ⟨⟨by simp [intPredicates], _, rfl, rfl, rfl, rfl⟩, ?_, ?_⟩
  · rw [show Ty.i1 = Ty.i1 from rfl, native_cmpi "ule" .unsignedLessThanOrEqual (by decide +kernel)]
    rfl
  · simp [runWasm, toWasm, typeSuffix, wasmCmpi]

end Verif.Operators
