import Verif.Operators.Spec
/-!
# Proofs about numeric operators
-/
namespace Verif.Operators

variable {fl : Floats}

theorem wrapsSigned_toInt (z : Int) : WrapsSigned z (z.bmod (2 ^ 32)) := by
  refine ⟨?_, ?_, ?_⟩
  · have := Int.le_bmod (x := z) (m := 2 ^ 32) (by decide); omega
  · have := Int.bmod_lt (x := z) (m := 2 ^ 32) (by decide); omega
  · exact ⟨z.bdiv (2 ^ 32), by have := Int.bmod_add_bdiv z (2 ^ 32); omega⟩

theorem wrapsUnsigned_mod (z : Int) (r : Nat) (h : (r : Int) = z % 2 ^ 32) : WrapsUnsigned z r := by
  refine ⟨by omega, z / 2 ^ 32, by omega⟩

theorem isBool_flag (p : Prop) (b : Bool) (h : b = true ↔ p) :
    isBool p (.value (flag 32 b) : Outcome (Val fl)) := by
  refine ⟨fun hp => ?_, fun hp => ?_⟩
  · rw [h.mpr hp]; rfl
  · have : b = false := by cases b; rfl; exact absurd (h.mp rfl) hp
    rw [this]; rfl

/-! ## From names to operations -/

/-- The operation of each operator of `Int`. -/
def intOp : Sym → Arith
  | .add => .addi | .sub => .subi | .mul => .muli | .div => .divsi | .rem => .remsi
  | .eq => .cmpi "eq" | .ne => .cmpi "ne" | .lt => .cmpi "slt" | .le => .cmpi "sle"
  | .gt => .cmpi "sgt" | .ge => .cmpi "sge"

/-- The operation of each operator of `Nat`. -/
def natOp : Sym → Arith
  | .add => .addi | .sub => .subi | .mul => .muli | .div => .divui | .rem => .remui
  | .eq => .cmpi "eq" | .ne => .cmpi "ne" | .lt => .cmpi "ult" | .le => .cmpi "ule"
  | .gt => .cmpi "ugt" | .ge => .cmpi "uge"

/-- The operation of each operator of `Float`. -/
def floatOp : Sym → Arith
  | .add => .addf | .sub => .subf | .mul => .mulf | .div => .divf | .rem => .divf
  | .eq => .cmpf "oeq" | .ne => .cmpf "une" | .lt => .cmpf "olt" | .le => .cmpf "ole"
  | .gt => .cmpf "ogt" | .ge => .cmpf "oge"

theorem lower_int (r : Route) (s : Sym) :
    r.lower ("Int" ++ "::" ++ s.text) = some ⟨intOp s, [.lhs, .rhs]⟩ := by
  cases r <;> cases s <;> decide +kernel

theorem lower_nat (r : Route) (s : Sym) :
    r.lower ("Nat" ++ "::" ++ s.text) = some ⟨natOp s, [.lhs, .rhs]⟩ := by
  cases r <;> cases s <;> decide +kernel

theorem lower_float (r : Route) (s : Sym) (h : s ≠ .rem) :
    r.lower ("Float" ++ "::" ++ s.text) = some ⟨floatOp s, [.lhs, .rhs]⟩ := by
  cases r <;> cases s <;> first | exact absurd rfl h | decide +kernel

theorem operator_int (target : Arith → Ty → Ty → Val fl → Val fl → Outcome (Val fl)) (r : Route)
    (s : Sym) (ty : Ty) (x y : Val fl) :
    operator target r "Int" s ty x y = target (intOp s) ty (if s.isComparison then .i1 else ty) x y
    := by
  rw [operator, lower_int]
  simp [Arg.get]

theorem operator_nat (target : Arith → Ty → Ty → Val fl → Val fl → Outcome (Val fl)) (r : Route)
    (s : Sym) (ty : Ty) (x y : Val fl) :
    operator target r "Nat" s ty x y = target (natOp s) ty (if s.isComparison then .i1 else ty) x y
    := by
  rw [operator, lower_nat]
  simp [Arg.get]

theorem operator_float (target : Arith → Ty → Ty → Val fl → Val fl → Outcome (Val fl)) (r : Route)
    (s : Sym) (h : s ≠ .rem) (ty : Ty) (x y : Val fl) :
    operator target r "Float" s ty x y =
      target (floatOp s) ty (if s.isComparison then .i1 else ty) x y := by
  rw [operator, lower_float _ _ h]
  simp [Arg.get]

/-! ## Native -/

theorem native_binop (op : Arith) (c : Clif) (src res : Ty) (x y : Val fl)
    (h : toClif op src res = some [⟨c, [.lhs, .rhs], nativeType res⟩]) :
    runNative fl op src res x y = clifExec fl c (nativeType res) [x, y] := by
  simp only [runNative, h, runCode, List.mapM_cons, List.mapM_nil, Arg.get, Option.bind_eq_bind,
    Option.bind_some, Option.pure_def]
  cases clifExec fl c (nativeType res) [x, y] <;> rfl

theorem native_cmpi (p : String) (cc : IntCC) (hp : parseIntCC p = some cc) (src : Ty) {w : Nat}
    (x y : BitVec w) :
    runNative fl (.cmpi p) src .i1 (.int w x) (.int w y) = .value (flag 32 (cc.holds x y)) := by
  simp only [runNative, toClif, finalizeCmp, nativeType, runCode, List.mapM_cons, List.mapM_nil,
    Arg.get, Option.bind_eq_bind, Option.bind_some, Option.pure_def, clifExec, hp, intBin,
    Outcome.bind, translateType, flag, reduceCtorEq, if_false, dif_pos]
  cases cc.holds x y <;> simp [Outcome.bind]

theorem native_cmpf (p : String) (cc : FloatCC) (hp : parseFloatCC (clifFloatCond p) = some cc)
    (src : Ty) {w : FW} (x y : fl.F w) :
    runNative fl (.cmpf p) src .i1 (.flt w x) (.flt w y) = .value (flag 32 (cc.holds x y)) := by
  simp only [runNative, toClif, finalizeCmp, nativeType, runCode, List.mapM_cons, List.mapM_nil,
    Arg.get, Option.bind_eq_bind, Option.bind_some, Option.pure_def, clifExec, hp, fltBin,
    Outcome.bind, translateType, flag, reduceCtorEq, if_false, dif_pos]
  cases cc.holds x y <;> simp [Outcome.bind]

/-! ## Machine arithmetic is arithmetic -/

theorem add_int (x y : BitVec 32) :
    isInt (WrapsSigned (x.toInt + y.toInt)) (.value (.int 32 (x + y)) : Outcome (Val fl)) :=
  ⟨_, rfl, by rw [BitVec.toInt_add]; exact wrapsSigned_toInt _⟩

theorem sub_int (x y : BitVec 32) :
    isInt (WrapsSigned (x.toInt - y.toInt)) (.value (.int 32 (x - y)) : Outcome (Val fl)) :=
  ⟨_, rfl, by rw [BitVec.toInt_sub]; exact wrapsSigned_toInt _⟩

theorem mul_int (x y : BitVec 32) :
    isInt (WrapsSigned (x.toInt * y.toInt)) (.value (.int 32 (x * y)) : Outcome (Val fl)) :=
  ⟨_, rfl, by rw [BitVec.toInt_mul]; exact wrapsSigned_toInt _⟩

theorem div_int (x y : BitVec 32) :
    IntMeaning x.toInt y.toInt (divS 32 x y : Outcome (Val fl)) .div := by
  refine ⟨fun h => ?_, fun h => ?_⟩
  · rcases h with h | ⟨h1, h2⟩
    · simp [divS, h]
    · simp [divS, h1, h2]
  · have h0 : ¬ y.toInt = 0 := fun e => h (.inl e)
    have h1 : ¬ (x.toInt = -(2 : Int) ^ 31 ∧ y.toInt = -1) := fun e => h (.inr e)
    refine ⟨x.sdiv y, by simp only [divS, if_neg h0, Nat.reduceSub, if_neg h1], ?_⟩
    refine BitVec.toInt_sdiv_of_ne_or_ne x y ?_
    refine Classical.byContradiction fun hc => h1 ?_
    have ⟨ha, hb⟩ : x = BitVec.intMin 32 ∧ y = -1#32 := by
      constructor
      · exact Classical.byContradiction fun e => hc (.inl e)
      · exact Classical.byContradiction fun e => hc (.inr e)
    subst ha; subst hb; decide

theorem rem_int (x y : BitVec 32) :
    IntMeaning x.toInt y.toInt (remS 32 x y : Outcome (Val fl)) .rem := by
  refine ⟨fun h => by simp [remS, h], fun h => ⟨x.srem y, by simp only [remS, if_neg h], ?_⟩⟩
  exact BitVec.toInt_srem x y

theorem add_nat (x y : BitVec 32) :
    isNat (WrapsUnsigned (x.toNat + y.toNat)) (.value (.int 32 (x + y)) : Outcome (Val fl)) :=
  ⟨_, rfl, wrapsUnsigned_mod _ _ (by rw [BitVec.toNat_add]; omega)⟩

theorem sub_nat (x y : BitVec 32) :
    isNat (WrapsUnsigned ((x.toNat : Int) - y.toNat)) (.value (.int 32 (x - y)) : Outcome (Val fl)) :=
  ⟨_, rfl, wrapsUnsigned_mod _ _ (by
    rw [BitVec.toNat_sub]; have := y.isLt; omega)⟩

theorem mul_nat (x y : BitVec 32) :
    isNat (WrapsUnsigned (x.toNat * y.toNat)) (.value (.int 32 (x * y)) : Outcome (Val fl)) :=
  ⟨_, rfl, wrapsUnsigned_mod _ _ (by
    rw [BitVec.toNat_mul, Int.natCast_emod, Int.natCast_mul]; rfl)⟩

theorem div_nat (x y : BitVec 32) :
    NatMeaning x.toNat y.toNat (divU 32 x y : Outcome (Val fl)) .div :=
  ⟨fun h => by simp only [divU, if_pos h],
    fun h => ⟨x.udiv y, by simp only [divU, if_neg h], BitVec.toNat_udiv⟩⟩

theorem rem_nat (x y : BitVec 32) :
    NatMeaning x.toNat y.toNat (remU 32 x y : Outcome (Val fl)) .rem :=
  ⟨fun h => by simp only [remU, if_pos h],
    fun h => ⟨x.umod y, by simp only [remU, if_neg h], BitVec.toNat_umod⟩⟩

theorem eq_int (x y : BitVec 32) : (x == y) = true ↔ x.toInt = y.toInt := by
  simp [BitVec.toInt_inj]

theorem eq_nat (x y : BitVec 32) : (x == y) = true ↔ x.toNat = y.toNat := by
  simp [BitVec.toNat_inj]

/-- The results of the machine's integer instructions mean what `Int`'s operators promise. -/
def IntTable (run : Sym → Outcome (Val fl)) (x y : BitVec 32) : Prop :=
  run .add = .value (.int 32 (x + y)) ∧ run .sub = .value (.int 32 (x - y)) ∧
  run .mul = .value (.int 32 (x * y)) ∧ run .div = divS 32 x y ∧ run .rem = remS 32 x y ∧
  run .eq = .value (flag 32 (x == y)) ∧ run .ne = .value (flag 32 (!(x == y))) ∧
  run .lt = .value (flag 32 (decide (x.toInt < y.toInt))) ∧
  run .le = .value (flag 32 (decide (x.toInt ≤ y.toInt))) ∧
  run .gt = .value (flag 32 (decide (y.toInt < x.toInt))) ∧
  run .ge = .value (flag 32 (decide (y.toInt ≤ x.toInt)))

theorem IntTable.meaning {run : Sym → Outcome (Val fl)} {x y : BitVec 32} (h : IntTable run x y)
    (s : Sym) : IntMeaning x.toInt y.toInt (run s) s := by
  obtain ⟨h1, h2, h3, h4, h5, h6, h7, h8, h9, h10, h11⟩ := h
  cases s
  · rw [h1]; exact add_int x y
  · rw [h2]; exact sub_int x y
  · rw [h3]; exact mul_int x y
  · rw [h4]; exact div_int x y
  · rw [h5]; exact rem_int x y
  · rw [h6]; exact isBool_flag _ _ (eq_int x y)
  · rw [h7]; exact isBool_flag _ _ (by rw [Bool.not_eq_true', ← Bool.not_eq_true]; exact not_congr (eq_int x y))
  · rw [h8]; exact isBool_flag _ _ decide_eq_true_iff
  · rw [h9]; exact isBool_flag _ _ decide_eq_true_iff
  · rw [h10]; exact isBool_flag _ _ decide_eq_true_iff
  · rw [h11]; exact isBool_flag _ _ decide_eq_true_iff

theorem native_int (route : Route) (s : Sym) (x y : BitVec 32) :
    IntMeaning x.toInt y.toInt (operator (runNative fl) route "Int" s .i32 (.int 32 x) (.int 32 y))
      s := by
  refine IntTable.meaning
    (run := fun s => operator (runNative fl) route "Int" s .i32 (.int 32 x) (.int 32 y)) ?_ s
  simp only [IntTable, operator_int, intOp, Sym.isComparison, if_true]
  refine ⟨?_, ?_, ?_, ?_, ?_, ?_, ?_, ?_, ?_, ?_, ?_⟩
  · exact native_binop .addi .iadd .i32 .i32 _ _ rfl
  · exact native_binop .subi .isub .i32 .i32 _ _ rfl
  · exact native_binop .muli .imul .i32 .i32 _ _ rfl
  · exact native_binop .divsi .sdiv .i32 .i32 _ _ rfl
  · exact native_binop .remsi .srem .i32 .i32 _ _ rfl
  all_goals first
    | exact native_cmpi _ .equal (by decide +kernel) _ _ _
    | exact native_cmpi _ .notEqual (by decide +kernel) _ _ _
    | exact native_cmpi _ .signedLessThan (by decide +kernel) _ _ _
    | exact native_cmpi _ .signedLessThanOrEqual (by decide +kernel) _ _ _
    | exact native_cmpi _ .signedGreaterThan (by decide +kernel) _ _ _
    | exact native_cmpi _ .signedGreaterThanOrEqual (by decide +kernel) _ _ _
    | exact native_cmpi _ .unsignedLessThan (by decide +kernel) _ _ _
    | exact native_cmpi _ .unsignedLessThanOrEqual (by decide +kernel) _ _ _
    | exact native_cmpi _ .unsignedGreaterThan (by decide +kernel) _ _ _
    | exact native_cmpi _ .unsignedGreaterThanOrEqual (by decide +kernel) _ _ _

/-- The results of the machine's unsigned integer instructions. -/
def NatTable (run : Sym → Outcome (Val fl)) (x y : BitVec 32) (s : Sym) : Prop :=
  match s with
  | .add => run .add = .value (.int 32 (x + y))
  | .sub => run .sub = .value (.int 32 (x - y))
  | .mul => run .mul = .value (.int 32 (x * y))
  | .div => run .div = divU 32 x y
  | .rem => run .rem = remU 32 x y
  | .eq => run .eq = .value (flag 32 (x == y))
  | .ne => run .ne = .value (flag 32 (!(x == y)))
  | .lt => run .lt = .value (flag 32 (decide (x.toNat < y.toNat)))
  | .le => run .le = .value (flag 32 (decide (x.toNat ≤ y.toNat)))
  | .gt => run .gt = .value (flag 32 (decide (y.toNat < x.toNat)))
  | .ge => run .ge = .value (flag 32 (decide (y.toNat ≤ x.toNat)))

theorem NatTable.meaning {run : Sym → Outcome (Val fl)} {x y : BitVec 32} {s : Sym}
    (h : NatTable run x y s) : NatMeaning x.toNat y.toNat (run s) s := by
  cases s <;> (simp only [NatTable] at h; rw [h])
  · exact add_nat x y
  · exact sub_nat x y
  · exact mul_nat x y
  · exact div_nat x y
  · exact rem_nat x y
  · exact isBool_flag _ _ (eq_nat x y)
  · exact isBool_flag _ _ (by rw [Bool.not_eq_true', ← Bool.not_eq_true]; exact not_congr (eq_nat x y))
  all_goals exact isBool_flag _ _ decide_eq_true_iff

theorem native_nat (route : Route) (s : Sym) (x y : BitVec 32) :
    NatMeaning x.toNat y.toNat (operator (runNative fl) route "Nat" s .i32 (.int 32 x) (.int 32 y))
      s := by
  refine NatTable.meaning
    (run := fun s => operator (runNative fl) route "Nat" s .i32 (.int 32 x) (.int 32 y)) ?_
  cases s <;> simp only [NatTable, operator_nat, natOp, Sym.isComparison, if_true]
  · exact native_binop .addi .iadd .i32 .i32 _ _ rfl
  · exact native_binop .subi .isub .i32 .i32 _ _ rfl
  · exact native_binop .muli .imul .i32 .i32 _ _ rfl
  · exact native_binop .divui .udiv .i32 .i32 _ _ rfl
  · exact native_binop .remui .urem .i32 .i32 _ _ rfl
  all_goals first
    | exact native_cmpi _ .equal (by decide +kernel) _ _ _
    | exact native_cmpi _ .notEqual (by decide +kernel) _ _ _
    | exact native_cmpi _ .signedLessThan (by decide +kernel) _ _ _
    | exact native_cmpi _ .signedLessThanOrEqual (by decide +kernel) _ _ _
    | exact native_cmpi _ .signedGreaterThan (by decide +kernel) _ _ _
    | exact native_cmpi _ .signedGreaterThanOrEqual (by decide +kernel) _ _ _
    | exact native_cmpi _ .unsignedLessThan (by decide +kernel) _ _ _
    | exact native_cmpi _ .unsignedLessThanOrEqual (by decide +kernel) _ _ _
    | exact native_cmpi _ .unsignedGreaterThan (by decide +kernel) _ _ _
    | exact native_cmpi _ .unsignedGreaterThanOrEqual (by decide +kernel) _ _ _

/-- The results of the machine's float instructions. -/
def FloatTable (run : Sym → Outcome (Val fl)) (x y : fl.F .double) (s : Sym) : Prop :=
  match s with
  | .add => run .add = .value (.flt .double (fl.add x y))
  | .sub => run .sub = .value (.flt .double (fl.sub x y))
  | .mul => run .mul = .value (.flt .double (fl.mul x y))
  | .div => run .div = .value (.flt .double (fl.div x y))
  | .rem => True
  | .eq => run .eq = .value (flag 32 (fl.eq x y))
  | .ne => run .ne = .value (flag 32 (!fl.eq x y))
  | .lt => run .lt = .value (flag 32 (fl.lt x y))
  | .le => run .le = .value (flag 32 (fl.le x y))
  | .gt => run .gt = .value (flag 32 (fl.lt y x))
  | .ge => run .ge = .value (flag 32 (fl.le y x))

theorem FloatTable.meaning {run : Sym → Outcome (Val fl)} {x y : fl.F .double} {s : Sym}
    (h : FloatTable run x y s) : FloatMeaning x y (run s) s := by
  cases s <;> simp only [FloatTable] at h <;> simp only [FloatMeaning] <;> try exact h
  all_goals (rw [h]; apply isBool_flag; simp)

theorem native_float (route : Route) (s : Sym) (x y : fl.F .double) :
    FloatMeaning x y
      (operator (runNative fl) route "Float" s .f64 (.flt .double x) (.flt .double y)) s := by
  refine FloatTable.meaning
    (run := fun s => operator (runNative fl) route "Float" s .f64 (.flt .double x) (.flt .double y)) ?_
  cases s <;> simp only [FloatTable] <;> try rw [operator_float _ _ _ (by decide)]
  · exact native_binop .addf .fadd .f64 .f64 _ _ rfl
  · exact native_binop .subf .fsub .f64 .f64 _ _ rfl
  · exact native_binop .mulf .fmul .f64 .f64 _ _ rfl
  · exact native_binop .divf .fdiv .f64 .f64 _ _ rfl
  all_goals first
    | exact native_cmpf _ .equal (by decide +kernel) _ _ _
    | exact native_cmpf _ .notEqual (by decide +kernel) _ _ _
    | exact native_cmpf _ .lessThan (by decide +kernel) _ _ _
    | exact native_cmpf _ .lessThanOrEqual (by decide +kernel) _ _ _
    | exact native_cmpf _ .greaterThan (by decide +kernel) _ _ _
    | exact native_cmpf _ .greaterThanOrEqual (by decide +kernel) _ _ _

/-! ## WebAssembly -/

@[simp] theorem Outcome.bind_value {α : Type} (o : Outcome α) :
    o.bind (fun v => .value v) = o := by cases o <;> rfl

theorem wasm_int (route : Route) (s : Sym) (x y : BitVec 32) :
    IntMeaning x.toInt y.toInt (operator (runWasm fl) route "Int" s .i32 (.int 32 x) (.int 32 y))
      s := by
  refine IntTable.meaning
    (run := fun s => operator (runWasm fl) route "Int" s .i32 (.int 32 x) (.int 32 y)) ?_ s
  simp only [IntTable, operator_int, intOp, Sym.isComparison, if_true]
  refine ⟨?_, ?_, ?_, ?_, ?_, ?_, ?_, ?_, ?_, ?_, ?_⟩ <;>
    simp [runWasm, toWasm, wasmBinOp, typeSuffix, wasmCmpi, runCode, Arg.get, wasmExec, wasmInt]

theorem wasm_nat (route : Route) (s : Sym) (hs : s ≠ .le ∧ s ≠ .gt ∧ s ≠ .ge) (x y : BitVec 32) :
    NatMeaning x.toNat y.toNat (operator (runWasm fl) route "Nat" s .i32 (.int 32 x) (.int 32 y))
      s := by
  refine NatTable.meaning
    (run := fun s => operator (runWasm fl) route "Nat" s .i32 (.int 32 x) (.int 32 y)) ?_
  cases s <;> simp only [NatTable, operator_nat, natOp, Sym.isComparison, if_true] <;>
    first
    | (simp only [ne_eq, not_true_eq_false, false_and, and_false] at hs; done)
    | simp [runWasm, toWasm, wasmBinOp, typeSuffix, wasmCmpi, runCode, Arg.get, wasmExec, wasmInt]

theorem wasm_float (route : Route) (s : Sym) (x y : fl.F .double) :
    FloatMeaning x y
      (operator (runWasm fl) route "Float" s .f64 (.flt .double x) (.flt .double y)) s := by
  refine FloatTable.meaning
    (run := fun s => operator (runWasm fl) route "Float" s .f64 (.flt .double x) (.flt .double y)) ?_
  cases s <;> simp only [FloatTable] <;> try rw [operator_float _ _ _ (by decide)]
  all_goals simp [floatOp, Sym.isComparison, runWasm, toWasm, wasmBinOp, typeSuffix, wasmCmpf,
    runCode, Arg.get, wasmExec, wasmFlt]

/-! ## Both targets -/

theorem has_int {v : Val fl} {w : Nat} (h : v.Has (.int w)) : ∃ b : BitVec w, v = .int w b := by
  match v, h with
  | .int w' b, h => cases h; exact ⟨b, rfl⟩

theorem has_f32 {v : Val fl} (h : v.Has .f32) : ∃ b, v = .flt .single b := by
  match v, h with
  | .flt .single b, _ => exact ⟨b, rfl⟩

theorem has_f64 {v : Val fl} (h : v.Has .f64) : ∃ b, v = .flt .double b := by
  match v, h with
  | .flt .double b, _ => exact ⟨b, rfl⟩

/-- The types that both targets represent, by representation. -/
theorem rep_cases {t : Ty} {r : ClifTy} (h : rep t = some r) :
    (r = .int 32 ∧ typeSuffix t = .i32 ∧ nativeType t = .i32 ∧ typeCategory t = .int) ∨
    (r = .int 64 ∧ t = .i64) ∨ (r = .f32 ∧ t = .f32) ∨ (r = .f64 ∧ t = .f64) := by
  cases t <;> simp [rep] at h <;> subst h <;> simp [typeSuffix, nativeType, typeCategory]

theorem rep_int {t : Ty} {w : Nat} (h : rep t = some (.int w)) :
    (w = 32 ∧ typeSuffix t = .i32 ∧ nativeType t = .i32) ∨ (w = 64 ∧ t = .i64) := by
  rcases rep_cases h with ⟨h1, h2, h3, _⟩ | ⟨h1, h2⟩ | ⟨h1, _⟩ | ⟨h1, _⟩ <;> cases h1
  · exact .inl ⟨rfl, h2, h3⟩
  · exact .inr ⟨rfl, h2⟩

theorem agree_intBin (op : Arith) (src res : Ty) (x y : Val fl)
    (hop : op ∈ [Arith.addi, .subi, .muli, .divsi, .divui, .remsi, .remui, .and, .or, .xor, .shl,
      .shr, .shru])
    (h : ∃ w, rep src = some (.int w) ∧ rep res = some (.int w) ∧ x.Has (.int w) ∧ y.Has (.int w)) :
    runNative fl op src res x y = runWasm fl op src res x y := by
  obtain ⟨w, _, h2, hx, hy⟩ := h
  obtain ⟨x, rfl⟩ := has_int hx
  obtain ⟨y, rfl⟩ := has_int hy
  simp only [List.mem_cons, List.not_mem_nil, or_false] at hop
  rcases rep_int h2 with ⟨rfl, hs, hn⟩ | ⟨rfl, rfl⟩
  · rcases hop with rfl | rfl | rfl | rfl | rfl | rfl | rfl | rfl | rfl | rfl | rfl | rfl | rfl <;>
      simp [runNative, runWasm, toClif, toWasm, clifBinOp, clifBitwise, wasmBinOp, wasmBitwise, hs,
        hn, runCode, Arg.get, clifExec, wasmExec, intBin, wasmInt]
  · rcases hop with rfl | rfl | rfl | rfl | rfl | rfl | rfl | rfl | rfl | rfl | rfl | rfl | rfl <;>
      simp [runNative, runWasm, toClif, toWasm, clifBinOp, clifBitwise, wasmBinOp, wasmBitwise,
        typeSuffix, nativeType, runCode, Arg.get, clifExec, wasmExec, intBin, wasmInt]

theorem agree_fltBin (op : Arith) (src res : Ty) (x y : Val fl)
    (hop : op ∈ [Arith.addf, .subf, .mulf, .divf])
    (h : ∃ t, (t = .f32 ∨ t = .f64) ∧ rep src = some t ∧ rep res = some t ∧ x.Has t ∧ y.Has t) :
    runNative fl op src res x y = runWasm fl op src res x y := by
  obtain ⟨t, ht, _, h2, hx, hy⟩ := h
  simp only [List.mem_cons, List.not_mem_nil, or_false] at hop
  rcases ht with rfl | rfl
  · obtain ⟨x, rfl⟩ := has_f32 hx
    obtain ⟨y, rfl⟩ := has_f32 hy
    obtain rfl : res = .f32 := by cases res <;> simp [rep] at h2 <;> rfl
    rcases hop with rfl | rfl | rfl | rfl <;>
      simp [runNative, runWasm, toClif, toWasm, clifBinOp, wasmBinOp, typeSuffix, nativeType,
        runCode, Arg.get, clifExec, wasmExec, fltBin, wasmFlt]
  · obtain ⟨x, rfl⟩ := has_f64 hx
    obtain ⟨y, rfl⟩ := has_f64 hy
    obtain rfl : res = .f64 := by cases res <;> simp [rep] at h2 <;> rfl
    rcases hop with rfl | rfl | rfl | rfl <;>
      simp [runNative, runWasm, toClif, toWasm, clifBinOp, wasmBinOp, typeSuffix, nativeType,
        runCode, Arg.get, clifExec, wasmExec, fltBin, wasmFlt]

theorem agree_negi (src res : Ty) (x y : Val fl)
    (h : ∃ w, rep src = some (.int w) ∧ rep res = some (.int w) ∧ x.Has (.int w)) :
    runNative fl .negi src res x y = runWasm fl .negi src res x y := by
  obtain ⟨w, _, h2, hx⟩ := h
  obtain ⟨x, rfl⟩ := has_int hx
  rcases rep_int h2 with ⟨rfl, hs, hn⟩ | ⟨rfl, rfl⟩
  · simp [runNative, runWasm, toClif, toWasm, wasmNeg, hs, hn, runCode, Arg.get, clifExec, wasmExec,
      wasmInt, Outcome.bind]
  · simp [runNative, runWasm, toClif, toWasm, wasmNeg, typeSuffix, nativeType, runCode, Arg.get,
      clifExec, wasmExec, wasmInt, Outcome.bind]

theorem agree_negf (src res : Ty) (x y : Val fl)
    (h : ∃ t, (t = .f32 ∨ t = .f64) ∧ rep src = some t ∧ rep res = some t ∧ x.Has t) :
    runNative fl .negf src res x y = runWasm fl .negf src res x y := by
  obtain ⟨t, ht, _, h2, hx⟩ := h
  rcases ht with rfl | rfl
  · obtain ⟨x, rfl⟩ := has_f32 hx
    obtain rfl : res = .f32 := by cases res <;> simp [rep] at h2 <;> rfl
    simp [runNative, runWasm, toClif, toWasm, wasmNeg, typeSuffix, nativeType, runCode, Arg.get,
      clifExec, wasmExec, wasmFlt1, Outcome.bind]
  · obtain ⟨x, rfl⟩ := has_f64 hx
    obtain rfl : res = .f64 := by cases res <;> simp [rep] at h2 <;> rfl
    simp [runNative, runWasm, toClif, toWasm, wasmNeg, typeSuffix, nativeType, runCode, Arg.get,
      clifExec, wasmExec, wasmFlt1, Outcome.bind]

theorem setWidth_flag (p : Prop) [Decidable p] :
    BitVec.setWidth 32 (if p then 1#8 else 0#8) = if p then 1#32 else 0#32 := by
  split <;> rfl

theorem setWidth_flag' (p : Prop) [Decidable p] :
    BitVec.setWidth 32 (if p then 0#8 else 1#8) = if p then 0#32 else 1#32 := by
  split <;> rfl

theorem nativeType_32 {t : Ty} (h : rep t = some (.int 32)) : nativeType t = .i32 := by
  rcases rep_int h with ⟨_, _, h⟩ | ⟨h, _⟩
  · exact h
  · cases h

theorem agree_cmpi (p : String) (src res : Ty) (x y : Val fl) (hp : p ∈ intPredicates)
    (h : ∃ w, rep src = some (.int w) ∧ rep res = some (.int 32) ∧ x.Has (.int w) ∧ y.Has (.int w))
    (hu : ¬ NeedsUnsigned (.cmpi p) src res) :
    runNative fl (.cmpi p) src res x y = runWasm fl (.cmpi p) src res x y := by
  obtain ⟨w, h1, h2, hx, hy⟩ := h
  obtain ⟨x, rfl⟩ := has_int hx
  obtain ⟨y, rfl⟩ := has_int hy
  have hr := nativeType_32 h2
  simp only [intPredicates, List.mem_cons, List.not_mem_nil, or_false] at hp
  rcases rep_int h1 with ⟨rfl, hs, -⟩ | ⟨rfl, rfl⟩
  · rcases hp with rfl | rfl | rfl | rfl | rfl | rfl | rfl | rfl | rfl | rfl <;>
      first
      | (simp [NeedsUnsigned] at hu; done)
      | (simp only [runNative, runWasm, toClif, toWasm, hr, hs, finalizeCmp, wasmCmpi]
         simp [runCode, Arg.get, clifExec, wasmExec, intBin, wasmInt, Outcome.bind, flag,
           translateType, parseIntCC, IntCC.holds, setWidth_flag, setWidth_flag'])
  · rcases hp with rfl | rfl | rfl | rfl | rfl | rfl | rfl | rfl | rfl | rfl <;>
      first
      | (simp [NeedsUnsigned, rep] at hu; done)
      | (simp only [runNative, runWasm, toClif, toWasm, hr, typeSuffix, finalizeCmp, wasmCmpi]
         simp [runCode, Arg.get, clifExec, wasmExec, intBin, wasmInt, Outcome.bind, flag,
           translateType, parseIntCC, IntCC.holds, setWidth_flag, setWidth_flag'])

theorem agree_cmpf (p : String) (src res : Ty) (x y : Val fl) (hp : p ∈ floatPredicates)
    (h : ∃ t, (t = .f32 ∨ t = .f64) ∧ rep src = some t ∧ rep res = some (.int 32) ∧ x.Has t ∧
      y.Has t) :
    runNative fl (.cmpf p) src res x y = runWasm fl (.cmpf p) src res x y := by
  obtain ⟨t, ht, h1, h2, hx, hy⟩ := h
  have hr := nativeType_32 h2
  simp only [floatPredicates, List.mem_cons, List.not_mem_nil, or_false] at hp
  rcases ht with rfl | rfl
  · obtain ⟨x, rfl⟩ := has_f32 hx
    obtain ⟨y, rfl⟩ := has_f32 hy
    obtain rfl : src = .f32 := by cases src <;> simp [rep] at h1 <;> rfl
    rcases hp with rfl | rfl | rfl | rfl | rfl | rfl <;>
      (simp only [runNative, runWasm, toClif, toWasm, hr, typeSuffix, finalizeCmp, wasmCmpf]
       simp [runCode, Arg.get, clifExec, wasmExec, fltBin, wasmFlt, Outcome.bind, flag,
         translateType, parseFloatCC, clifFloatCond, FloatCC.holds] <;>
       split <;> simp_all)
  · obtain ⟨x, rfl⟩ := has_f64 hx
    obtain ⟨y, rfl⟩ := has_f64 hy
    obtain rfl : src = .f64 := by cases src <;> simp [rep] at h1 <;> rfl
    rcases hp with rfl | rfl | rfl | rfl | rfl | rfl <;>
      (simp only [runNative, runWasm, toClif, toWasm, hr, typeSuffix, finalizeCmp, wasmCmpf]
       simp [runCode, Arg.get, clifExec, wasmExec, fltBin, wasmFlt, Outcome.bind, flag,
         translateType, parseFloatCC, clifFloatCond, FloatCC.holds] <;>
       split <;> simp_all)

theorem agree_conv (op : Arith) (src res : Ty) (x y : Val fl)
    (hop : op ∈ [Arith.cast, .trunc, .extend, .convert])
    (h : ∃ t t', rep src = some t ∧ rep res = some t' ∧ x.Has t)
    (hu : ¬ NeedsUnsigned op src res) :
    runNative fl op src res x y = runWasm fl op src res x y := by
  obtain ⟨t, t', h1, h2, hx⟩ := h
  simp only [List.mem_cons, List.not_mem_nil, or_false] at hop
  cases src <;> simp only [rep, reduceCtorEq, Option.some.injEq] at h1 <;> subst h1 <;>
  (first
    | obtain ⟨x, rfl⟩ := has_int hx
    | obtain ⟨x, rfl⟩ := has_f32 hx
    | obtain ⟨x, rfl⟩ := has_f64 hx) <;>
  cases res <;> simp only [rep, reduceCtorEq, Option.some.injEq] at h2 <;>
  rcases hop with rfl | rfl | rfl | rfl <;>
  first
  | (simp [NeedsUnsigned] at hu; done)
  | simp [runNative, runWasm, toClif, toWasm, clifBinOp, clifBitwise, clifConversion, wasmBinOp,
      wasmBitwise, wasmConversion, typeSuffix, nativeType, typeCategory, isWiderInt, intWidth,
      isUnsignedInt, runCode, Arg.get, clifExec, wasmExec, translateType, wasmInt1, wasmFlt1,
      Outcome.bind]

end Verif.Operators
