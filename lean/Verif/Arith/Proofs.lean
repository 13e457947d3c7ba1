import Verif.Arith.Spec
namespace Verif.Arith

theorem wrap_machine (v : I128) {w : Nat} (h1 : 1 ≤ w) (h2 : w ≤ 128) :
    machine w (wrapSignedToWidth v w) = machine w v := by
  unfold wrapSignedToWidth machine
  split
  · rfl
  · ext i hi
    simp only [BitVec.getElem_setWidth, BitVec.getLsbD_sshiftRight, BitVec.getLsbD_shiftLeft]
    have a1 : i < 128 := by omega
    have a2 : 128 - w + i < 128 := by omega
    have a3 : ¬ (128 ≤ i) := by omega
    have a4 : ¬ (128 - w + i < 128 - w) := by omega
    have a5 : 128 - w + i - (128 - w) = i := by omega
    simp [a1, a2, a3]

theorem wrap_normal (v : I128) {w : Nat} (h1 : 1 ≤ w) (h2 : w ≤ 128) :
    Normal w (wrapSignedToWidth v w) := by
  unfold Normal
  have hm := wrap_machine v h1 h2
  unfold machine at hm
  rw [hm]
  unfold wrapSignedToWidth
  split
  · rename_i h; subst h; simp
  · ext i hi
    rw [BitVec.getElem_sshiftRight, BitVec.getElem_signExtend]
    by_cases hiw : i < w
    · have a2 : 128 - w + i < 128 := by omega
      have a4 : ¬ (128 - w + i < 128 - w) := by omega
      have a5 : 128 - w + i - (128 - w) = i := by omega
      simp only [a2, hiw, ↓reduceDIte, BitVec.getElem_shiftLeft, a4, decide_false, Bool.not_false,
        Bool.true_and, BitVec.getElem_setWidth]
      rw [← BitVec.getLsbD_eq_getElem, a5]
    · have a2 : ¬ (128 - w + i < 128) := by omega
      simp only [a2, hiw, ↓reduceDIte]
      simp only [BitVec.msb_eq_getLsbD_last, BitVec.getLsbD_shiftLeft, BitVec.getLsbD_setWidth]
      have a3 : 128 - 1 - (128 - w) = w - 1 := by omega
      have a4 : ¬ (128 - 1 < 128 - w) := by omega
      have a5 : w - 1 < w := by omega
      rw [a3]
      simp only [a4, a5]
      simp

theorem mask_machine (v : I128) {w : Nat} (h2 : w ≤ 128) :
    (v &&& widthMask w).toNat = (machine w v).toNat := by
  have hm : (widthMask w).toNat = 2 ^ w - 1 := by
    unfold widthMask
    split
    · rename_i h; subst h; simp
    · have hw : w < 128 := by omega
      have hlt : 2 ^ w < 2 ^ 128 := Nat.pow_lt_pow_right (by omega) hw
      have hpos : 0 < 2 ^ w := Nat.two_pow_pos w
      have h1 : (1#128 <<< w).toNat = 2 ^ w := by
        simp [BitVec.toNat_shiftLeft, Nat.shiftLeft_eq, Nat.mod_eq_of_lt hlt]
      rw [BitVec.toNat_sub_of_le]
      · rw [h1]; rfl
      · rw [BitVec.le_def, h1]; exact hpos
  rw [BitVec.toNat_and, hm, Nat.and_two_pow_sub_one_eq_mod]
  simp [machine, BitVec.toNat_setWidth]

theorem machine_lt (v : I128) (w : Nat) : (machine w v).toNat < 2 ^ w := (machine w v).isLt

theorem divui_machine (a b : I128) {w : Nat} (h2 : w ≤ 128) :
    machine w ((a &&& widthMask w).udiv (b &&& widthMask w)) =
      (machine w a).udiv (machine w b) := by
  apply BitVec.eq_of_toNat_eq
  show (BitVec.setWidth w _).toNat = _
  rw [BitVec.toNat_setWidth, BitVec.udiv_eq, BitVec.udiv_eq, BitVec.toNat_udiv, BitVec.toNat_udiv,
    mask_machine a h2, mask_machine b h2]
  exact Nat.mod_eq_of_lt (Nat.lt_of_le_of_lt (Nat.div_le_self _ _) (machine_lt a w))

theorem remui_machine (a b : I128) {w : Nat} (h2 : w ≤ 128) :
    machine w ((a &&& widthMask w).umod (b &&& widthMask w)) =
      (machine w a).umod (machine w b) := by
  apply BitVec.eq_of_toNat_eq
  show (BitVec.setWidth w _).toNat = _
  rw [BitVec.toNat_setWidth, BitVec.umod_eq, BitVec.umod_eq, BitVec.toNat_umod, BitVec.toNat_umod,
    mask_machine a h2, mask_machine b h2]
  exact Nat.mod_eq_of_lt (Nat.lt_of_le_of_lt (Nat.mod_le _ _) (machine_lt a w))

theorem normal_toInt {v : I128} {w : Nat} (h2 : w ≤ 128) (h : Normal w v) :
    v.toInt = (machine w v).toInt := by
  unfold Normal at h
  conv => lhs; rw [h]
  rw [BitVec.toInt_signExtend_of_le h2]
  rfl

theorem normal_inj {v : I128} {w : Nat} (h2 : w ≤ 128) (h : Normal w v) {x : I128}
    (hx : Normal w x) : machine w v = machine w x ↔ v = x := by
  constructor
  · intro e
    apply BitVec.eq_of_toInt_eq
    rw [normal_toInt h2 h, normal_toInt h2 hx, e]
  · rintro rfl; rfl

theorem zero_normal (w : Nat) : Normal w 0 := by
  unfold Normal
  show (0#128) = (BitVec.setWidth w 0#128).signExtend 128
  rw [BitVec.setWidth_zero]
  ext i hi
  rw [BitVec.getElem_signExtend]
  split <;> simp

theorem machine_zero (w : Nat) : machine w 0 = 0 := by simp [machine]

theorem machine_one (w : Nat) : machine w 1 = 1#w := by
  simp [machine]
  apply BitVec.eq_of_toNat_eq
  simp

theorem machine_neg_one {w : Nat} (h2 : w ≤ 128) : machine w (-1) = BitVec.allOnes w := by
  have : (-1 : I128) = BitVec.allOnes 128 := by decide
  rw [this]
  unfold machine
  ext i hi
  rw [BitVec.getElem_setWidth, BitVec.getLsbD_allOnes, BitVec.getElem_allOnes]
  exact decide_eq_true (by omega)

theorem neg_one_normal {w : Nat} (h1 : 1 ≤ w) (h2 : w ≤ 128) : Normal w (-1) := by
  have := machine_neg_one h2
  unfold machine at this
  unfold Normal
  rw [this]
  have : (-1 : I128) = BitVec.allOnes 128 := by decide
  rw [this]
  ext i hi
  rw [BitVec.getElem_signExtend]
  rw [BitVec.getElem_allOnes]
  split
  · rw [BitVec.getElem_allOnes]
  · rw [BitVec.msb_allOnes (by omega : 0 < w)]

theorem machine_toInt (v : I128) {w : Nat} (h2 : w ≤ 128) :
    (machine w v).toInt = v.toInt.bmod (2 ^ w) := by
  show (BitVec.setWidth w _).toInt = _
  rw [BitVec.toInt_setWidth, BitVec.toInt_eq_toNat_bmod, Int.bmod_bmod_of_dvd]
  exact Nat.pow_dvd_pow 2 h2

theorem divsi_machine {a b : I128} {w : Nat} (h2 : w ≤ 128) (ha : Normal w a) (hb : Normal w b) :
    machine w (a.sdiv b) = (machine w a).sdiv (machine w b) := by
  apply BitVec.eq_of_toInt_eq
  rw [machine_toInt _ h2, BitVec.toInt_sdiv, BitVec.toInt_sdiv, ← normal_toInt h2 ha,
    ← normal_toInt h2 hb, Int.bmod_bmod_of_dvd]
  exact Nat.pow_dvd_pow 2 h2

theorem remsi_machine {a b : I128} {w : Nat} (h2 : w ≤ 128) (ha : Normal w a) (hb : Normal w b) :
    machine w (a.srem b) = (machine w a).srem (machine w b) := by
  apply BitVec.eq_of_toInt_eq
  rw [machine_toInt _ h2, BitVec.toInt_srem, normal_toInt h2 ha,
    normal_toInt h2 hb, ← BitVec.toInt_srem, BitVec.toInt_bmod_cancel]

theorem minAt_toInt {w : Nat} (h1 : 1 ≤ w) (h2 : w < 128) :
    (-(1#128 <<< (w - 1))).toInt = -((2 ^ (w - 1) : Nat) : Int) := by
  have hlt : 2 ^ (w - 1) < 2 ^ 127 := Nat.pow_lt_pow_right (by omega) (by omega)
  have h3 : (1#128 <<< (w - 1)).toNat = 2 ^ (w - 1) := by
    have : 2 ^ (w - 1) < 2 ^ 128 := by omega
    simp [BitVec.toNat_shiftLeft, Nat.shiftLeft_eq, Nat.mod_eq_of_lt this]
  have h5 : (1#128 <<< (w - 1)).toInt = (2 ^ (w - 1) : Nat) := by
    rw [BitVec.toInt_eq_toNat_of_lt, h3]
    rw [h3]; omega
  rw [BitVec.toInt_neg, h5]
  rw [Int.bmod_eq_of_le] <;> omega

theorem intMin_toInt' {w : Nat} (h1 : 1 ≤ w) :
    (BitVec.intMin w).toInt = -((2 ^ (w - 1) : Nat) : Int) := by
  rw [BitVec.toInt_intMin]
  have h6 : 2 ^ (w - 1) % 2 ^ w = 2 ^ (w - 1) :=
    Nat.mod_eq_of_lt (Nat.pow_lt_pow_right (by omega) (by omega))
  rw [h6]

/-- The attribute that denotes the least `w`-bit value. -/
theorem intMin_normal {w : Nat} (h1 : 1 ≤ w) (h2 : w ≤ 128) {a : I128} (ha : Normal w a)
    (h : machine w a = BitVec.intMin w) :
    a = if w = 128 then BitVec.intMin 128 else -(1#128 <<< (w - 1)) := by
  have hi := normal_toInt h2 ha
  rw [h, intMin_toInt' h1] at hi
  split
  · rename_i hw; subst hw; simpa [machine] using h
  · apply BitVec.eq_of_toInt_eq
    rw [hi, minAt_toInt h1 (by omega)]

theorem overflow_true {a b : I128} {w : Nat} (h1 : 1 ≤ w) (h2 : w ≤ 128)
    (h : isSignedOverflow a b w = true) :
    machine w a = BitVec.intMin w ∧ machine w b = -1 := by
  unfold isSignedOverflow at h
  split at h
  · cases h
  · rename_i hb
    have hb' : b = -1 := by simpa using hb
    subst hb'
    refine ⟨?_, ?_⟩
    · have ha := eq_of_beq h
      subst ha
      split
      · rename_i hw; subst hw; simp [machine]
      · apply BitVec.eq_of_toInt_eq
        rw [machine_toInt _ h2, minAt_toInt h1 (by omega), intMin_toInt' h1]
        have : 2 ^ w = 2 * 2 ^ (w - 1) := by
          rw [← Nat.pow_succ']; congr 1; omega
        rw [this]
        have := Nat.two_pow_pos (w - 1)
        rw [Int.bmod_eq_of_le] <;> omega
    · rw [machine_neg_one h2]
      exact BitVec.neg_one_eq_allOnes.symm

theorem overflow_machine {a b : I128} {w : Nat} (h1 : 1 ≤ w) (h2 : w ≤ 128) (ha : Normal w a)
    (hb : Normal w b) (h : isSignedOverflow a b w = false) :
    ¬ (machine w a = BitVec.intMin w ∧ machine w b = -1) := by
  rintro ⟨hx, hy⟩
  have hb' : b = -1 := by
    rw [← normal_inj h2 hb (neg_one_normal h1 h2), hy, machine_neg_one h2]
    exact BitVec.neg_one_eq_allOnes
  have := intMin_normal h1 h2 ha hx
  unfold isSignedOverflow at h
  rw [if_neg (by simp [hb'])] at h
  simp only [beq_eq_false_iff_ne, ne_eq] at h
  exact h this

theorem signed_division {op : BinOp} {w : Nat} (h1 : 1 ≤ w) (h2 : w ≤ 128) {lhs rhs : Operand}
    {r : FoldResult} (hl : NormalOperand w lhs) (hr : NormalOperand w rhs)
    (hop : op = .divsi ∨ op = .remsi) (hf : fold op w lhs rhs = some r) (x y : BitVec w)
    (hx : Holds lhs x) (hy : Holds rhs y) : exec op x y = some (replacement r x y) := by
  cases lhs with
  | other => rcases hop with rfl | rfl <;> simp [fold, foldDivsi, foldRemsi, constIntValue] at hf
  | const a =>
    cases rhs with
    | other => rcases hop with rfl | rfl <;> simp [fold, foldDivsi, foldRemsi, constIntValue] at hf
    | const b =>
      simp only [Holds] at hx hy
      subst hx hy
      simp only [NormalOperand] at hl hr
      have key : b ≠ 0 → machine w b ≠ 0 := by
        intro hb e
        rw [← machine_zero, normal_inj h2 hr (zero_normal w)] at e
        exact hb e
      rcases hop with rfl | rfl
      · simp only [fold, foldDivsi, constIntValue, Option.bind_eq_bind, Option.bind_some] at hf
        split at hf
        · exact absurd hf (by simp)
        · rename_i hb
          split at hf
          · exact absurd hf (by simp)
          · rename_i ho
            simp only [Option.some.injEq] at hf
            subst hf
            rw [exec, if_neg (key hb), if_neg (overflow_machine h1 h2 hl hr (by simpa using ho))]
            rw [replacement, wrap_machine _ h1 h2, divsi_machine h2 hl hr]
      · simp only [fold, foldRemsi, constIntValue, Option.bind_eq_bind, Option.bind_some] at hf
        split at hf
        · exact absurd hf (by simp)
        · rename_i hb
          split at hf
          · exact absurd hf (by simp)
          · rename_i ho
            simp only [Option.some.injEq] at hf
            subst hf
            rw [exec, if_neg (key hb), if_neg (overflow_machine h1 h2 hl hr (by simpa using ho))]
            rw [replacement, wrap_machine _ h1 h2, remsi_machine h2 hl hr]


theorem unsigned_division {op : BinOp} {w : Nat} (h1 : 1 ≤ w) (h2 : w ≤ 128) {lhs rhs : Operand}
    {r : FoldResult} (hop : op = .divui ∨ op = .remui) (hf : fold op w lhs rhs = some r)
    (x y : BitVec w) (hx : Holds lhs x) (hy : Holds rhs y) :
    exec op x y = some (replacement r x y) := by
  cases lhs with
  | other => rcases hop with rfl | rfl <;> simp [fold, foldDivui, foldRemui, constIntValue] at hf
  | const a =>
    cases rhs with
    | other => rcases hop with rfl | rfl <;> simp [fold, foldDivui, foldRemui, constIntValue] at hf
    | const b =>
      simp only [Holds] at hx hy
      subst hx hy
      have key : b &&& widthMask w ≠ 0 → machine w b ≠ 0 := by
        intro hb e
        apply hb
        apply BitVec.eq_of_toNat_eq
        rw [mask_machine b h2, e]
        simp
      rcases hop with rfl | rfl
      · simp only [fold, foldDivui, constIntValue, Option.bind_eq_bind, Option.bind_some] at hf
        split at hf
        · exact absurd hf (by simp)
        · rename_i hb
          simp only [Option.some.injEq] at hf
          subst hf
          rw [exec, if_neg (key hb), replacement, wrap_machine _ h1 h2, divui_machine a b h2]
      · simp only [fold, foldRemui, constIntValue, Option.bind_eq_bind, Option.bind_some] at hf
        split at hf
        · exact absurd hf (by simp)
        · rename_i hb
          simp only [Option.some.injEq] at hf
          subst hf
          rw [exec, if_neg (key hb), replacement, wrap_machine _ h1 h2, remui_machine a b h2]

theorem machine_add (a b : I128) {w : Nat} (h2 : w ≤ 128) :
    machine w (a + b) = machine w a + machine w b := BitVec.setWidth_add a b h2
theorem machine_mul (a b : I128) {w : Nat} (h2 : w ≤ 128) :
    machine w (a * b) = machine w a * machine w b := BitVec.setWidth_mul a b h2
theorem machine_sub (a b : I128) {w : Nat} (h2 : w ≤ 128) :
    machine w (a - b) = machine w a - machine w b := by
  apply BitVec.eq_of_toInt_eq
  rw [machine_toInt _ h2, BitVec.toInt_sub, BitVec.toInt_sub, machine_toInt _ h2,
    machine_toInt _ h2, Int.bmod_bmod_of_dvd (Nat.pow_dvd_pow 2 h2), Int.bmod_sub_bmod,
    Int.sub_bmod_bmod]
theorem machine_and (a b : I128) (w : Nat) :
    machine w (a &&& b) = machine w a &&& machine w b := BitVec.setWidth_and
theorem machine_or (a b : I128) (w : Nat) :
    machine w (a ||| b) = machine w a ||| machine w b := BitVec.setWidth_or
theorem machine_xor (a b : I128) (w : Nat) :
    machine w (a ^^^ b) = machine w a ^^^ machine w b := BitVec.setWidth_xor

/-- Value of an operand known to be a given constant. -/
theorem holds_const {w : Nat} {o : Operand} {v : I128} (h : constIntValue o = some v)
    {x : BitVec w} (hx : Holds o x) : x = machine w v := by
  cases o with
  | other => simp [constIntValue] at h
  | const u =>
    simp only [constIntValue, Option.some.injEq] at h
    subst h
    exact hx

theorem both_const {l r : Operand} {f : I128 → I128 → FoldResult} {res : FoldResult}
    (h : (do let a ← constIntValue l; let b ← constIntValue r; some (f a b)) = some res) :
    ∃ a b, constIntValue l = some a ∧ constIntValue r = some b ∧ f a b = res := by
  cases hl : constIntValue l with
  | none => simp [hl] at h
  | some a =>
    cases hr : constIntValue r with
    | none => simp [hl, hr] at h
    | some b => exact ⟨a, b, rfl, rfl, by simpa [hl, hr] using h⟩

theorem ring_ops {op : BinOp} {w : Nat} (h1 : 1 ≤ w) (h2 : w ≤ 128) {lhs rhs : Operand}
    {r : FoldResult}
    (hop : op ≠ .divui ∧ op ≠ .remui ∧ op ≠ .divsi ∧ op ≠ .remsi)
    (hf : fold op w lhs rhs = some r)
    (x y : BitVec w) (hx : Holds lhs x) (hy : Holds rhs y) :
    exec op x y = some (replacement r x y) := by
  have z := machine_zero w
  have o := machine_one w
  have n := machine_neg_one h2
  cases op with
  | divui => exact absurd rfl hop.1
  | remui => exact absurd rfl hop.2.1
  | divsi => exact absurd rfl hop.2.2.1
  | remsi => exact absurd rfl hop.2.2.2
  | addi =>
    rw [fold, foldAddi] at hf
    split at hf
    · rename_i h; cases hf
      rw [holds_const h hy, z]; simp [exec, replacement]
    · split at hf
      · rename_i h; cases hf
        rw [holds_const h hx, z]; simp [exec, replacement]
      · obtain ⟨a, b, ha, hb, rfl⟩ := both_const hf
        rw [holds_const ha hx, holds_const hb hy, replacement, wrap_machine _ h1 h2,
          machine_add a b h2]; rfl
  | subi =>
    rw [fold, foldSubi] at hf
    split at hf
    · rename_i h; cases hf
      rw [holds_const h hy, z]; simp [exec, replacement]
    · obtain ⟨a, b, ha, hb, rfl⟩ := both_const hf
      rw [holds_const ha hx, holds_const hb hy, replacement, wrap_machine _ h1 h2,
        machine_sub a b h2]; rfl
  | muli =>
    rw [fold, foldMuli] at hf
    split at hf
    · rename_i h; cases hf
      rcases h with h | h
      · rw [holds_const h hy, z, replacement, z]; simp [exec]
      · rw [holds_const h hx, z, replacement, z]; simp [exec]
    · split at hf
      · rename_i h; cases hf
        rw [holds_const h hy, o]; simp [exec, replacement]
      · split at hf
        · rename_i h; cases hf
          rw [holds_const h hx, o]; simp [exec, replacement]
        · obtain ⟨a, b, ha, hb, rfl⟩ := both_const hf
          rw [holds_const ha hx, holds_const hb hy, replacement, wrap_machine _ h1 h2,
            machine_mul a b h2]; rfl
  | and =>
    rw [fold, foldAnd] at hf
    split at hf
    · rename_i h; cases hf
      rcases h with h | h
      · rw [holds_const h hy, z, replacement, z]; simp [exec]
      · rw [holds_const h hx, z, replacement, z]; simp [exec]
    · split at hf
      · rename_i h; cases hf
        rw [holds_const h hy, n]; simp [exec, replacement]
      · split at hf
        · rename_i h; cases hf
          rw [holds_const h hx, n]; simp [exec, replacement]
        · obtain ⟨a, b, ha, hb, rfl⟩ := both_const hf
          rw [holds_const ha hx, holds_const hb hy, replacement, wrap_machine _ h1 h2,
            machine_and a b]; rfl
  | or =>
    rw [fold, foldOr] at hf
    split at hf
    · rename_i h; cases hf
      rw [holds_const h hy, z]; simp [exec, replacement]
    · split at hf
      · rename_i h; cases hf
        rw [holds_const h hx, z]; simp [exec, replacement]
      · split at hf
        · rename_i h; cases hf
          rcases h with h | h
          · rw [holds_const h hy, n, replacement, n]; simp [exec]
          · rw [holds_const h hx, n, replacement, n]; simp [exec]
        · obtain ⟨a, b, ha, hb, rfl⟩ := both_const hf
          rw [holds_const ha hx, holds_const hb hy, replacement, wrap_machine _ h1 h2,
            machine_or a b]; rfl
  | xor =>
    rw [fold, foldXor] at hf
    split at hf
    · rename_i h; cases hf
      rw [holds_const h hy, z]; simp [exec, replacement]
    · split at hf
      · rename_i h; cases hf
        rw [holds_const h hx, z]; simp [exec, replacement]
      · obtain ⟨a, b, ha, hb, rfl⟩ := both_const hf
        rw [holds_const ha hx, holds_const hb hy, replacement, wrap_machine _ h1 h2,
          machine_xor a b]; rfl

theorem result_normal {op : BinOp} {w : Nat} (h1 : 1 ≤ w) (h2 : w ≤ 128) {lhs rhs : Operand}
    {v : I128} (hf : fold op w lhs rhs = some (.arithConst v)) : Normal w v := by
  have key : ∀ u, FoldResult.arithConst (wrapSignedToWidth u w) = .arithConst v → Normal w v := by
    intro u h
    cases h
    exact wrap_normal u h1 h2
  have div : ∀ (P : I128 → I128 → Prop) [∀ a b, Decidable (P a b)] (g : I128 → I128 → I128)
      (hf : (do
        let a ← constIntValue lhs
        let b ← constIntValue rhs
        if P a b then none else some (.arithConst (wrapSignedToWidth (g a b) w)))
          = some (FoldResult.arithConst v)), Normal w v := by
    intro P _ g hf
    cases hl : constIntValue lhs with
    | none => simp [hl] at hf
    | some a =>
      cases hr : constIntValue rhs with
      | none => simp [hl, hr] at hf
      | some b =>
        simp only [hl, hr, Option.bind_eq_bind, Option.bind_some] at hf
        split at hf
        · exact absurd hf (by simp)
        · exact key _ (Option.some.inj hf)
  cases op with
  | divui => exact div (fun a b => b &&& widthMask w = 0) (fun a b =>
      (a &&& widthMask w).udiv (b &&& widthMask w)) hf
  | remui => exact div (fun a b => b &&& widthMask w = 0) (fun a b =>
      (a &&& widthMask w).umod (b &&& widthMask w)) hf
  | divsi =>
    refine div (fun a b => b = 0 ∨ isSignedOverflow a b w) (fun a b => a.sdiv b) ?_
    rw [← hf]
    simp only [fold, foldDivsi]
    congr 1; funext a; congr 1; funext b
    by_cases hb : b = 0#128 <;> simp [hb]
  | remsi =>
    refine div (fun a b => b = 0 ∨ isSignedOverflow a b w) (fun a b => a.srem b) ?_
    rw [← hf]
    simp only [fold, foldRemsi]
    congr 1; funext a; congr 1; funext b
    by_cases hb : b = 0#128 <;> simp [hb]
  | addi =>
    rw [fold, foldAddi] at hf
    repeat' split at hf
    · cases hf
    · cases hf
    · obtain ⟨a, b, -, -, h⟩ := both_const hf; exact key _ h
  | subi =>
    rw [fold, foldSubi] at hf
    repeat' split at hf
    · cases hf
    · obtain ⟨a, b, -, -, h⟩ := both_const hf; exact key _ h
  | muli =>
    rw [fold, foldMuli] at hf
    repeat' split at hf
    · cases hf; exact zero_normal w
    · cases hf
    · cases hf
    · obtain ⟨a, b, -, -, h⟩ := both_const hf; exact key _ h
  | and =>
    rw [fold, foldAnd] at hf
    repeat' split at hf
    · cases hf; exact zero_normal w
    · cases hf
    · cases hf
    · obtain ⟨a, b, -, -, h⟩ := both_const hf; exact key _ h
  | or =>
    rw [fold, foldOr] at hf
    repeat' split at hf
    · cases hf
    · cases hf
    · cases hf; exact neg_one_normal h1 h2
    · obtain ⟨a, b, -, -, h⟩ := both_const hf; exact key _ h
  | xor =>
    rw [fold, foldXor] at hf
    repeat' split at hf
    · cases hf
    · cases hf
    · obtain ⟨a, b, -, -, h⟩ := both_const hf; exact key _ h

end Verif.Arith
