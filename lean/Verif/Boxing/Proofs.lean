import Verif.Boxing.Spec

/-! # Boxing: memory, and the code that comes out -/
namespace Verif.Boxing

/-! ## Bytes -/

theorem bytesOf_length (n k : Nat) : (bytesOf n k).length = k := by
  induction k generalizing n with
  | zero => rfl
  | succ k ih => simp [bytesOf, ih]

theorem numOf_bytesOf (n k : Nat) : numOf (bytesOf n k) = n % 256 ^ k := by
  induction k generalizing n with
  | zero => simp [bytesOf, numOf, Nat.mod_one]
  | succ k ih =>
    rw [bytesOf, numOf, ih, BitVec.toNat_ofNat, Nat.pow_succ 256 k, Nat.mul_comm (256 ^ k) 256,
      Nat.mod_mul, show (2 : Nat) ^ 8 = 256 from rfl]

/-- Memory with bytes laid over it. -/
def overlay (m : Mem) (a : Nat) (bs : List (BitVec 8)) : Mem :=
  fun x => if a ≤ x ∧ x < a + bs.length then bs[x - a]? else m x

theorem overlay_in {m : Mem} {a : Nat} {bs : List (BitVec 8)} {i : Nat} (h : i < bs.length) :
    overlay m a bs (a + i) = bs[i]? := by
  rw [overlay, if_pos ⟨by omega, by omega⟩]
  congr 1; omega

theorem overlay_out {m : Mem} {a : Nat} {bs : List (BitVec 8)} {x : Nat}
    (h : x < a ∨ a + bs.length ≤ x) : overlay m a bs x = m x := by
  rw [overlay, if_neg (by omega)]

theorem write_eq {bs : List (BitVec 8)} : ∀ {m : Mem} {a : Nat},
    (∀ i, i < bs.length → (m (a + i)).isSome) → write m a bs = some (overlay m a bs) := by
  induction bs with
  | nil =>
    intro m a _
    rw [write]; congr 1; funext x
    exact (overlay_out (by simp; omega)).symm
  | cons b bs ih =>
    intro m a h
    have h0 := h 0 (by simp)
    rw [Nat.add_zero] at h0
    rw [write]
    obtain ⟨b0, hb0⟩ := Option.isSome_iff_exists.1 h0
    rw [hb0]
    simp only
    rw [ih]
    · congr 1; funext x
      by_cases hx : x = a
      · subst hx
        rw [overlay_out (by omega)]
        have := overlay_in (m := m) (a := x) (bs := b :: bs) (i := 0) (by simp)
        rw [Nat.add_zero] at this
        rw [this]; simp
      · by_cases hin : a < x ∧ x < a + 1 + bs.length
        · obtain ⟨j, rfl⟩ : ∃ j, x = a + 1 + j := ⟨x - (a + 1), by omega⟩
          rw [overlay_in (by omega), Nat.add_assoc, overlay_in (by simp; omega), Nat.add_comm 1 j]
          rfl
        · rw [overlay_out (by omega), overlay_out (by simp; omega), if_neg hx]
    · intro i hi
      have := h (i + 1) (by simp; omega)
      rw [if_neg (by omega), Nat.add_assoc, Nat.add_comm 1 i]
      exact this

theorem read_eq {bs : List (BitVec 8)} : ∀ {m : Mem} {a : Nat},
    (∀ i, i < bs.length → m (a + i) = bs[i]?) → read m a bs.length = some bs := by
  induction bs with
  | nil => intro m a _; rfl
  | cons b bs ih =>
    intro m a h
    have h0 := h 0 (by simp)
    rw [Nat.add_zero] at h0
    rw [List.length_cons, read, h0]
    simp only [List.getElem?_cons_zero]
    rw [ih]
    · rfl
    · intro i hi
      have := h (i + 1) (by simp; omega)
      rw [Nat.add_assoc, Nat.add_comm 1 i, this]
      rfl

theorem bytes_isSome {bs : List (BitVec 8)} {i : Nat} (h : i < bs.length) : (bs[i]?).isSome := by
  simp [h]

/-! ## The box -/

/-- What boxing leaves behind: the address of the payload, memory outside the block as it was, the count
and the value in the block. -/
theorem box_run {al : Alloc} {m : Mem} {payload rtti : Nat} {v : Val} (hv : v.bytes.length = payload)
    (hp : payload ≤ 8) (hp0 : 0 < payload) (hf : Fresh al m (payload + 8)) :
    ∃ a m', a + payload + 8 ≤ 2 ^ 64 ∧
      runNative al (boxValue payload rtti) m v = some (m', .w64 (BitVec.ofNat 64 (a + 8))) ∧
      (∀ x, a ≤ x → x < a + payload + 8 → m x = none) ∧
      (∀ x, x < a ∨ a + payload + 8 ≤ x → m' x = m x) ∧
      (∀ i, i < 4 → m' (a + i) = (bytesOf 1 4)[i]?) ∧
      (∀ i, i < payload → m' (a + 8 + i) = v.bytes[i]?) := by
  obtain ⟨hb, hn⟩ := hf
  generalize ha : (al m (payload + 8)).1 = a at hb hn
  let m1 : Mem := fun x => if a ≤ x ∧ x < a + (payload + 8) then some ((al m (payload + 8)).2 x) else m x
  let m2 := overlay m1 a (bytesOf 1 4)
  let m3 := overlay m2 (a + 4) (bytesOf (rtti % 2 ^ 32) 4)
  let m4 := overlay m3 (a + 8) v.bytes
  have hl1 : (bytesOf 1 4).length = 4 := bytesOf_length _ _
  have hl2 : (bytesOf (rtti % 2 ^ 32) 4).length = 4 := bytesOf_length _ _
  have e1 : ∀ x, a ≤ x → x < a + (payload + 8) → (m1 x).isSome := by
    intro x h1 h2; simp only [m1]; rw [if_pos ⟨h1, h2⟩]; rfl
  have e2 : ∀ x, a ≤ x → x < a + (payload + 8) → (m2 x).isSome := by
    intro x h1 h2
    by_cases h : x < a + 4
    · obtain ⟨j, rfl⟩ : ∃ j, x = a + j := ⟨x - a, by omega⟩
      simp only [m2]; rw [overlay_in (by omega)]; exact bytes_isSome (by omega)
    · simp only [m2]; rw [overlay_out (by omega)]; exact e1 x h1 h2
  have e3 : ∀ x, a ≤ x → x < a + (payload + 8) → (m3 x).isSome := by
    intro x h1 h2
    by_cases h : a + 4 ≤ x ∧ x < a + 4 + 4
    · obtain ⟨j, rfl⟩ : ∃ j, x = a + 4 + j := ⟨x - (a + 4), by omega⟩
      simp only [m3]; rw [overlay_in (by omega)]; exact bytes_isSome (by omega)
    · simp only [m3]; rw [overlay_out (by omega)]; exact e2 x h1 h2
  have w1 : write m1 a (bytesOf 1 4) = some m2 := write_eq fun i hi => e1 _ (by omega) (by omega)
  have w2 : write m2 (a + 4) (bytesOf (rtti % 2 ^ 32) 4) = some m3 :=
    write_eq fun i hi => e2 _ (by omega) (by omega)
  have w3 : write m3 (a + 8) v.bytes = some m4 := write_eq fun i hi => e3 _ (by omega) (by omega)
  have hsz : (BitVec.ofNat 64 (payload + 8)).toNat = payload + 8 := by
    rw [BitVec.toNat_ofNat]; exact Nat.mod_eq_of_lt (by omega)
  have haw : (BitVec.ofNat 64 a).toNat = a := by
    rw [BitVec.toNat_ofNat]; exact Nat.mod_eq_of_lt (by omega)
  have h8 : (BitVec.ofNat 64 8).toNat = 8 := rfl
  have h0 : (BitVec.ofNat 64 0).toNat = 0 := rfl
  have haw8 : (BitVec.ofNat 64 (a + 8)).toNat = a + 8 := by
    rw [BitVec.toNat_ofNat]; exact Nat.mod_eq_of_lt (by omega)
  have h1v : (Val.w32 (BitVec.ofNat 32 1)).bytes = bytesOf 1 4 := rfl
  have hrv : (Val.w32 (BitVec.ofNat 32 rtti)).bytes = bytesOf (rtti % 2 ^ 32) 4 := by
    simp only [Val.bytes, BitVec.toNat_ofNat]
  refine ⟨a, m4, by omega, ?_, ?_, ?_, ?_, ?_⟩
  · simp only [runNative, boxValue, steps, step, word, headerSize, refcountOffset, rttiOffset,
      List.cons_append, List.nil_append, List.getElem?_cons_zero, List.getElem?_cons_succ, hsz, ha,
      Nat.add_zero, haw]
    rw [h1v, show write (fun x => if a ≤ x ∧ x < a + (payload + 8) then
      some ((al m (payload + 8)).2 x) else m x) a (bytesOf 1 4) = some m2 from w1]
    simp only [Option.map_some, List.cons_append, List.nil_append, List.getElem?_cons_zero,
      List.getElem?_cons_succ, haw]
    rw [hrv, w2]
    simp only [Option.map_some, List.cons_append, List.nil_append, List.getElem?_cons_zero,
      List.getElem?_cons_succ, haw, h8, haw8]
    rw [w3]
    simp [h0, haw8]
  · intro x h1 h2; exact hn x h1 (by omega)
  · intro x hx
    simp only [m4]; rw [overlay_out (by omega)]
    simp only [m3]; rw [overlay_out (by omega)]
    simp only [m2]; rw [overlay_out (by omega)]
    simp only [m1]; rw [if_neg (by omega)]
  · intro i hi
    simp only [m4]; rw [overlay_out (by omega)]
    simp only [m3]; rw [overlay_out (by omega)]
    simp only [m2]; exact overlay_in (by omega)
  · intro i hi
    simp only [m4]; exact overlay_in (by omega)

/-- Loading four bytes gives the word that was stored. -/
theorem load32 {m : Mem} {a : Nat} {b : BitVec 32} (h : ∀ i, i < 4 → m (a + i) = (Val.w32 b).bytes[i]?) :
    loadAt m a .i32 = some (.w32 b) := by
  have hl : (Val.w32 b).bytes.length = 4 := bytesOf_length _ _
  have := read_eq (bs := (Val.w32 b).bytes) (m := m) (a := a) (by rwa [hl])
  rw [hl] at this
  rw [loadAt, this, Option.map_some, Val.bytes, numOf_bytesOf]
  congr 2
  apply BitVec.eq_of_toNat_eq
  have := b.isLt
  rw [BitVec.toNat_ofNat]; omega

theorem load64 {m : Mem} {a : Nat} {b : BitVec 64} (h : ∀ i, i < 8 → m (a + i) = (Val.f64 b).bytes[i]?) :
    loadAt m a .f64 = some (.f64 b) := by
  have hl : (Val.f64 b).bytes.length = 8 := bytesOf_length _ _
  have := read_eq (bs := (Val.f64 b).bytes) (m := m) (a := a) (by rwa [hl])
  rw [hl] at this
  rw [loadAt, this, Option.map_some, Val.bytes, numOf_bytesOf]
  congr 2
  apply BitVec.eq_of_toNat_eq
  have := b.isLt
  rw [BitVec.toNat_ofNat]; omega

/-! ## The code of casts -/

theorem emits_box_native {p : Prim} {c : List Clif} (h : EmitsNative p.ty .anyref c) :
    (p = .nil ∧ c = [.iconst64 0]) ∨
    (p = .float ∧ ∃ r, c = boxValue 8 r) ∨
    ((p = .int ∨ p = .nat ∨ p = .rune ∨ p = .bool) ∧ ∃ r, c = boxValue 4 r) := by
  rcases h with h | h | h <;> cases p <;>
    simp [resolveCast, genericConvert, genericMaterialize, nativeConvert, nativeMaterialize, Prim.ty] at h <;>
    subst h <;> simp [nativeRt] <;> exact ⟨_, rfl⟩

theorem emits_unbox_native {p : Prim} {c : List Clif} (h : EmitsNative .anyref p.ty c) :
    (p = .nil ∧ c = []) ∨
    (p = .float ∧ c = [.load .f64 0 0]) ∨
    ((p = .int ∨ p = .nat ∨ p = .rune ∨ p = .bool) ∧ c = [.load .i32 0 0]) := by
  rcases h with h | h | h <;> cases p <;>
    simp [resolveCast, genericConvert, genericMaterialize, nativeConvert, nativeMaterialize, Prim.ty] at h <;>
    subst h <;> simp [nativeRt]

theorem emits_box_wasm {p : Prim} {c : List WInstr} (h : EmitsWasm p.ty .anyref c) :
    (p = .nil ∧ c = [.refNull]) ∨
    (p = .float ∧ c = [.newBoxedF64]) ∨
    ((p = .int ∨ p = .nat ∨ p = .rune ∨ p = .bool) ∧ (c = [.refI31] ∨ c = [.refI31, .castAny])) := by
  rcases h with h | h | h <;> cases p <;>
    simp [resolveCast, genericConvert, genericMaterialize, wasmConvert, wasmMaterialize, Prim.ty] at h <;>
    subst h <;> simp [wasmRt]

theorem emits_unbox_wasm {p : Prim} {c : List WInstr} (h : EmitsWasm .anyref p.ty c) :
    (p = .nil ∧ c = []) ∨
    (p = .float ∧ c = [.castBoxedF64, .getF64]) ∨
    ((p = .int ∨ p = .nat ∨ p = .rune) ∧ c = [.castI31, .i31GetS]) ∨
    (p = .bool ∧ (c = [.castI31, .i31GetS] ∨ c = [.castI31, .i31GetU])) := by
  rcases h with h | h | h <;> cases p <;>
    simp [resolveCast, genericConvert, genericMaterialize, wasmConvert, wasmMaterialize, Prim.ty] at h <;>
    subst h <;> simp [wasmRt]

theorem pipeline_emits {α : Type} {lower : RtOp → List α} {convert : Ty → Option Ty}
    {mat : Ty → Ty → Option (List α)} {src dst : Ty} {c : List α}
    (h : pipeline lower convert mat src dst = some c) : Emits lower convert mat src dst c := by
  rw [pipeline] at h
  cases hg : resolveCast genericConvert genericMaterialize src dst with
  | some ops => rw [hg] at h; cases h; exact .early hg
  | none => rw [hg] at h; exact .lateConverted h

/-! ## 31 bits -/

theorem low31_signed (b : BitVec 32) :
    (b.setWidth 31).signExtend 32 = b ↔ -2 ^ 30 ≤ b.toInt ∧ b.toInt < 2 ^ 30 := by
  have hb := b.isLt
  have hlt : b.toNat % 2 ^ 31 < 2 ^ 31 := Nat.mod_lt _ (by decide)
  rw [← BitVec.toInt_inj, BitVec.toInt_signExtend]
  simp only [BitVec.toInt_eq_toNat_bmod, BitVec.toNat_setWidth, Nat.reducePow, show min 32 31 = 31 from rfl]
  rw [Int.bmod_def, Int.bmod_def, Int.bmod_def]
  omega

end Verif.Boxing
