import Verif.WasmIo.Segments
/-! The two loops of the write helper. -/
namespace Verif.WasmIo
open Instr

/-! ## Memory -/

/-- Bytes of the memory changed. -/
def setBytes (m : Nat → Byte) (addr : Nat) : List Byte → Nat → Byte
  | [] => m
  | b :: bs => setBytes (setByte m addr b) (addr + 1) bs

theorem setBytes_append (m : Nat → Byte) (addr : Nat) (xs ys : List Byte) :
    setBytes m addr (xs ++ ys) = setBytes (setBytes m addr xs) (addr + xs.length) ys := by
  induction xs generalizing m addr with
  | nil => rfl
  | cons x xs ih =>
    simp only [List.cons_append, setBytes, ih, List.length_cons]
    rw [show addr + 1 + xs.length = addr + (xs.length + 1) by omega]

theorem setBytes_out (m : Nat → Byte) (addr : Nat) (xs : List Byte) (x : Nat)
    (h : x < addr ∨ addr + xs.length ≤ x) : setBytes m addr xs x = m x := by
  induction xs generalizing m addr with
  | nil => rfl
  | cons y ys ih =>
    simp only [List.length_cons] at h
    rw [setBytes, ih _ _ (by omega), setByte, if_neg (by omega)]

theorem readBytes_length (m : Nat → Byte) (addr k : Nat) : (readBytes m addr k).length = k := by
  induction k generalizing addr with
  | zero => rfl
  | succ k ih => simp [readBytes, ih]

theorem readBytes_congr {m m' : Nat → Byte} {addr k : Nat}
    (h : ∀ x, addr ≤ x → x < addr + k → m' x = m x) : readBytes m' addr k = readBytes m addr k := by
  induction k generalizing addr with
  | zero => rfl
  | succ k ih =>
    rw [readBytes, readBytes, h addr (by omega) (by omega), ih fun x _ _ => h x (by omega) (by omega)]

theorem readBytes_setBytes (m : Nat → Byte) (addr : Nat) (xs : List Byte) :
    readBytes (setBytes m addr xs) addr xs.length = xs := by
  induction xs generalizing m addr with
  | nil => rfl
  | cons x xs ih =>
    simp only [List.length_cons, setBytes, readBytes]
    rw [ih, setBytes_out _ _ _ _ (by omega)]
    simp [setByte]

theorem readBytes_drop (m : Nat → Byte) (addr k j : Nat) :
    (readBytes m addr k).drop j = readBytes m (addr + j) (k - j) := by
  induction k generalizing addr j with
  | zero => simp [readBytes]
  | succ k ih =>
    cases j with
    | zero => rfl
    | succ j =>
      rw [readBytes, List.drop_succ_cons, ih, show addr + 1 + j = addr + (j + 1) by omega,
        show k + 1 - (j + 1) = k - j by omega]

theorem setWord_out (m : Nat → Byte) (addr n x : Nat) (h : x < addr ∨ addr + 4 ≤ x) :
    setWord m addr n x = m x := by
  unfold setWord setByte
  rw [if_neg (by omega), if_neg (by omega), if_neg (by omega), if_neg (by omega)]

theorem getWord_congr {m m' : Nat → Byte} {addr : Nat}
    (h : ∀ x, addr ≤ x → x < addr + 4 → m' x = m x) : getWord m' addr = getWord m addr := by
  unfold getWord
  rw [h addr (by omega) (by omega), h (addr + 1) (by omega) (by omega),
    h (addr + 2) (by omega) (by omega), h (addr + 3) (by omega) (by omega)]

theorem getWord_setWord (m : Nat → Byte) (addr n : Nat) (h : n < two32) :
    getWord (setWord m addr n) addr = n := by
  unfold two32 at h
  simp only [getWord, setWord, setByte]
  simp
  omega

attribute [local irreducible] wadd wsub two32 getWord setWord

/-! ## Copying -/

theorem copy_done (n : Nat) (l : Nat → V) (w : World) {d : List Byte} {o len nl sc i : Nat}
    (f : Facts l d o len nl sc) (h : l 26 = .i32 i) (hi : len ≤ i) :
    ∃ l', execs n copyBody [] ⟨l, w⟩ = some (.branch 1 ⟨l', w⟩) ∧ Keeps l l' := by
  have c : decide (i ≥ len) = true := decide_eq_true hi
  refine ⟨_, by run [copyBody, h, f.h4, c]; rfl, fun j hj => ?_⟩
  simp [upd_get, show j ≠ 27 by omega]

theorem copy_round (n : Nat) (l : Nat → V) (w : World) {d : List Byte} {o len nl sc i : Nat} {b : Byte}
    (f : Facts l d o len nl sc) (h : l 26 = .i32 i) (hi : i < len) (hb : d[o + i]? = some b)
    (ho : o + i < two32) (hs : sc + i < two32) (hi' : i + 1 < two32) (hw : w.has (sc + i) 1 = true) :
    ∃ l', execs n copyBody [] ⟨l, w⟩ =
        some (.branch 0 ⟨l', { w with mem := setByte w.mem (sc + i) b }⟩) ∧
      l' 26 = .i32 (i + 1) ∧ Keeps l l' := by
  have c : decide (i ≥ len) = false := by simp; omega
  have e1 : wadd o i = o + i := by unfold wadd; exact Nat.mod_eq_of_lt ho
  have e2 : wadd sc i = sc + i := by unfold wadd; exact Nat.mod_eq_of_lt hs
  have e3 : wadd i 1 = i + 1 := by unfold wadd; exact Nat.mod_eq_of_lt hi'
  have e4 : UInt8.ofNat b.toNat = b := by simp
  have hw' : w.has (sc + i + 0) 1 = true := hw
  refine ⟨_, by
    run [copyBody, h, f.h2, f.h3, f.h4, f.h8, c, e1, e2, e3, run_arrayGet _ _ _ _ _ _ _ _ hb,
      run_store8 _ _ _ _ _ _ _ _ hw', e4, Nat.add_zero]
    rfl, by simp [upd_get], fun j hj => ?_⟩
  simp [upd_get, show j ≠ 27 by omega, show j ≠ 28 by omega, show j ≠ 29 by omega,
    show j ≠ 30 by omega, show j ≠ 31 by omega, show j ≠ 32 by omega, show j ≠ 26 by omega]

theorem copy_loop (n : Nat) {d : List Byte} {o len nl sc : Nat} (hd : o + len ≤ d.length)
    (ho : o + len < two32) (hs : sc + len < two32) :
    ∀ (xs : List Byte) (i k : Nat) (l : Nat → V) (w : World), i + xs.length = len →
      (d.drop (o + i)).take (len - i) = xs → xs.length < k → Facts l d o len nl sc → l 26 = .i32 i →
      sc + len ≤ w.pages * 65536 →
      ∃ l', rounds (fun s => execs n copyBody [] s) [] k ⟨l, w⟩ =
          some (.branch 0 ⟨l', { w with mem := setBytes w.mem (sc + i) xs }⟩) ∧ Keeps l l' := by
  intro xs
  induction xs with
  | nil =>
    intro i k l w hi hx hk f h hw
    obtain ⟨k, rfl⟩ := Nat.exists_eq_add_of_lt hk
    obtain ⟨l', hl, hkp⟩ := copy_done n l w f h (by simp at hi; omega)
    refine ⟨l', ?_, hkp⟩
    simp only [rounds, hl]
    rfl
  | cons x xs ih =>
    intro i k l w hi hx hk f h hw
    obtain ⟨k, rfl⟩ := Nat.exists_eq_add_of_lt hk
    simp only [List.length_cons] at hi hk ⊢
    have hlt : i < len := by omega
    have hb : d[o + i]? = some x := by
      have := congrArg List.head? hx
      rw [List.head?_take, if_neg (by omega), List.head?_drop] at this
      simpa using this
    obtain ⟨l1, hl, h26, hkp⟩ := copy_round n l w f h hlt hb (by omega) (by omega) (by omega)
      (by simp [World.has]; omega)
    have hx' : (d.drop (o + (i + 1))).take (len - (i + 1)) = xs := by
      have := congrArg List.tail hx
      rw [← List.drop_one, List.drop_take, List.drop_drop] at this
      rw [show len - (i + 1) = len - i - 1 by omega, show o + (i + 1) = o + i + 1 by omega]
      simpa using this
    obtain ⟨l2, hl2, hkp2⟩ := ih (i + 1) (xs.length + 1 + k) l1
      { w with mem := setByte w.mem (sc + i) x } (by omega) hx' (by omega) (f.keep hkp) h26 hw
    refine ⟨l2, ?_, fun j hj => (hkp2 j hj).trans (hkp j hj)⟩
    rw [rounds, hl]
    simp only []
    rw [hl2]
    rfl

theorem seg5_ok (n : Nat) (l : Nat → V) (w : World) {d : List Byte} {o len nl sc : Nat}
    (hd : o + len ≤ d.length) (ho : o + len < two32) (hs : sc + len < two32) (hn : len < n)
    (f : Facts l d o len nl sc) (h : l 25 = .i32 0) (hw : sc + len ≤ w.pages * 65536) :
    ∃ l', execs n seg5 [] ⟨l, w⟩ =
        some (.next [] ⟨l', { w with mem := setBytes w.mem sc ((d.drop o).take len) }⟩) ∧
      Keeps l l' := by
  have hlen : ((d.drop o).take len).length = len := by simp; omega
  have k0 : Keeps l (upd l 26 (.i32 0)) := fun j hj => by simp [upd_get, show j ≠ 26 by omega]
  obtain ⟨l', hl, hk⟩ := copy_loop n (nl := nl) hd ho hs ((d.drop o).take len) 0 n (upd l 26 (.i32 0)) w
    (by omega) rfl (by omega) (f.keep k0) (by simp [upd_get]) hw
  refine ⟨l', ?_, fun j hj => (hk j hj).trans (k0 j hj)⟩
  have : execs n [loop copyBody] [] ⟨upd l 26 (.i32 0), w⟩ =
      some (.branch 0 ⟨l', { w with mem := setBytes w.mem (sc + 0) ((d.drop o).take len) }⟩) := by
    rw [execs, exec, hl]
  run [seg5, h, this, Nat.add_zero]

/-! ## The newline -/

theorem seg6_newline (n : Nat) (l : Nat → V) (w : World) {d : List Byte} {o len sc : Nat}
    (hs : sc + len < two32) (f : Facts l d o len 1 sc) (hw : w.has (sc + len) 1 = true) :
    ∃ l', execs n seg6 [] ⟨l, w⟩ =
        some (.next [] ⟨l', { w with mem := setByte w.mem (sc + len) 10 }⟩) ∧ Keeps l l' := by
  have e : wadd sc len = sc + len := by unfold wadd; exact Nat.mod_eq_of_lt hs
  have hw' : w.has (sc + len + 0) 1 = true := hw
  refine ⟨_, by
    run [seg6, f.h8, f.h4, f.h1, e, run_store8 _ _ _ _ _ _ _ _ hw', Nat.add_zero]
    rfl, fun j hj => ?_⟩
  simp [upd_get, show j ≠ 35 by omega, show j ≠ 36 by omega]

theorem seg6_none (n : Nat) (l : Nat → V) (w : World) {d : List Byte} {o len sc : Nat}
    (f : Facts l d o len 0 sc) :
    ∃ l', execs n seg6 [] ⟨l, w⟩ = some (.next [] ⟨l', w⟩) ∧ Keeps l l' := by
  refine ⟨_, by run [seg6, f.h8, f.h4, f.h1]; rfl, fun j hj => ?_⟩
  simp [upd_get, show j ≠ 35 by omega]

end Verif.WasmIo
