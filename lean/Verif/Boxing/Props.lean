import Verif.Boxing.Proofs
import Verif.Literals.Props
import Mathlib.Tactic.ByContra

/-! # C81: a primitive value in a generic position comes back unchanged -/
namespace Verif.Boxing

/-- **C81.** Every cast between a primitive type and the type of references gets code, on both targets. -/
theorem C81_casts_resolved (p : Prim) :
    (∃ c, pipeline nativeRt nativeConvert nativeMaterialize p.ty .anyref = some c ∧
      EmitsNative p.ty .anyref c) ∧
    (∃ c, pipeline nativeRt nativeConvert nativeMaterialize .anyref p.ty = some c ∧
      EmitsNative .anyref p.ty c) ∧
    (∃ c, pipeline wasmRt wasmConvert wasmMaterialize p.ty .anyref = some c ∧
      EmitsWasm p.ty .anyref c) ∧
    (∃ c, pipeline wasmRt wasmConvert wasmMaterialize .anyref p.ty = some c ∧
      EmitsWasm .anyref p.ty c) := by
  have aux : ∀ {α : Type} {l : RtOp → List α} {cv : Ty → Option Ty} {mt : Ty → Ty → Option (List α)}
      {s d : Ty}, (pipeline l cv mt s d).isSome → ∃ c, pipeline l cv mt s d = some c ∧ Emits l cv mt s d c := by
    intro α l cv mt s d h
    obtain ⟨c, hc⟩ := Option.isSome_iff_exists.1 h
    exact ⟨c, hc, pipeline_emits hc⟩
  cases p <;> exact ⟨aux (by decide), aux (by decide), aux (by decide), aux (by decide)⟩

/-- **C81.** On the native target a primitive value put in a generic position and taken out again, by
whichever of the codes the compiler has for the two casts, is the value it was: boxing succeeds and
changes nothing that is in memory, and as long as the new bytes are left alone unboxing succeeds and gives
the value back. -/
theorem C81_native (d : Datum) {v : Val} (hv : OnNative d v) {box unbox : List Clif}
    (hb : EmitsNative d.prim.ty .anyref box) (hu : EmitsNative .anyref d.prim.ty unbox)
    {al : Alloc} {m : Mem} (hf : ∀ n, n ≤ 16 → Fresh al m n) :
    ∃ m1 r, runNative al box m v = some (m1, r) ∧ Untouched m m1 ∧
      ∀ m2, NewKept m m1 m2 → ∃ v', runNative al unbox m2 r = some (m2, v') ∧ OnNative d v' := by
  have word32 : ∀ b : BitVec 32, v = .w32 b → (d.prim = .int ∨ d.prim = .nat ∨ d.prim = .rune ∨ d.prim = .bool) →
      ∃ m1 r, runNative al box m v = some (m1, r) ∧ Untouched m m1 ∧
        ∀ m2, NewKept m m1 m2 → ∃ v', runNative al unbox m2 r = some (m2, v') ∧ OnNative d v' := by
    intro b he hd
    subst he
    have hbox : ∃ k, box = boxValue 4 k := by
      rcases emits_box_native hb with ⟨h, _⟩ | ⟨h, _⟩ | ⟨_, h⟩
      · simp [h] at hd
      · simp [h] at hd
      · exact h
    have hunbox : unbox = [.load .i32 0 0] := by
      rcases emits_unbox_native hu with ⟨h, _⟩ | ⟨h, _⟩ | ⟨_, h⟩
      · simp [h] at hd
      · simp [h] at hd
      · exact h
    obtain ⟨k, rfl⟩ := hbox
    subst hunbox
    obtain ⟨a, m1, hlt, hrun, hnone, hout, _, hin⟩ :=
      box_run (al := al) (m := m) (payload := 4) (rtti := k) (v := .w32 b) (bytesOf_length _ _)
        (by decide) (by decide) (hf 12 (by decide))
    refine ⟨m1, _, hrun, ?_, ?_⟩
    · intro x y hx
      rw [hout x ?_]; · exact hx
      by_contra hc
      rw [hnone x (by omega) (by omega)] at hx
      cases hx
    · intro m2 hk
      refine ⟨.w32 b, ?_, hv⟩
      have haw : (BitVec.ofNat 64 (a + 8)).toNat = a + 8 := by
        rw [BitVec.toNat_ofNat]; exact Nat.mod_eq_of_lt (by omega)
      have hl : loadAt m2 (a + 8) .i32 = some (.w32 b) := by
        apply load32
        intro i hi
        have h1 := hin i hi
        have hs : ((Val.w32 b).bytes[i]?).isSome := bytes_isSome (by rw [Val.bytes, bytesOf_length]; exact hi)
        obtain ⟨y, hy⟩ := Option.isSome_iff_exists.1 hs
        rw [hy] at h1 ⊢
        exact hk _ _ (hnone _ (by omega) (by omega)) h1
      simp [runNative, steps, step, word, haw, hl]
  cases d with
  | nil =>
    rcases emits_box_native hb with ⟨_, rfl⟩ | ⟨h, _⟩ | ⟨h, _⟩
    · rcases emits_unbox_native hu with ⟨_, rfl⟩ | ⟨h, _⟩ | ⟨h, _⟩
      · exact ⟨m, _, rfl, fun _ _ h => h, fun m2 _ => ⟨_, rfl, trivial⟩⟩
      · simp [Datum.prim] at h
      · simp [Datum.prim] at h
    · simp [Datum.prim] at h
    · simp [Datum.prim] at h
  | float x =>
    cases v with
    | w32 b => exact hv.elim
    | w64 b => exact hv.elim
    | f64 b =>
      have hbox : ∃ k, box = boxValue 8 k := by
        rcases emits_box_native hb with ⟨h, _⟩ | ⟨_, h⟩ | ⟨h, _⟩
        · simp [Datum.prim] at h
        · exact h
        · simp [Datum.prim] at h
      have hunbox : unbox = [.load .f64 0 0] := by
        rcases emits_unbox_native hu with ⟨h, _⟩ | ⟨_, h⟩ | ⟨h, _⟩
        · simp [Datum.prim] at h
        · exact h
        · simp [Datum.prim] at h
      obtain ⟨k, rfl⟩ := hbox
      subst hunbox
      obtain ⟨a, m1, hlt, hrun, hnone, hout, _, hin⟩ :=
        box_run (al := al) (m := m) (payload := 8) (rtti := k) (v := .f64 b) (bytesOf_length _ _)
          (by decide) (by decide) (hf 16 (by decide))
      refine ⟨m1, _, hrun, ?_, ?_⟩
      · intro x y hx
        rw [hout x ?_]; · exact hx
        by_contra hc
        rw [hnone x (by omega) (by omega)] at hx
        cases hx
      · intro m2 hk
        refine ⟨.f64 b, ?_, hv⟩
        have haw : (BitVec.ofNat 64 (a + 8)).toNat = a + 8 := by
          rw [BitVec.toNat_ofNat]; exact Nat.mod_eq_of_lt (by omega)
        have hl : loadAt m2 (a + 8) .f64 = some (.f64 b) := by
          apply load64
          intro i hi
          have h1 := hin i hi
          have hs : ((Val.f64 b).bytes[i]?).isSome := bytes_isSome (by rw [Val.bytes, bytesOf_length]; exact hi)
          obtain ⟨y, hy⟩ := Option.isSome_iff_exists.1 hs
          rw [hy] at h1 ⊢
          exact hk _ _ (hnone _ (by omega) (by omega)) h1
        simp [runNative, steps, step, word, haw, hl]
  | int z => cases v with
    | w32 b => exact word32 b rfl (by simp [Datum.prim])
    | w64 b => exact hv.elim
    | f64 b => exact hv.elim
  | nat z => cases v with
    | w32 b => exact word32 b rfl (by simp [Datum.prim])
    | w64 b => exact hv.elim
    | f64 b => exact hv.elim
  | rune z => cases v with
    | w32 b => exact word32 b rfl (by simp [Datum.prim])
    | w64 b => exact hv.elim
    | f64 b => exact hv.elim
  | bool z => cases v with
    | w32 b => exact word32 b rfl (by simp [Datum.prim])
    | w64 b => exact hv.elim
    | f64 b => exact hv.elim

/-- **C81.** The box is born with one reference: eight bytes before the address that boxing gives, the
count is 1. -/
theorem C81_native_count (d : Datum) (hd : d ≠ .nil) {v : Val} (hv : OnNative d v) {box : List Clif}
    (hb : EmitsNative d.prim.ty .anyref box) {al : Alloc} {m : Mem} (hf : ∀ n, n ≤ 16 → Fresh al m n)
    {m1 : Mem} {r : Val} (h : runNative al box m v = some (m1, r)) :
    ∃ b : BitVec 64, r = .w64 b ∧ loadAt m1 (b.toNat - 8) .i32 = some (.w32 1) := by
  have aux : ∀ n k, v.bytes.length = n → n ≤ 8 → 0 < n → box = boxValue n k →
      ∃ b : BitVec 64, r = .w64 b ∧ loadAt m1 (b.toNat - 8) .i32 = some (.w32 1) := by
    intro n k hl hn h0 he
    subst he
    obtain ⟨a, m1', hlt, hrun, _, _, hcount, _⟩ :=
      box_run (al := al) (m := m) (payload := n) (rtti := k) (v := v) hl hn h0 (hf _ (by omega))
    rw [hrun] at h
    cases h
    refine ⟨_, rfl, ?_⟩
    rw [BitVec.toNat_ofNat, Nat.mod_eq_of_lt (by omega), Nat.add_sub_cancel]
    exact load32 (b := 1) hcount
  rcases emits_box_native hb with ⟨hp, _⟩ | ⟨hp, k, he⟩ | ⟨hp, k, he⟩
  · cases d <;> simp_all [Datum.prim]
  · refine aux 8 k ?_ (by decide) (by decide) he
    cases d <;> simp [Datum.prim] at hp
    cases v <;> first | exact bytesOf_length _ _ | exact hv.elim
  · refine aux 4 k ?_ (by decide) (by decide) he
    cases d <;> simp [Datum.prim] at hp <;> cases v <;> first | exact bytesOf_length _ _ | exact hv.elim

/-- **C81**, on WebAssembly, as far as it is true: what fits 31 bits, and every character, truth value,
float and nil, comes back.  Missing are the integers and naturals that do not fit; see `C81_wasm_exact`
and `C81_violated`. -/
theorem C81_wasm_partial (d : Datum) (hs : Small d) {v : WVal} (hv : OnWasm d v) {box unbox : List WInstr}
    (hb : EmitsWasm d.prim.ty .anyref box) (hu : EmitsWasm .anyref d.prim.ty unbox) :
    ∃ r v', runWasm box v = some r ∧ runWasm unbox r = some v' ∧ OnWasm d v' := by
  have word32 : ∀ b : BitVec 32, v = .i32 b → (-2 ^ 30 ≤ b.toInt ∧ b.toInt < 2 ^ 30) →
      (d.prim = .int ∨ d.prim = .nat ∨ d.prim = .rune) →
      ∃ r v', runWasm box v = some r ∧ runWasm unbox r = some v' ∧ OnWasm d v' := by
    intro b he hr hd
    subst he
    have hunbox : unbox = [.castI31, .i31GetS] := by
      rcases emits_unbox_wasm hu with ⟨h, _⟩ | ⟨h, _⟩ | ⟨_, h⟩ | ⟨h, _⟩
      · simp [h] at hd
      · simp [h] at hd
      · exact h
      · simp [h] at hd
    subst hunbox
    have hx := (low31_signed b).2 hr
    refine ⟨.i31 (b.setWidth 31), .i32 b, ?_, by simp [runWasm, wstep, hx], hv⟩
    rcases emits_box_wasm hb with ⟨h, _⟩ | ⟨h, _⟩ | ⟨_, h | h⟩
    · simp [h] at hd
    · simp [h] at hd
    · subst h; rfl
    · subst h; rfl
  cases d with
  | nil =>
    rcases emits_box_wasm hb with ⟨_, rfl⟩ | ⟨h, _⟩ | ⟨h, _⟩
    · rcases emits_unbox_wasm hu with ⟨_, rfl⟩ | ⟨h, _⟩ | ⟨h, _⟩ | ⟨h, _⟩
      · exact ⟨.null, .null, by cases v <;> rfl, rfl, trivial⟩
      all_goals simp [Datum.prim] at h
    all_goals simp [Datum.prim] at h
  | float x =>
    rcases emits_box_wasm hb with ⟨h, _⟩ | ⟨_, rfl⟩ | ⟨h, _⟩
    · simp [Datum.prim] at h
    · rcases emits_unbox_wasm hu with ⟨h, _⟩ | ⟨_, rfl⟩ | ⟨h, _⟩ | ⟨h, _⟩
      · simp [Datum.prim] at h
      · cases v <;> first | exact hv.elim | exact ⟨_, _, rfl, rfl, hv⟩
      all_goals simp [Datum.prim] at h
    · simp [Datum.prim] at h
  | int z => cases v with
    | i32 b =>
      refine word32 b rfl ?_ (by simp [Datum.prim])
      have : b.toInt = z := hv
      rw [this]; exact hs
    | _ => exact hv.elim
  | nat z => cases v with
    | i32 b =>
      refine word32 b rfl ?_ (by simp [Datum.prim])
      have h1 : b.toNat = z := hv
      have h2 : z < 2 ^ 30 ∨ 3 * 2 ^ 30 ≤ z := hs
      have hlt := b.isLt
      rw [BitVec.toInt_eq_toNat_bmod, Int.bmod_def]; omega
    | _ => exact hv.elim
  | rune z => cases v with
    | i32 b =>
      refine word32 b rfl ?_ (by simp [Datum.prim])
      have h1 : b.toNat = z.toNat := hv
      have h2 : z.toNat < 0x110000 := by
        have := z.valid
        simp only [Char.toNat]
        rcases this with h | h <;> omega
      rw [BitVec.toInt_eq_toNat_of_lt (by omega)]; omega
    | _ => exact hv.elim
  | bool t => cases v with
    | i32 b =>
      have h1 : b = if t then 1 else 0 := hv
      rcases emits_box_wasm hb with ⟨h, _⟩ | ⟨h, _⟩ | ⟨_, h⟩
      · simp [Datum.prim] at h
      · simp [Datum.prim] at h
      · have hbox : runWasm box (.i32 b) = some (.i31 (b.setWidth 31)) := by
          rcases h with rfl | rfl <;> rfl
        rcases emits_unbox_wasm hu with ⟨h, _⟩ | ⟨h, _⟩ | ⟨h, _⟩ | ⟨_, h⟩
        · simp [Datum.prim] at h
        · simp [Datum.prim] at h
        · simp [Datum.prim] at h
        · refine ⟨_, .i32 b, hbox, ?_, hv⟩
          rcases h with rfl | rfl <;> cases t <;> simp at h1 <;> subst h1 <;> rfl
    | _ => exact hv.elim

/-- **C81.** Exactly the numbers of 31 bits (with the sign) come back on WebAssembly; every other integer
and every other natural is changed, whichever codes the two casts got. -/
theorem C81_wasm_exact (d : Datum) {v : WVal} (hv : OnWasm d v) {box unbox : List WInstr}
    (hb : EmitsWasm d.prim.ty .anyref box) (hu : EmitsWasm .anyref d.prim.ty unbox) :
    (∃ r v', runWasm box v = some r ∧ runWasm unbox r = some v' ∧ OnWasm d v') ↔ Small d := by
  refine ⟨?_, fun hs => C81_wasm_partial d hs hv hb hu⟩
  rintro ⟨r, v', h1, h2, hv'⟩
  have aux : ∀ b : BitVec 32, v = .i32 b → (d.prim = .int ∨ d.prim = .nat) →
      v' = .i32 ((b.setWidth 31).signExtend 32) := by
    intro b he hd
    subst he
    have hr : r = .i31 (b.setWidth 31) := by
      rcases emits_box_wasm hb with ⟨h, _⟩ | ⟨h, _⟩ | ⟨_, h | h⟩
      · simp [h] at hd
      · simp [h] at hd
      all_goals subst h; simp [runWasm, wstep] at h1; exact h1.symm
    subst hr
    rcases emits_unbox_wasm hu with ⟨h, _⟩ | ⟨h, _⟩ | ⟨_, h⟩ | ⟨h, _⟩
    · simp [h] at hd
    · simp [h] at hd
    · subst h; simp [runWasm, wstep] at h2; exact h2.symm
    · simp [h] at hd
  cases d with
  | int z => cases v with
    | i32 b =>
      have he := aux b rfl (by simp [Datum.prim])
      subst he
      have h3 : b.toInt = z := hv
      have h4 : ((b.setWidth 31).signExtend 32).toInt = z := hv'
      have := (low31_signed b).1 (BitVec.eq_of_toInt_eq (h4.trans h3.symm))
      rw [h3] at this
      exact this
    | _ => exact hv.elim
  | nat z => cases v with
    | i32 b =>
      have he := aux b rfl (by simp [Datum.prim])
      subst he
      have h3 : b.toNat = z := hv
      have h4 : ((b.setWidth 31).signExtend 32).toNat = z := hv'
      have h5 := (low31_signed b).1 (BitVec.eq_of_toNat_eq (h4.trans h3.symm))
      have hlt := b.isLt
      rw [BitVec.toInt_eq_toNat_bmod, Int.bmod_def] at h5
      show z < 2 ^ 30 ∨ 3 * 2 ^ 30 ≤ z
      omega
    | _ => exact hv.elim
  | _ => trivial

/-- The full statement for WebAssembly: every primitive value comes back. -/
def WasmKeeps : Prop :=
  ∀ (d : Datum) (v : WVal) (box unbox : List WInstr), OnWasm d v →
    EmitsWasm d.prim.ty .anyref box → EmitsWasm .anyref d.prim.ty unbox →
    ∃ r v', runWasm box v = some r ∧ runWasm unbox r = some v' ∧ OnWasm d v'

/-- **C81 is false on WebAssembly**: 2^30 comes back as -2^30.  (It is no literal, but 2^29 + 2^29.) -/
theorem C81_violated : ¬ WasmKeeps ∧
    (∀ box unbox, EmitsWasm (Datum.int (2 ^ 30)).prim.ty .anyref box →
      EmitsWasm .anyref (Datum.int (2 ^ 30)).prim.ty unbox →
      ∃ r v', runWasm box (.i32 (2 ^ 30)) = some r ∧ runWasm unbox r = some v' ∧
        OnWasm (.int (-2 ^ 30)) v') := by
  constructor
  · intro h
    obtain ⟨_, _, ⟨c1, _, h1⟩, ⟨c2, _, h2⟩⟩ := C81_casts_resolved .int
    have := (C81_wasm_exact (.int (2 ^ 30)) (v := .i32 (2 ^ 30)) (by rfl) h1 h2).1
      (h _ _ _ _ (by rfl) h1 h2)
    exact absurd this.2 (by decide)
  · intro box unbox hb hu
    have hr : runWasm box (.i32 (2 ^ 30)) = some (.i31 (2 ^ 30)) := by
      rcases emits_box_wasm hb with ⟨h, _⟩ | ⟨h, _⟩ | ⟨_, rfl | rfl⟩
      · simp [Datum.prim] at h
      · simp [Datum.prim] at h
      · decide
      · decide
    refine ⟨_, .i32 (-(2 ^ 30)), hr, ?_, by show (-(2 ^ 30) : BitVec 32).toInt = _; decide⟩
    rcases emits_unbox_wasm hu with ⟨h, _⟩ | ⟨h, _⟩ | ⟨_, rfl⟩ | ⟨h, _⟩
    · simp [Datum.prim] at h
    · simp [Datum.prim] at h
    · decide
    · simp [Datum.prim] at h

/-- **C81.** The integers that can be written in a program all come back on WebAssembly too: a literal that
is compiled at all has a value of 31 bits. -/
theorem C81_literals {text : List Char} {z w : Int} (hl : Literals.IntLit text z)
    (hc : (Literals.exprInt text).bind Literals.validateInt = some w) : Small (.int w) := by
  rw [Literals.C38_compiled_int hl] at hc
  by_cases h : -2 ^ 30 ≤ z ∧ z < 2 ^ 30
  · rw [if_pos h] at hc; cases hc; exact h
  · rw [if_neg h] at hc; cases hc

/-! ## Instances -/

/-- A memory in use below 4096, and an allocator that puts its blocks there. -/
def used : Mem := fun x => if x < 4096 then some 7 else none
@[inherit_doc used] def bump : Alloc := fun _ _ => (4096, fun _ => 0)

theorem bump_fresh : ∀ n, n ≤ 16 → Fresh bump used n := by
  intro n hn
  refine ⟨by simp only [bump]; omega, ?_⟩
  intro x h1 h2
  simp only [bump] at h1 h2
  simp only [used]
  rw [if_neg (by omega)]

example : ∃ m1 r, runNative bump (boxValue 4 rttiInt) used (.w32 (2 ^ 30)) = some (m1, r) ∧ Untouched used m1 ∧
    ∀ m2, NewKept used m1 m2 → ∃ v', runNative bump [.load .i32 0 0] m2 r = some (m2, v') ∧
      OnNative (.int (2 ^ 30)) v' :=
  C81_native (.int (2 ^ 30)) (v := .w32 (2 ^ 30)) (by show BitVec.toInt _ = _; decide)
    (.early (ops := [.boxInt]) (by decide)) (.early (ops := [.unboxInt]) (by decide)) bump_fresh

example : (runNative bump (boxValue 8 rttiFloat) used (.f64 (0x3ff0000000000000))).map Prod.snd =
    some (.w64 4104) := by decide

example : ∃ r v', runWasm [.refI31] (.i32 (-5)) = some r ∧ runWasm [.castI31, .i31GetS] r = some v' ∧
    OnWasm (.int (-5)) v' :=
  C81_wasm_partial (.int (-5)) ⟨by decide, by decide⟩ (v := .i32 (-5)) (by show BitVec.toInt _ = _; decide)
    (.early (ops := [.boxInt]) (by decide)) (.early (ops := [.unboxInt]) (by decide))

/-- A natural of 2^31 - 1, unboxed by the code that is used, is 2^32 - 1. -/
example : (runWasm [.refI31] (.i32 0x7fffffff)).bind (runWasm [.castI31, .i31GetS]) =
    some (.i32 0xffffffff) := by decide

end Verif.Boxing
