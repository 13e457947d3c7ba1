import Verif.Const.Proofs

/-!
# C97: string and byte-string literals have the bytes written
-/
namespace Verif.Const
open Verif.Rtti (Mem storeN loadN addr)

/-- **C97** (WebAssembly). In a module that is compiled, running the code of any literal, wherever it
stands, makes a string or a byte string with exactly the bytes of the literal. -/
theorem C97_wasm (stringTy : Bool) (ops : List Op) (hs : Spec.Small ops) (segs : List (List UInt8))
    (code : List WCode) (h : compileWasm stringTy ops = .ok (segs, code)) : Spec.WMeansAll segs ops code := by
  obtain ⟨c, hc, ha⟩ := analyzeWasm_spec stringTy ops
  simp only [compileWasm, ha, validateWasm_eq] at h
  split at h
  · rename_i hv
    cases he : emitW (lowerW c.allocations (Spec.hasString ops && stringTy) ops) with
    | error e => rw [he] at h; cases h
    | ok cs =>
      rw [he] at h
      cases h
      have hk : Spec.hasString ops = true → (Spec.hasString ops && stringTy) = true := by
        intro h1
        simpa [h1] using hv
      obtain ⟨code', h1, h2⟩ := emitW_means hc hs.1 _ ops (fun _ h => h)
        (emitW_ok hc hs.1 _ ops code (fun _ h => h) hs.2 he) hk
      rw [he] at h1
      cases h1
      exact h2
  · cases h

/-- **C97** (WebAssembly). A module is compiled exactly when its literals are shorter than 2 GiB and
the type of strings is known if it is needed: no literal is ever cut silently. -/
theorem C97_wasmCompiles (stringTy : Bool) (ops : List Op) (hs : Spec.Small ops) :
    (∃ r, compileWasm stringTy ops = .ok r) ↔
      (∀ c ∈ Spec.contents ops, c.length < 2 ^ 31) ∧ (Spec.hasString ops = true → stringTy = true) := by
  obtain ⟨c, hc, ha⟩ := analyzeWasm_spec stringTy ops
  simp only [compileWasm, ha, validateWasm_eq]
  constructor
  · rintro ⟨r, hr⟩
    split at hr
    · rename_i hv
      cases he : emitW (lowerW c.allocations (Spec.hasString ops && stringTy) ops) with
      | error e => rw [he] at hr; cases hr
      | ok cs =>
        refine ⟨emitW_ok hc hs.1 _ ops cs (fun _ h => h) hs.2 he, fun h1 => ?_⟩
        simpa [h1] using hv
    · cases hr
  · rintro ⟨h1, h2⟩
    obtain ⟨code, h3, _⟩ := emitW_means hc hs.1 (Spec.hasString ops && stringTy) ops (fun _ h => h) h1
      (fun h => by simp [h, h2 h])
    refine ⟨(c.allocations.map (·.content), code), ?_⟩
    rw [if_pos (by cases h : Spec.hasString ops <;> simp [h2, h]), h3]
    rfl

/-- **C97** (WebAssembly). The data of the module is the contents of its literals, each once. -/
theorem C97_wasmData (stringTy : Bool) (ops : List Op) (segs : List (List UInt8)) (code : List WCode)
    (h : compileWasm stringTy ops = .ok (segs, code)) :
    segs.Nodup ∧ ∀ c, c ∈ segs ↔ c ∈ Spec.contents ops := by
  obtain ⟨c, hc, ha⟩ := analyzeWasm_spec stringTy ops
  simp only [compileWasm, ha] at h
  split at h
  · cases he : emitW (lowerW c.allocations (Spec.hasString ops && stringTy) ops) with
    | error e => rw [he] at h; cases h
    | ok cs =>
      rw [he] at h
      cases h
      exact ⟨hc.nodup, hc.all⟩
  · cases h

/-- **C97** (native, partial). When none of the program's functions has a name the compiler uses for
data or for the allocator, running the code of any literal makes a new object, counted once, with
exactly the bytes of the literal, and changes nothing else. -/
theorem C97_native_partial (stringTy : Bool) (ops : List Op) (hs : Spec.Small ops) (img : Image)
    (hn : Spec.NoClash img) (rodata : List (String × List UInt8)) (code : List NCode)
    (h : compileNative stringTy ops = .ok (rodata, code)) : Spec.NMeansAll img rodata ops code := by
  obtain ⟨h1, h2⟩ := native_col ops hs.1
  rw [compileNative_eq stringTy ops hs.1] at h
  split at h
  · cases h
  · rename_i hv
    cases h
    refine lowerN_means h1 _ hn ops (fun _ h => h) fun h3 => ?_
    simpa [h3] using hv

/-- **C97** (native). A module is compiled exactly when the type of strings is known if it is
needed. -/
theorem C97_nativeCompiles (stringTy : Bool) (ops : List Op) (hs : Spec.Small ops) :
    (∃ r, compileNative stringTy ops = .ok r) ↔ (Spec.hasString ops = true → stringTy = true) := by
  rw [compileNative_eq stringTy ops hs.1]
  cases Spec.hasString ops <;> cases stringTy <;> simp

/-- **C97** (native). The data of the program is the contents of its literals, each once, under
different names. -/
theorem C97_nativeData (stringTy : Bool) (ops : List Op) (hs : Spec.Small ops)
    (rodata : List (String × List UInt8)) (code : List NCode)
    (h : compileNative stringTy ops = .ok (rodata, code)) :
    (rodata.map (·.2)).Nodup ∧ (rodata.map (·.1)).Nodup ∧
      ∀ c, c ∈ rodata.map (·.2) ↔ c ∈ Spec.contents ops := by
  obtain ⟨h1, h2⟩ := native_col ops hs.1
  rw [compileNative_eq stringTy ops hs.1] at h
  split at h
  · cases h
  · cases h
    refine ⟨h1.nodup, ?_, h1.all⟩
    rw [h1.names]
    exact List.Pairwise.map _ (fun _ _ hne he => hne (rodataName_inj he)) List.nodup_range

/-! ## A module with several literals -/

/-- A function with the literals `"hi"`, `b"hi"`, and inside another operation `""` and `"hi"`. -/
def sample : List Op :=
  [.other 0 [.string "hi", .bytes [104, 105], .other 1 [.bytes [], .string "hi"]]]

example : Spec.Small sample := by
  refine ⟨by decide +kernel, ?_⟩
  decide +kernel

theorem name0 : rodataName 0 = "__tribute_rodata_0" := by decide +kernel

theorem name1 : rodataName 1 = "__tribute_rodata_1" := by decide +kernel

theorem utf8_hi : utf8 "hi" = [104, 105] := by decide +kernel

example : ∃ code, compileWasm true sample = .ok ([[104, 105], []], code) := by
  simp [compileWasm, analyzeWasm, sample, walk, walkOp, WCol.visit, WCol.collect, WCol.new, utf8_hi,
    validateWasm, checkString, lowerW, lowerWOp, lookup, emitW, emitWOp, emitData, Except.map]

example : ∃ code, compileNative true sample =
    .ok ([("__tribute_rodata_0", [104, 105]), ("__tribute_rodata_1", [])], code) := by
  simp [compileNative, sample, walk, walkOp, NCol.visit, NCol.intern, NCol.new, utf8_hi,
    lowerN, lowerNOp, anyKeptL, NCode.anyKept, name0, name1]

/-- A linked program: data from address 2000 on, the heap from address 4000 on. -/
def image (funcs : List String) : Image where
  funcs := funcs
  codeAt := fun _ => 1000
  dataAt := fun n => if n = "__tribute_rodata_0" then 2000 else 2002
  allocate := fun _ _ => 4000
  runFunc := fun _ x m => (x, m)

/-- Its memory at the start. -/
def memory : Mem := fun x => if x = 2000 then 104 else if x = 2001 then 105 else 0

theorem memory_loaded (funcs : List String) :
    Spec.Loaded (image funcs) [("__tribute_rodata_0", [104, 105]), ("__tribute_rodata_1", [])] memory := by
  intro n c h
  simp only [List.mem_cons, Prod.mk.injEq, List.not_mem_nil, or_false] at h
  rcases h with ⟨rfl, rfl⟩ | ⟨rfl, rfl⟩
  · refine ⟨by simp [image], by simp [image], fun i hi => ?_⟩
    simp only [List.length_cons, List.length_nil] at hi
    rcases i with _ | _ | i
    · rfl
    · rfl
    · omega
  · exact ⟨by simp [image], by simp [image], fun i hi => by simp at hi⟩

theorem memory_alloc (funcs : List String) :
    Spec.GoodAlloc (image funcs) [("__tribute_rodata_0", [104, 105]), ("__tribute_rodata_1", [])] memory := by
  refine ⟨by simp [image], fun n c h => ?_⟩
  simp only [List.mem_cons, Prod.mk.injEq, List.not_mem_nil, or_false] at h
  rcases h with ⟨rfl, rfl⟩ | ⟨rfl, rfl⟩ <;> simp [image]

theorem sample_noClash : Spec.NoClash (image ["main"]) := by
  refine ⟨by decide, fun i h => ?_⟩
  simp only [image, List.mem_singleton] at h
  have h1 := congrArg (fun s => s.toList.head?) h
  simp at h1

example : Spec.NoClash (image ["main"]) ∧
    Spec.Loaded (image ["main"]) [("__tribute_rodata_0", [104, 105]), ("__tribute_rodata_1", [])] memory ∧
    Spec.GoodAlloc (image ["main"]) [("__tribute_rodata_0", [104, 105]), ("__tribute_rodata_1", [])] memory :=
  ⟨sample_noClash, memory_loaded _, memory_alloc _⟩

/-! ## A function with a name of the compiler -/

/-- **C97** is false on the native target: in a program that defines a function
`__tribute_rodata_0`, a literal is made of the machine code of that function, because `symbol_addr`
looks for functions before data (function.rs 512-514). -/
theorem C97_native_violated :
    ∃ (ops : List Op) (img : Image) (rodata : List (String × List UInt8)) (code : List NCode) (m : Mem),
      Spec.Small ops ∧ img.funcs = ["main", "__tribute_rodata_0"] ∧
      compileNative true ops = .ok (rodata, code) ∧ Spec.Loaded img rodata m ∧
      Spec.GoodAlloc img rodata m ∧ ¬ Spec.NMeansAll img rodata ops code := by
  refine ⟨[.string "hi", .bytes []], image ["main", "__tribute_rodata_0"],
    [("__tribute_rodata_0", [104, 105]), ("__tribute_rodata_1", [])],
    [.instrs (emitBytesAlloc "__tribute_rodata_0" 2 ++ [.leaf 10 9]),
      .instrs (emitBytesAlloc "__tribute_rodata_1" 0)], memory, ?_, rfl, ?_,
    memory_loaded _, memory_alloc _, ?_⟩
  · exact ⟨by decide +kernel, by decide +kernel⟩
  · simp [compileNative, walk, walkOp, NCol.visit, NCol.intern, NCol.new, utf8_hi,
      lowerN, lowerNOp, anyKeptL, NCode.anyKept, name0, name1]
  intro h
  cases h with
  | cons h1 _ =>
    cases h1 with
    | string h2 =>
      obtain ⟨p, m', h3, ⟨h4, h5⟩, _, _⟩ := h2 memory (memory_loaded _) (memory_alloc _)
      obtain ⟨s, e1, e2, e3⟩ := emit_runs (img := image ["main", "__tribute_rodata_0"])
        (rodata := [("__tribute_rodata_0", [104, 105]), ("__tribute_rodata_1", [])])
        (sym := "__tribute_rodata_0") (d := 1000) (len := 2) (m := memory) rfl (by decide) (by decide)
        (by decide) (by decide) [.leaf 10 9]
      have e4 : nrun (image ["main", "__tribute_rodata_0"])
          [("__tribute_rodata_0", [104, 105]), ("__tribute_rodata_1", [])] memory
          (emitBytesAlloc "__tribute_rodata_0" 2 ++ [.leaf 10 9]) 10 = some (.leaf 4008, s.mem) := by
        rw [nrun, e3]
        simp [nsteps, nstep, NState.word, e2, NState.set, image]
      have e5 := e4.symm.trans h3
      simp only [Option.some.injEq, Prod.mk.injEq, NVal.leaf.injEq] at e5
      obtain ⟨rfl, rfl⟩ := e5
      have e6 := h5 0 (by decide +kernel)
      rw [e1, show loadN (after memory ((image ["main", "__tribute_rodata_0"]).allocate 24 memory) 1000 2)
        4008 8 = 1000 from after_ptr (by decide), after_other (by decide)] at e6
      exact absurd e6 (by decide +kernel)

end Verif.Const
