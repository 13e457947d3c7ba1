import Verif.Names.Proofs

/-!
# Calls run the function of that name, and the start runs `main`

C98: whatever names a program gives its functions, its compiled form calls its functions when its
source does and writes what its source writes.
-/
namespace Verif.Names
open Spec

/-- A program with a branch, a recursive function and two writes. -/
def sample : Program :=
  [⟨"loop", ⟨[.i32], []⟩, [.branch [.write "a", .call "loop" ⟨[.i32], []⟩] []]⟩,
    ⟨"main", ⟨[], []⟩, [.call "loop" ⟨[.i32], []⟩, .write "end"]⟩]

theorem sample_accepted : Accepted sample where
  names := by decide
  calls f hf := by
    simp only [sample, List.mem_cons, List.not_mem_nil, or_false] at hf
    rcases hf with rfl | rfl <;> simp [CallsOk, CallsOkStmt, sample]
  main := by decide

theorem sample_does : Does sample ["a", "end"] := by
  refine ⟨_, List.mem_cons_of_mem _ List.mem_cons_self, rfl, ?_⟩
  refine Runs.call (t1 := ["a"]) (t2 := ["end"]) (fn := sample[0]) List.mem_cons_self rfl ?_
    (.write .nil)
  refine .yes (.write ?_)
  exact Runs.call (t1 := []) (t2 := []) (fn := sample[0]) List.mem_cons_self rfl (.no .nil) .nil

/-- **C98** (WebAssembly). A program that uses none of the names the compiler needs compiles, and its
module writes exactly what the program writes. What is missing: programs that use such a name. -/
theorem C98_wasm_partial {p : Program} (hp : Accepted p) (ha : Avoids p wasmNames) :
    ∃ m, compileWasm p = .ok m ∧
      ∀ tr, wasmRuns m tr ↔ ∃ texts, tr = texts.map .out ∧ Does p texts :=
  ⟨_, compileW hp ha, runsW hp ha⟩

/-- **C98** (native). The same for the native target, where the runtime is initialised first. What is
missing: programs that use one of the compiler's names. -/
theorem C98_native_partial {p : Program} (hp : Accepted p) (ha : Avoids p nativeNames) :
    ∃ m, compileNative p = .ok m ∧
      ∀ tr, nativeRuns m tr ↔ ∃ texts, tr = .init :: texts.map .out ∧ Does p texts := by
  obtain ⟨m, hm, hmm⟩ := exists_main hp
  exact ⟨_, compileN hp ha hm hmm, runsN hp ha hm hmm⟩

example : ∃ m, compileWasm sample = .ok m ∧ wasmRuns m [.out "a", .out "end"] := by
  obtain ⟨m, h, hr⟩ := C98_wasm_partial sample_accepted (by simp [Avoids, sample, wasmNames])
  exact ⟨m, h, (hr _).2 ⟨_, rfl, sample_does⟩⟩

example : ∃ m, compileNative sample = .ok m ∧ nativeRuns m [.init, .out "a", .out "end"] := by
  obtain ⟨m, h, hr⟩ := C98_native_partial sample_accepted (by simp [Avoids, sample, nativeNames])
  exact ⟨m, h, (hr _).2 ⟨_, rfl, sample_does⟩⟩

/-! ## Programs with a name of the compiler -/

/-- A function called `fd_write` that does nothing. -/
def fdProgram : Program :=
  [⟨"fd_write", ⟨[.i32, .i32, .i32, .i32], [.i32]⟩, []⟩,
    ⟨"main", ⟨[], []⟩, [.call "fd_write" ⟨[.i32, .i32, .i32, .i32], [.i32]⟩, .write "hi"]⟩]

theorem fdProgram_accepted : Accepted fdProgram where
  names := by decide
  calls f hf := by
    simp only [fdProgram, List.mem_cons, List.not_mem_nil, or_false] at hf
    rcases hf with rfl | rfl <;> simp [CallsOk, CallsOkStmt, fdProgram]
  main := by decide

/-- **C98** is false on WebAssembly: a function of the program called `fd_write` is called in place of
the host's, and what the program writes is lost. -/
theorem C98_wasmOutput_violated : ∃ p m, Accepted p ∧ compileWasm p = .ok m ∧ Does p ["hi"] ∧
    ∀ tr, wasmRuns m tr → tr = [] := by
  refine ⟨fdProgram, wasmModule fdProgram, fdProgram_accepted, by rfl, ?_, ?_⟩
  · exact ⟨_, List.mem_cons_of_mem _ List.mem_cons_self, rfl,
      Runs.call (t1 := []) (fn := fdProgram[0]) List.mem_cons_self rfl .nil (.write .nil)⟩
  · intro tr h
    have e1 : resolveW (wasmModule fdProgram) "_start" = some (.func (startFunc ⟨[], []⟩)) := by rfl
    have e2 : resolveW (wasmModule fdProgram) "main" = some (.func (lowerFuncW fdProgram[1])) := by rfl
    have e3 : resolveW (wasmModule fdProgram) "fd_write" = some (.func (lowerFuncW fdProgram[0])) := by
      rfl
    have e4 : resolveW (wasmModule fdProgram) "__tribute_wasi_write" = some (.func helperFunc) := by rfl
    unfold wasmRuns at h
    cases h with
    | service hr => rw [e1] at hr; cases hr
    | func hr hb hrest =>
      rw [e1] at hr; cases hr; cases hrest
      cases hb with
      | service hr => rw [e2] at hr; cases hr
      | func hr hb hrest =>
        rw [e2] at hr; cases hr; cases hrest
        cases hb with
        | service hr => rw [e3] at hr; cases hr
        | func hr hb hrest =>
          rw [e3] at hr; cases hr; cases hb
          cases hrest with
          | service hr => rw [show writeHelper = "__tribute_wasi_write" from rfl, e4] at hr; cases hr
          | func hr hb hrest =>
            rw [show writeHelper = "__tribute_wasi_write" from rfl, e4] at hr; cases hr; cases hrest
            cases hb with
            | service hr => rw [e3] at hr; cases hr
            | func hr hb hrest =>
              rw [e3] at hr; cases hr; cases hb; cases hrest
              rfl

/-- A function called `_start`. -/
def startProgram : Program :=
  [⟨"_start", ⟨[], []⟩, [.write "hi"]⟩, ⟨"main", ⟨[], []⟩, [.call "_start" ⟨[], []⟩]⟩]

theorem startProgram_accepted : Accepted startProgram where
  names := by decide
  calls f hf := by
    simp only [startProgram, List.mem_cons, List.not_mem_nil, or_false] at hf
    rcases hf with rfl | rfl <;> simp [CallsOk, CallsOkStmt, startProgram]
  main := by decide

/-- **C98** is false on WebAssembly: a call of the program's function `_start` runs the generated start
function, so the program that writes one line and ends never ends. -/
theorem C98_wasmStart_violated : ∃ p m, Accepted p ∧ compileWasm p = .ok m ∧ Does p ["hi"] ∧
    ∀ tr, ¬ wasmRuns m tr := by
  refine ⟨startProgram, wasmModule startProgram, startProgram_accepted, by rfl, ?_, ?_⟩
  · exact ⟨_, List.mem_cons_of_mem _ List.mem_cons_self, rfl,
      Runs.call (t1 := ["hi"]) (t2 := []) (fn := startProgram[0]) List.mem_cons_self rfl
        (.write .nil) .nil⟩
  · intro tr h
    have e1 : resolveW (wasmModule startProgram) "_start" = some (.func (startFunc ⟨[], []⟩)) := by rfl
    have e2 : resolveW (wasmModule startProgram) "main" = some (.func (lowerFuncW startProgram[1])) := by
      rfl
    have key : ∀ par ts tr, TRuns (resolveW (wasmModule startProgram)) par ts tr →
        ts ≠ [.call "_start" ⟨[], []⟩ .none] ∧ ts ≠ [.call "main" ⟨[], []⟩ .none] := by
      intro par ts tr h
      induction h with
      | nil => simp
      | service hr =>
        constructor <;> intro e <;> simp only [List.cons.injEq, TStmt.call.injEq] at e
        · rw [e.1.1, e1] at hr; cases hr
        · rw [e.1.1, e2] at hr; cases hr
      | func hr _ _ ih _ =>
        constructor <;> intro e <;> simp only [List.cons.injEq, TStmt.call.injEq] at e
        · rw [e.1.1, e1] at hr; cases hr; exact ih.2 rfl
        · rw [e.1.1, e2] at hr; cases hr; exact ih.1 rfl
      | yes => simp
      | no => simp
    exact (key _ _ _ h).1 rfl

/-- A function called `__tribute_init`. -/
def initProgram : Program :=
  [⟨"__tribute_init", ⟨[], []⟩, [.write "hi"]⟩, ⟨"main", ⟨[], []⟩, [.call "__tribute_init" ⟨[], []⟩]⟩]

theorem initProgram_accepted : Accepted initProgram where
  names := by decide
  calls f hf := by
    simp only [initProgram, List.mem_cons, List.not_mem_nil, or_false] at hf
    rcases hf with rfl | rfl <;> simp [CallsOk, CallsOkStmt, initProgram]
  main := by decide

/-- **C98** is false on the native target: a function called `__tribute_init` runs before `main`
although the program does not call it there, and the runtime is not initialised. -/
theorem C98_nativeInit_violated : ∃ p m, Accepted p ∧ compileNative p = .ok m ∧
    (∀ texts, Does p texts → texts = ["hi"]) ∧ Does p ["hi"] ∧ nativeRuns m [.out "hi", .out "hi"] ∧
    ∀ tr, nativeRuns m tr → .init ∉ tr := by
  refine ⟨initProgram, ⟨initProgram.map lowerFuncN ++ [entryFunc ⟨[], []⟩], [writeImport, allocImport]⟩,
    initProgram_accepted, by rfl, ?_, ?_, ?_, ?_⟩
  · rintro texts ⟨m, hm, hn, hr⟩
    simp only [initProgram, List.mem_cons, List.not_mem_nil, or_false] at hm
    rcases hm with rfl | rfl
    · simp at hn
    · cases hr with
      | call hm hn hb hrest =>
        cases hrest
        simp only [initProgram, List.mem_cons, List.not_mem_nil, or_false] at hm
        rcases hm with rfl | rfl
        · cases hb with
          | write hb => cases hb; rfl
        · simp at hn
  · exact ⟨_, List.mem_cons_of_mem _ List.mem_cons_self, rfl,
      Runs.call (t1 := ["hi"]) (t2 := []) (fn := initProgram[0]) List.mem_cons_self rfl
        (.write .nil) .nil⟩
  all_goals
    generalize hM : (⟨initProgram.map lowerFuncN ++ [entryFunc ⟨[], []⟩], [writeImport, allocImport]⟩ :
      NModule) = M
    have e1 : resolveN M "main" = some (.func (entryFunc ⟨[], []⟩)) := by subst hM; rfl
    have e2 : resolveN M "__tribute_init" = some (.func (lowerFuncN initProgram[0])) := by subst hM; rfl
    have e3 : resolveN M "_tribute_main" = some (.func (lowerFuncN initProgram[1])) := by subst hM; rfl
    have e4 : resolveN M "__tribute_alloc" = some (.service allocImport.sig .alloc) := by subst hM; rfl
    have e5 : resolveN M "__tribute_io_write" = some (.service writeImport.sig .write) := by
      subst hM; rfl
  · have h1 : TRuns (resolveN M) none (lowerFuncN initProgram[0]).body [.out "hi"] :=
      TRuns.service (tr := [.out "hi"]) e4 (TRuns.service (tr := []) e5 .nil)
    exact TRuns.func (t1 := [.out "hi", .out "hi"]) (t2 := []) e1
      (TRuns.func (t1 := [.out "hi"]) (t2 := [.out "hi"]) e2 h1
        (TRuns.func (t1 := [.out "hi"]) (t2 := []) e3
          (TRuns.func (t1 := [.out "hi"]) (t2 := []) e2 h1 .nil) .nil)) .nil
  · have hns : ∀ f sig, resolveN M f ≠ some (.service sig .init) := by
      intro f sig h
      subst hM
      unfold resolveN at h
      split at h
      · cases h
      · simp only [List.find?_cons] at h
        split at h
        · simp [writeImport] at h
        · split at h
          · simp [allocImport] at h
          · simp at h
    intro tr h
    have key : ∀ par ts tr, TRuns (resolveN M) par ts tr → .init ∉ tr := by
      intro par ts tr h
      induction h with
      | nil => simp
      | @service par f sig arg rest sig' s tr hr _ ih =>
        cases s with
        | init => exact absurd hr (hns _ _)
        | write => cases h : arg.eval par <;> simp [Service.run, ih]
        | alloc => simpa [Service.run] using ih
      | func _ _ _ ih1 ih2 => simp [ih1, ih2]
      | yes _ ih => exact ih
      | no _ ih => exact ih
    exact key _ _ _ h

/-- A function called `_tribute_main`. -/
def mainProgram : Program :=
  [⟨"_tribute_main", ⟨[], []⟩, [.write "hi"]⟩, ⟨"main", ⟨[], []⟩, [.call "_tribute_main" ⟨[], []⟩]⟩]

/-- **C98** is false on the native target: the compiler panics on a program with a function called
`_tribute_main`. -/
theorem C98_nativeMain_violated : ∃ p, Accepted p ∧ Does p ["hi"] ∧ compileNative p = .error .panic := by
  refine ⟨mainProgram, ⟨by decide, ?_, by decide⟩, ?_, by rfl⟩
  · intro f hf
    simp only [mainProgram, List.mem_cons, List.not_mem_nil, or_false] at hf
    rcases hf with rfl | rfl <;> simp [CallsOk, CallsOkStmt, mainProgram]
  · exact ⟨_, List.mem_cons_of_mem _ List.mem_cons_self, rfl,
      Runs.call (t1 := ["hi"]) (t2 := []) (fn := mainProgram[0]) List.mem_cons_self rfl
        (.write .nil) .nil⟩

end Verif.Names
