import Verif.WasmGc.Run
import Verif.WasmGc.Props

/-!
# Property C91: emitted WebAssembly does what the operations on declared types do
-/

namespace Verif.WasmGc

open Spec

/-- C91, for straight-line functions calling each other.  Whatever a call of any function
does on records, constructors and erased references, the emitted function does: it returns
the same value, leaves the same objects with the same fields, objects have one type index
exactly when they have one declared type; and it traps where the program takes a value at a
type it does not have, or reads through null. -/
theorem C91_behaviour_partial (D : Decls) (m : List (Fn AOp)) (w : WModule) (hm : ModuleOk true D m)
    (hc : compile m = some w) (fuel f : Nat) (args : List Val) :
    (∀ h v, arun D m fuel f args [] = .ok (h, v) →
      ∃ h', wrun w fuel f args [] = .ok (h', v) ∧ Agree h h') ∧
    (arun D m fuel f args [] = .trap → wrun w fuel f args [] = .trap) := by
  obtain ⟨c, fin, hf⟩ := compile_parts hm hc
  obtain ⟨h1, h2⟩ := run_sim hm fin hf fuel f args [] (by intro o ho; simp at ho)
  refine ⟨fun h v e => ?_, h2⟩
  obtain ⟨a, b⟩ := h1 h v e
  exact ⟨_, b, toW_agree a⟩

/-! A point inside a constructor, read back by another function; and the same function
given the other constructor. -/

def runModule : List (Fn AOp) :=
  [ { params := [.anyref], result := .i32
      body := [.variantIs "Shape" 2 "Dot" 0, .variantCast "Shape" 2 "Dot" 0,
               .variantGet .anyref "Shape" 2 "Dot" 2 0, .refCast (.struct "Point" 1) (.struct "Point" 1) 3,
               .structGet .i32 (.struct "Point" 1) 4 1, .add 1 5, .ret [6]] },
    { params := [.i32], result := .nil, body := [.ret [0]] },
    { params := [], result := .i32
      body := [.const 3, .const 4, .structNew (.typeref "Point") (.struct "Point" 1) [0, 1],
               .structSet (.struct "Point" 1) 2 0 1, .refCast .anyref .anyref 2,
               .variantNew "Shape" 2 "Dot" [3], .call 1 .nil [0], .call 0 .i32 [4], .ret [6]] },
    { params := [], result := .i32
      body := [.variantNew "Shape" 2 "Empty" [], .call 0 .i32 [0], .ret [1]] } ]

theorem runModule_ok : ModuleOk true exDecls runModule := by
  refine ⟨?_, ?_⟩
  · intro f hf
    simp only [runModule, List.mem_cons, List.not_mem_nil, or_false] at hf
    rcases hf with rfl | rfl | rfl | rfl <;>
      simp [BodyOk, OpOk, isRef, Spec.resultTy, exDecls, readable, Declared, reserved, RefersTo, Assignable,
        runModule]
  · intro f hf ty hty hn
    simp only [runModule, List.mem_cons, List.not_mem_nil, or_false] at hf
    have point : ∃ g ∈ runModule, ∃ op ∈ g.body, Makes op (.typeref "Point") :=
      ⟨runModule[2], by simp [runModule], .structNew (.typeref "Point") (.struct "Point" 1) [0, 1],
        by simp [runModule], rfl⟩
    have dot : ∃ g ∈ runModule, ∃ op ∈ g.body, Makes op (.variant "Shape" 2 "Dot") :=
      ⟨runModule[0], by simp [runModule], .variantCast "Shape" 2 "Dot" 0, by simp [runModule], rfl⟩
    have empty : ∃ g ∈ runModule, ∃ op ∈ g.body, Makes op (.variant "Shape" 2 "Empty") :=
      ⟨runModule[3], by simp [runModule], .variantNew "Shape" 2 "Empty" [], by simp [runModule], rfl⟩
    rcases hf with rfl | rfl | rfl | rfl <;> simp [values, Spec.resultTy] at hty
    · rcases hty with rfl | rfl | rfl | rfl | rfl | rfl | rfl | rfl <;> simp [nominal] at hn
      exact dot
    · rcases hty with rfl | rfl <;> simp [nominal] at hn
    · rcases hty with rfl | rfl | rfl | rfl | rfl | rfl | rfl | rfl <;> simp [nominal] at hn
      · exact point
      · exact dot
    · rcases hty with rfl | rfl | rfl <;> simp [nominal] at hn
      exact empty

example : ∃ w, compile runModule = some w ∧
    (∃ h', wrun w 2 2 [] [] = .ok (h', some (.int 4)) ∧ h'.map (·.2) = [[.int 3, .int 3], [.ref 0]]) ∧
    wrun w 2 3 [] [] = .trap := by
  obtain ⟨w, hw⟩ : ∃ w, compile runModule = some w := ⟨(compile runModule).get (by decide +kernel), by simp⟩
  refine ⟨w, hw, ?_, ?_⟩
  · obtain ⟨h', h1, h2, _⟩ := (C91_behaviour_partial exDecls runModule w runModule_ok hw 2 2 []).1
      [(.struct "Point" 1, [.int 3, .int 3]), (.variant "Shape" 2 "Dot", [.ref 0])] (some (.int 4))
      (by decide +kernel)
    exact ⟨h', h1, by simp [← h2]⟩
  · exact (C91_behaviour_partial exDecls runModule w runModule_ok hw 2 3 []).2 (by decide +kernel)

end Verif.WasmGc
