import Verif.WasmGc.Lower

/-!
# Property C90: the emitted WebAssembly module is valid
-/

namespace Verif.WasmGc

open Spec

instance (w : WModule) (f : WFn) : Decidable (ValidFn w f) := by
  unfold ValidFn; exact inferInstance

instance (w : WModule) : Decidable (ValidModule w) := by
  unfold ValidModule; exact inferInstance

/-- C90, the part that holds.  Every typed module in which records and constructors are
reached only through their own types (or, for a record, its name), and whose fields are
not read at a record's name or a constructor's type, is emitted as a module that passes
WebAssembly validation, whenever it is emitted at all. -/
theorem C90_emittedModule_partial (D : Decls) (m : List (Fn AOp)) (w : WModule)
    (hm : ModuleOk true D m) (hc : compile m = some w) : ValidModule w :=
  compile_valid hm hc

/-! A module with a record used by name, an enum with two constructors, an erased call. -/

def exDecls : Decls where
  arity := fun t => if t = .struct "Point" 1 then 2 else if t = .variant "Shape" 2 "Dot" then 1 else 0
  named := fun n => if n = "Point" then .struct "Point" 1 else .nil

def exModule : List (Fn AOp) :=
  [ { params := [.anyref], result := .i32
      body := [.variantIs "Shape" 2 "Dot" 0, .variantCast "Shape" 2 "Dot" 0,
               .variantGet .anyref "Shape" 2 "Dot" 2 0, .refCast (.struct "Point" 1) (.struct "Point" 1) 3,
               .structGet .i32 (.struct "Point" 1) 4 1, .add 1 5, .ret [6]] },
    { params := [], result := .nil
      body := [.const 3, .const 4, .structNew (.typeref "Point") (.struct "Point" 1) [0, 1],
               .structSet (.struct "Point" 1) 2 0 1, .refCast .anyref .anyref 2,
               .variantNew "Shape" 2 "Dot" [3], .variantNew "Shape" 2 "Empty" [],
               .call 0 .i32 [4], .ret []] } ]

theorem exModule_ok : ModuleOk true exDecls exModule := by
  refine ⟨?_, ?_⟩
  · intro f hf
    simp only [exModule, List.mem_cons, List.not_mem_nil, or_false] at hf
    rcases hf with rfl | rfl
    · simp [BodyOk, OpOk, isRef, Spec.resultTy, exDecls, readable, Declared, reserved, RefersTo, Assignable]
    · simp [BodyOk, OpOk, isRef, Spec.resultTy, exDecls, Declared, reserved, RefersTo, Assignable, exModule]
  · intro f hf ty hty hn
    simp only [exModule, List.mem_cons, List.not_mem_nil, or_false] at hf
    rcases hf with rfl | rfl
    · simp [values, Spec.resultTy] at hty
      rcases hty with rfl | rfl | rfl | rfl | rfl | rfl | rfl | rfl <;> simp [nominal] at hn
      exact ⟨_, List.mem_cons_self, .variantCast "Shape" 2 "Dot" 0, by simp, rfl⟩
    · simp [values, Spec.resultTy] at hty
      rcases hty with rfl | rfl | rfl | rfl | rfl | rfl | rfl | rfl <;> simp [nominal] at hn
      · exact ⟨_, List.mem_cons_of_mem _ List.mem_cons_self,
          .structNew (.typeref "Point") (.struct "Point" 1) [0, 1], by simp, rfl⟩
      · exact ⟨_, List.mem_cons_of_mem _ List.mem_cons_self, .variantNew "Shape" 2 "Dot" [3], by simp, rfl⟩
      · exact ⟨_, List.mem_cons_of_mem _ List.mem_cons_self, .variantNew "Shape" 2 "Empty" [], by simp, rfl⟩

example : ∃ w, compile exModule = some w ∧ ModuleOk true exDecls exModule ∧ ValidModule w ∧
    w.defs.length = 12 :=
  ⟨(compile exModule).get (by decide +kernel), by simp, exModule_ok,
    C90_emittedModule_partial exDecls exModule _ exModule_ok (by simp), by decide +kernel⟩

/-! ## Where it does not hold -/

def badDecls : Decls where
  arity := fun t => if t = .struct "Pair" 1 ∨ t = .struct "Point" 2 then 2 else 1
  named := fun n => if n = "Pair" then .struct "Pair" 1 else .nil

/-- An operation of an ability with two arguments packs them in a tuple typed `anyref`;
another function takes an `anyref`, and is given a record. -/
def erasedModule : List (Fn AOp) :=
  [ { params := [.anyref], result := .anyref, body := [.ret [0]] },
    { params := [], result := .i32
      body := [.const 1, .const 2, .structNew .anyref (.struct "Pair" 1) [0, 1],
               .structNew (.struct "Point" 2) (.struct "Point" 2) [0, 1],
               .call 0 .anyref [3], .ret [0]] } ]

/-- C90 is false: building one value typed `anyref` makes every `anyref` of the module a
reference to that one type, so that passing any other reference is rejected. -/
theorem C90_erasedConstruction_violated :
    ¬ ∀ D m w, ModuleOk false D m → compile m = some w → ValidModule w := by
  intro h
  have hok : ModuleOk false badDecls erasedModule := by
    refine ⟨?_, ?_⟩
    · intro f hf
      simp only [erasedModule, List.mem_cons, List.not_mem_nil, or_false] at hf
      rcases hf with rfl | rfl
      · simp [BodyOk, OpOk, Assignable]
      · simp [BodyOk, OpOk, isRef, Spec.resultTy, badDecls, Declared, reserved, RefersTo, Erased, Assignable,
          erasedModule]
    · intro f hf ty hty hn
      simp only [erasedModule, List.mem_cons, List.not_mem_nil, or_false] at hf
      rcases hf with rfl | rfl <;> simp [values, Spec.resultTy] at hty
      · subst hty; simp [nominal] at hn
      · rcases hty with rfl | rfl | rfl | rfl | rfl | rfl <;> simp [nominal] at hn
  have := h badDecls erasedModule ((compile erasedModule).get (by decide +kernel)) hok (by simp)
  revert this
  decide +kernel

/-- The field accessor of a record, and a function that calls it on an erased value. -/
def getterModule : List (Fn AOp) :=
  [ { params := [.structref], result := .i32
      body := [.structGet .i32 (.struct "Point" 2) 0 1, .ret [1]] },
    { params := [.anyref], result := .i32
      body := [.refCast .structref .structref 0, .call 0 .i32 [1], .ret [2]] } ]

/-- C90 is false: reading a field through `structref` makes every `structref` of the
module a reference to that record, so that a cast of an erased value to `structref` no
longer fits its own local. -/
theorem C90_fieldAccessor_violated :
    ¬ ∀ D m w, ModuleOk false D m → compile m = some w → ValidModule w := by
  intro h
  have hok : ModuleOk false badDecls getterModule := by
    refine ⟨?_, ?_⟩
    · intro f hf
      simp only [getterModule, List.mem_cons, List.not_mem_nil, or_false] at hf
      rcases hf with rfl | rfl
      · simp [BodyOk, OpOk, Assignable, badDecls, Declared, reserved, Erased, Spec.resultTy]
      · simp [BodyOk, OpOk, isRef, Spec.resultTy, Assignable, getterModule]
    · intro f hf ty hty hn
      simp only [getterModule, List.mem_cons, List.not_mem_nil, or_false] at hf
      rcases hf with rfl | rfl <;> simp [values, Spec.resultTy] at hty
      · rcases hty with rfl | rfl | rfl <;> simp [nominal] at hn
      · rcases hty with rfl | rfl | rfl | rfl <;> simp [nominal] at hn
  have := h badDecls getterModule ((compile getterModule).get (by decide +kernel)) hok (by simp)
  revert this
  decide +kernel

/-- A closure's environment holding a tuple, and the read of the captured tuple. -/
def captureModule : List (Fn AOp) :=
  [ { params := [], result := .i32
      body := [.const 1, .const 2, .structNew (.typeref "Pair") (.struct "Pair" 1) [0, 1],
               .structNew (.struct "env" 3) (.struct "env" 3) [2],
               .structGet (.typeref "Pair") (.struct "env" 3) 3 0,
               .structGet .i32 (.struct "Pair" 1) 4 0, .ret [5]] } ]

/-- C90 is false: a captured tuple is stored in a `structref` field and read back into a
local of the tuple's own type without a cast. -/
theorem C90_capturedTuple_violated :
    ¬ ∀ D m w, ModuleOk false D m → compile m = some w → ValidModule w := by
  intro h
  have hok : ModuleOk false badDecls captureModule := by
    refine ⟨?_, ?_⟩
    · intro f hf
      simp only [captureModule, List.mem_cons, List.not_mem_nil, or_false] at hf
      subst hf
      simp [BodyOk, OpOk, Assignable, badDecls, Declared, reserved, Erased, Spec.resultTy, RefersTo]
    · intro f hf ty hty hn
      simp only [captureModule, List.mem_cons, List.not_mem_nil, or_false] at hf
      subst hf
      simp [values, Spec.resultTy] at hty
      rcases hty with rfl | rfl | rfl | rfl | rfl | rfl | rfl <;> simp [nominal] at hn
      all_goals exact ⟨_, List.mem_cons_self, .structNew (.typeref "Pair") (.struct "Pair" 1) [0, 1],
        by simp, rfl⟩
  have := h badDecls captureModule ((compile captureModule).get (by decide +kernel)) hok (by simp)
  revert this
  decide +kernel

end Verif.WasmGc
