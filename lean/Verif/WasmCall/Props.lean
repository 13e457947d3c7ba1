import Verif.WasmCall.Accept

/-!
# C92 — calling a function value on WebAssembly runs that function

`C92_calls_partial`: direct calls, tail calls and indirect tail calls of function values do
on the emitted module what they do on the module: the function run is the one the
reference was made from, whatever other functions the module has and wherever the
references are.  Missing from the full property: indirect calls that are not tail calls,
for which the property is false (`C92_indirectCall_violated`).

`C92_compiles`: the backend accepts every well-formed module; in particular the type of
every indirect call is registered.

`C92_indirectCall_violated`: whenever a module with an indirect call that is not a tail
call compiles, the emitted module has a `call_indirect` whose type is not a function type,
so no engine accepts it.
-/

namespace Verif.WasmCall

open Spec

theorem C92_calls_partial (m : Mod) (w : WMod) (hw : compile m = some w)
    (hl : Linked m) (hp : NoIndirectCall m)
    (host : String → List (BitVec 32) → BitVec 32)
    (n : Nat) (f : String) (i : Nat) (hf : nameAt m i = some f)
    (vs : List Val) (zs : List (BitVec 32)) (hz : Reps m w vs zs)
    (o : Out) (ho : run m host n f vs = some o) (hs : o ≠ .stuck) :
    ∃ o', wrun w host n i zs = some o' ∧ OutRep m w o o' := by
  obtain ⟨p⟩ := compile_parts hw
  exact (run_agree p hl hp host n).agree f vs o i zs ho hs hf hz

theorem C92_compiles (m : Mod) (h : WellFormed m) : ∃ w, compile m = some w :=
  compile_ok h

theorem C92_indirectCall_violated (m : Mod) (w : WMod) (hw : compile m = some w)
    (g : Fn Code) (hg : g ∈ m.fns) (h : HasIndirectCall g.body) :
    ∃ c ∈ w.fns, BadCall w.types c.code := by
  obtain ⟨p⟩ := compile_parts hw
  obtain ⟨j, hj⟩ := List.mem_iff_getElem?.mp hg
  obtain ⟨b, h1, h2⟩ := lowerFns_get p.lowered hj
  obtain ⟨c, h3, h4⟩ := emitFns_get p.emitted h2
  refine ⟨_, List.mem_of_getElem? h4, ?_⟩
  refine emit_bad ?_ h h1 h3
  rw [p.wtypes]
  unfold gcCount
  rw [Nat.add_comm, List.replicate_succ]
  rfl

/-! ## Examples -/

/-- A module with an import, two functions taken as values in an order that differs from
that of their names, and an indirect tail call in a branch. -/
def exTail : Mod where
  imports := [("host_add", ⟨[.i32], .i32⟩), ("log", ⟨[.i32], .nil⟩)]
  fns :=
    [ { name := "main", sig := ⟨[.i32], .nil⟩, ty := fun _ => .i32
        body := .const 1 "zig" (.const 2 "abe" (.num 3 5
          (.call 4 .i32 "host_add" [3] (.ifte 0 (.tailInd 1 [4] (some ⟨[.i32], .nil⟩))
            (.tailInd 2 [4] (some ⟨[.i32], .nil⟩)) .fall)))) },
      { name := "zig", sig := ⟨[.i32], .nil⟩, ty := fun _ => .i32
        body := .call 1 .nil "log" [0] (.ret none) },
      { name := "abe", sig := ⟨[.i32], .nil⟩, ty := fun _ => .i32, body := .unreach } ]
  gcUser := 1
  gcMap := []

theorem exTail_linked : Linked exTail where
  distinct := by decide
  refs := by
    intro g hg
    simp only [exTail, List.mem_cons, List.not_mem_nil, or_false] at hg
    rcases hg with rfl | rfl | rfl
    · exact ⟨⟨3, by decide⟩, ⟨4, by decide⟩, trivial, trivial, trivial, trivial⟩
    · exact ⟨trivial, trivial⟩
    · trivial
  few := by decide

theorem exTail_ok : WellFormed exTail where
  imports := by
    intro p hp
    simp only [exTail, List.mem_cons, List.not_mem_nil, or_false] at hp
    rcases hp with rfl | rfl <;> simp [SigSupported, Supported]
  fns := by
    intro g hg
    simp only [exTail, List.mem_cons, List.not_mem_nil, or_false] at hg
    rcases hg with rfl | rfl | rfl <;> simp [SigSupported, Supported]
  bodies := by
    intro g hg
    simp only [exTail, List.mem_cons, List.not_mem_nil, or_false] at hg
    rcases hg with rfl | rfl | rfl
    · exact ⟨trivial, trivial, ⟨0, by decide⟩, ⟨rfl, by simp [Supported], rfl⟩,
        ⟨rfl, by simp [Supported], rfl⟩, trivial⟩
    · exact ⟨⟨1, by decide⟩, trivial⟩
    · trivial

theorem exTail_plain : NoIndirectCall exTail := by
  intro g hg
  simp only [exTail, List.mem_cons, List.not_mem_nil, or_false] at hg
  rcases hg with rfl | rfl | rfl
  · exact ⟨trivial, trivial, trivial, trivial, trivial, trivial⟩
  · exact ⟨trivial, trivial⟩
  · trivial

/-- The hypotheses of `C92_compiles` and `C92_calls_partial` hold: `main(1)` runs `zig` and
finishes, `main(0)` runs `abe` and traps; so does the emitted module. -/
example : ∃ w, compile exTail = some w ∧
    wrun w (fun _ _ => 7) 3 2 [1] = some (.done none) ∧
    wrun w (fun _ _ => 7) 3 2 [0] = some .trap := by
  obtain ⟨w, hw⟩ := C92_compiles exTail exTail_ok
  refine ⟨w, hw, ?_, ?_⟩
  · obtain ⟨o', h1, h2⟩ := C92_calls_partial exTail w hw exTail_linked exTail_plain
      (fun _ _ => 7) 3 "main" 2 (by decide) [.int 1] [1] ⟨rfl, trivial⟩ (.done none)
      (by decide) (by decide)
    rw [h1]
    cases o' with
    | done v => cases v with
      | none => rfl
      | some => exact h2.elim
    | trap => exact h2.elim
    | invalid => exact h2.elim
  · obtain ⟨o', h1, h2⟩ := C92_calls_partial exTail w hw exTail_linked exTail_plain
      (fun _ _ => 7) 3 "main" 2 (by decide) [.int 0] [0] ⟨rfl, trivial⟩ .trap
      (by decide) (by decide)
    rw [h1]
    cases o' with
    | done v => cases v <;> exact h2.elim
    | trap => rfl
    | invalid => exact h2.elim

/-- `fn apply(f) { f(1) }`, once the function value is a table index: the module is well
formed, so it compiles. -/
def exApply : Mod where
  imports := []
  fns :=
    [ { name := "apply", sig := ⟨[.i32], .i32⟩, ty := fun _ => .i32
        body := .num 1 1 (.callInd 2 .i32 0 [1] (.ret (some 2))) },
      { name := "id", sig := ⟨[.i32], .i32⟩, ty := fun _ => .i32, body := .ret (some 0) },
      { name := "main", sig := ⟨[], .i32⟩, ty := fun _ => .i32
        body := .const 0 "id" (.call 1 .i32 "apply" [0] (.ret (some 1))) } ]
  gcUser := 0
  gcMap := []

/-- It runs before the backend; after the backend it is invalid. -/
example : run exApply (fun _ _ => 0) 3 "main" [] = some (.done (some (.int 1))) ∧
    ∃ w, compile exApply = some w ∧ (∃ c ∈ w.fns, BadCall w.types c.code) ∧
      wrun w (fun _ _ => 0) 3 2 [] = some .invalid := by
  refine ⟨by decide, ?_⟩
  have hw : (compile exApply).isSome := by decide
  obtain ⟨w, hw⟩ := Option.isSome_iff_exists.mp hw
  refine ⟨w, hw, C92_indirectCall_violated exApply w hw _ (List.mem_cons_self ..) trivial, ?_⟩
  have : (compile exApply).map (fun w => wrun w (fun _ _ => 0) 3 2 []) = some (some .invalid) := by
    decide
  rw [hw] at this
  simpa using this

/-- References have to name functions of the module: the element segment leaves out a
symbol without a function, and the slots of the symbols after it are one too early. -/
def exMissing : Mod where
  imports := []
  fns :=
    [ { name := "main", sig := ⟨[], .nil⟩, ty := fun _ => .i32
        body := .const 0 "a" (.const 1 "b" (.tailInd 1 [] (some ⟨[], .nil⟩))) },
      { name := "b", sig := ⟨[], .nil⟩, ty := fun _ => .i32, body := .ret none },
      { name := "c", sig := ⟨[], .nil⟩, ty := fun _ => .i32
        body := .const 0 "c" .unreach } ]
  gcUser := 0
  gcMap := []

example : run exMissing (fun _ _ => 0) 2 "main" [] = some (.done none) ∧
    (compile exMissing).map (fun w => wrun w (fun _ _ => 0) 2 0 []) = some (some .trap) := by
  decide

end Verif.WasmCall
