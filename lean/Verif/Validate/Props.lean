import Verif.Validate.Proofs

/-!
# C100: the validators report exactly what they look for

`C100_scope`, `C100_missingUse`, `C100_madeUpUse`, `C100_shapes` and `C100_arity` say for each
validator exactly when it reports something. `C100_accepted_partial` puts together what a module
that `validate_all` accepts is like. It is partial because of the four `_violated` theorems: an
accepted module may read a value before it is computed, functions of the native dialect are not
looked at, a use recorded twice is not noticed, and calls in nested modules are not counted.
-/
namespace Verif.Validate

/-! ### Examples -/

/-- Types: 0 is `core.i32`, 1 is `core.never`, 2 is `core.func` from `i32` to `i32`, 3 is
`core.func` from `i32` to `never`, 4 is a closure of 3. -/
def exTypes : Nat → TypeData
  | 1 => ⟨"core", "never", []⟩
  | 2 => ⟨"core", "func", [0, 0]⟩
  | 3 => ⟨"core", "func", [1, 0]⟩
  | 4 => ⟨"closure", "closure", [3]⟩
  | _ => ⟨"core", "i32", []⟩

def exYield (id v : Nat) : Op := .mk { id, dialect := "scf", name := "yield", operands := [v] } []

/-- An `scf.if` on `v` whose branches yield `a` and `b`. -/
def exIf (id v r a b : Nat) : Op :=
  .mk { id, dialect := "scf", name := "if", operands := [v], results := [r] }
    [[.mk [] [exYield (id + 1) a]], [.mk [] [exYield (id + 2) b]]]

def exFn (id : Nat) (dialect name : String) (args : List Nat) (ops : List Op) : Op :=
  .mk { id, dialect, name := "func", symName := some name, fnType := some 2 } [[.mk args ops]]

def exCall (id : Nat) (callee : String) (args : List Nat) (r : Nat) : Op :=
  .mk { id, dialect := "func", name := "call", operands := args, results := [r],
        callee := some callee } []

def exRet (id v : Nat) : Op := .mk { id, dialect := "func", name := "return", operands := [v] } []

def exTail (id f v : Nat) : Op :=
  .mk { id, dialect := "func", name := "tail_call_indirect", operands := [f, v] } []

/-- `fn f(x) { if x { x } else { f(x) } }`, where the call comes before the `if`. -/
def exGood : Region :=
  [.mk [] [exFn 1 "func" "f" [10] [exCall 2 "f" [10] 11, exIf 3 10 12 10 11, exRet 6 12]]]

/-- The uses of a module, as they should be recorded. -/
def exUses (body : Region) (v : Nat) : List (Nat × Nat) :=
  ((actualUses body).filter (·.1 == v)).map (·.2)

def exCtx (body : Region) : Ctx := ⟨exTypes, fun _ => 0, exUses body⟩

example : validateAll (exCtx exGood) exGood = true := by decide +kernel

/-- The same function, with one argument too many in the call and returning an unknown value; and
another function that returns the first one's parameter. -/
def exBad : Region :=
  [.mk [] [exFn 1 "func" "f" [10] [exCall 2 "f" [10, 10] 11, exIf 3 10 12 10 11, exRet 6 13],
    exFn 7 "wasm" "g" [] [exRet 8 10]]]

example : valueIntegrity exBad = [⟨"f", "func", "return", 0⟩, ⟨"g", "func", "return", 0⟩] := by
  decide +kernel

/-- A value defined in a branch is not visible after the `if`. -/
example : valueIntegrity [.mk [] [exFn 1 "func" "f" [10]
    [.mk { id := 2, dialect := "scf", name := "if", operands := [10] }
      [[.mk [] [exCall 3 "f" [10] 11]], []], exRet 4 11]]] = [⟨"f", "func", "return", 0⟩] := by
  decide +kernel

/-! ### Scope -/

/-- An operand is reported as stale exactly when it belongs to an operation somewhere in a function
(of the `func` or `wasm` dialect, at any depth of the module) and no region around that operation
within the function defines the value. The report names the function, the operation and the
operand. -/
theorem C100_scope (body : Region) (e : Stale) :
    e ∈ valueIntegrity body ↔
      ∃ f o i, Under body f ∧ IsFn ["func", "wasm"] f ∧ OutOfScope f o i
        ∧ e = ⟨f.head.symName.getD "<unnamed>", o.head.dialect, o.head.name, i⟩ := by
  rw [mem_valueIntegrity]
  constructor
  · rintro ⟨f, hu, hf, s, hs, rs, o, i, v, hp, ho, _, hd, rfl⟩
    exact ⟨f, o, i, hu, (isFunction_iff f).1 hf, ⟨s, hs, rs, v, hp, ho, hd⟩, rfl⟩
  · rintro ⟨f, o, i, hu, hf, ⟨s, hs, rs, v, hp, ho, hd⟩, rfl⟩
    exact ⟨f, hu, (isFunction_iff f).2 hf, s, hs, rs, o, i, v, hp, ho, by simp, hd, rfl⟩

/-! ### Use chains -/

/-- A use is reported as not recorded exactly when it is there and not recorded. -/
theorem C100_missingUse (c : Ctx) (body : Region) (v op i : Nat) :
    UseError.noEntry v op i ∈ useChains c body ↔ UsedAt body v op i ∧ (op, i) ∉ c.uses v :=
  mem_noEntry c body v op i

/-- A recorded use is reported as made up exactly when it is recorded for a value that occurs in the
module and there is no such use. -/
theorem C100_madeUpUse (c : Ctx) (body : Region) (v op i : Nat) :
    UseError.noOperand v op i ∈ useChains c body ↔
      Occurs body v ∧ (op, i) ∈ c.uses v ∧ ¬ UsedAt body v op i :=
  mem_noOperand c body v op i

example : useChains ⟨exTypes, fun _ => 0, fun v => if v = 10 then [(6, 0), (2, 0)] else []⟩
    [.mk [] [exFn 1 "func" "f" [10] [exCall 2 "f" [10] 11, exRet 6 11]]]
    = [.noEntry 11 6 0, .noOperand 10 6 0, .noOperand 10 6 0] := by decide +kernel

/-! ### Operation verifiers -/

/-- A complaint about an operation is made exactly when it lies in the module and does not have the
shape its kind requires. -/
theorem C100_shapes (c : Ctx) (body : Region) (i : Nat) :
    (∃ m, (i, m) ∈ operationVerifiers c body) ↔
      ∃ o, Under body o ∧ o.head.id = i ∧ ¬ Shaped c o :=
  mem_operationVerifiers c body i

/-- A branch that yields nothing, a comparison without predicate, an indirect tail call that gets no
argument, a loop with two results. -/
example : operationVerifiers (exCtx [])
    [.mk [] [.mk { id := 1, dialect := "scf", name := "if", operands := [1], results := [2] }
        [[.mk [] [exYield 2 1]], [.mk [] [.mk { id := 3, dialect := "scf", name := "yield" } []]]],
      .mk { id := 4, dialect := "arith", name := "cmpf" } [],
      .mk { id := 5, dialect := "func", name := "tail_call_indirect" } [],
      .mk { id := 6, dialect := "scf", name := "loop", results := [1, 2] } []]]
    = [(1, .ifYield), (4, .predicateMissing), (5, .tailCallee), (6, .loopResults)] := by
  decide +kernel

/-- A branch may leave the function when the `if` has type `core.never`; an indirect tail call of a
closure with an argument of the right type is accepted. -/
example : operationVerifiers ⟨exTypes, fun v => if v = 2 then 1 else if v = 7 then 4 else 0,
      fun _ => []⟩
    [.mk [] [.mk { id := 1, dialect := "scf", name := "if", operands := [1], results := [2] }
        [[.mk [] [exYield 2 1]], [.mk [] [exTail 3 7 1]]]]] = [] := by
  decide +kernel

/-! ### Call arity -/

/-- A warning is given exactly for the direct calls, anywhere in a function that the module itself
declares, of a function that the module itself declares with another number of parameters. -/
theorem C100_arity (c : Ctx) (body : Region) (w : Mismatch) :
    w ∈ validateCallArity c body ↔
      ∃ f o n k, Holds body f ∧ IsFn ["func", "wasm", "clif"] f ∧ (∃ r ∈ f.regions, Under r o)
        ∧ CallOf o n ∧ Arity c body n k ∧ o.head.operands.length ≠ k
        ∧ w = ⟨f.head.symName.getD "<unnamed>", n, o.head.operands.length, k⟩ := by
  simp only [validateCallArity, List.mem_flatMap, ← holds_iff]
  constructor
  · rintro ⟨f, hf, hw⟩
    split at hw
    · rename_i hfn
      simp only [List.mem_flatMap, mem_walkRegion, mem_callArity] at hw
      obtain ⟨r, hr, o, hu, n, k, hc, hs, hl, rfl⟩ := hw
      exact ⟨f, o, n, k, hf, (isAnyFunction_iff f).1 hfn, ⟨r, hr, hu⟩, hc,
        (signatures_iff c body n k).1 hs, hl, rfl⟩
    · cases hw
  · rintro ⟨f, o, n, k, hf, hfn, ⟨r, hr, hu⟩, hc, ha, hl, rfl⟩
    refine ⟨f, hf, ?_⟩
    rw [if_pos ((isAnyFunction_iff f).2 hfn)]
    simp only [List.mem_flatMap, mem_walkRegion, mem_callArity]
    exact ⟨r, hr, o, hu, n, k, hc, (signatures_iff c body n k).2 ha, hl, rfl⟩

example : validateCallArity (exCtx exBad) exBad = [⟨"f", "f", 2, 1⟩] := by decide +kernel

/-! ### What is accepted -/

/-- A module is accepted exactly when every operand in a function is defined around it within the
function, the recorded uses are the uses, and every operation has its shape. -/
theorem C100_accepted_partial (c : Ctx) (body : Region) :
    validateAll c body = true ↔
      (∀ f, Under body f → IsFn ["func", "wasm"] f → ∀ r ∈ f.regions, ∀ rs o, Path r rs o →
        ∀ v ∈ o.head.operands, ∃ s ∈ rs, Defines s v)
      ∧ (∀ v, Occurs body v → ∀ op i, (op, i) ∈ c.uses v ↔ UsedAt body v op i)
      ∧ ∀ o, Under body o → Shaped c o := by
  have hempty : ∀ {α : Type} (l : List α), l.isEmpty = true ↔ l = [] := by
    intro α l; cases l <;> simp
  simp only [validateAll, Bool.and_eq_true, hempty]
  rw [and_assoc]
  refine and_congr ?_ (and_congr ?_ ?_)
  · constructor
    · intro h f hu hf r hr rs o hp v hv
      refine Classical.byContradiction fun hn => ?_
      obtain ⟨i, hi⟩ := List.mem_iff_getElem?.1 hv
      have := (C100_scope body _).2 ⟨f, o, i, hu, hf,
        ⟨r, hr, rs, v, hp, hi, fun s hs hd => hn ⟨s, hs, hd⟩⟩, rfl⟩
      rw [h] at this; cases this
    · intro h
      refine List.eq_nil_iff_forall_not_mem.2 fun e he => ?_
      obtain ⟨f, o, i, hu, hf, ⟨r, hr, rs, v, hp, hi, hd⟩, _⟩ := (C100_scope body e).1 he
      obtain ⟨s, hs, hv⟩ := h f hu hf r hr rs o hp v (List.mem_of_getElem? hi)
      exact hd s hs hv
  · rw [useChains_nil]
    constructor
    · rintro ⟨h1, h2⟩ v ho op i
      exact ⟨h2 v ho op i, h1 v op i⟩
    · intro h
      refine ⟨fun v op i hu => ?_, fun v ho op i => (h v ho op i).1⟩
      have ho : Occurs body v := by
        obtain ⟨o, ho, _, hi⟩ := hu
        exact .inl ⟨o, ho, .inl (List.mem_of_getElem? hi)⟩
      exact (h v ho op i).2 hu
  · constructor
    · intro h o hu
      refine Classical.byContradiction fun hn => ?_
      obtain ⟨m, hm⟩ := (C100_shapes c body o.head.id).2 ⟨o, hu, rfl, hn⟩
      rw [h] at hm; cases hm
    · intro h
      refine List.eq_nil_iff_forall_not_mem.2 fun ⟨i, m⟩ he => ?_
      obtain ⟨o, hu, _, hn⟩ := (C100_shapes c body i).1 ⟨m, he⟩
      exact hn (h o hu)

/-! ### What is accepted although it should not be -/

/-- A function that passes on a value that it computes only afterwards. -/
def exEarly : Region :=
  [.mk [] [exFn 1 "func" "f" [10] [exCall 2 "f" [11] 12, exCall 3 "f" [10] 11, exRet 4 12]]]

/-- An accepted module may read a value before anything has computed it: within one region the
order of the operations is not looked at. -/
theorem C100_order_violated :
    ∃ c body, validateAll c body = true ∧
      ∃ f r b o v, Under body f ∧ IsFn ["func"] f ∧ r ∈ f.regions ∧ b ∈ r ∧ ReadsEarly b o v := by
  refine ⟨exCtx exEarly, exEarly, by decide +kernel, _, _, _, exCall 2 "f" [11] 12, 11,
    ⟨_, .here ⟨_, List.mem_singleton.2 rfl, List.mem_singleton.2 rfl⟩⟩, ?_,
    List.mem_singleton.2 rfl, List.mem_singleton.2 rfl, [], _, rfl, by decide, ?_, by decide, ?_⟩
  · exact ⟨by decide, rfl⟩
  · exact ⟨exCall 3 "f" [10] 11, by simp, by decide⟩
  · intro p hp; cases hp

/-- A function of the native dialect that returns a value defined nowhere. -/
def exClif : Region :=
  [.mk [] [.mk { id := 1, dialect := "clif", name := "func", symName := some "f" }
    [[.mk [] [exRet 2 10]]]]]

/-- Values out of scope are not noticed in functions of the native dialect. -/
theorem C100_native_violated :
    ∃ c body, validateAll c body = true ∧
      ∃ f o i, Under body f ∧ IsFn ["clif"] f ∧ OutOfScope f o i := by
  refine ⟨exCtx exClif, exClif, by decide +kernel, _, exRet 2 10, 0,
    ⟨_, .here ⟨_, List.mem_singleton.2 rfl, List.mem_singleton.2 rfl⟩⟩, ⟨by decide, rfl⟩,
    _, List.mem_singleton.2 rfl, _, 10,
    .here ⟨_, List.mem_singleton.2 rfl, List.mem_singleton.2 rfl⟩, rfl, ?_⟩
  intro s hs
  rw [List.mem_singleton.1 hs, defines_iff]
  decide

/-- The argument of `exTwice` is used once. -/
def exTwice : Region := [.mk [] [exFn 1 "func" "f" [10] [exRet 2 10]]]

/-- A use that is recorded twice is not noticed: the module is accepted although the list of uses of
a value is longer than the number of its uses. -/
theorem C100_twice_violated :
    ∃ c body v op i, validateAll c body = true ∧ UsedAt body v op i
      ∧ (∀ op' i', UsedAt body v op' i' → op' = op ∧ i' = i) ∧ (c.uses v).length = 2 := by
  refine ⟨⟨exTypes, fun _ => 0, fun v => if v = 10 then [(2, 0), (2, 0)] else []⟩, exTwice, 10, 2, 0,
    by decide +kernel, (mem_actualUses _ _ _ _).1 (by decide +kernel), ?_, by decide⟩
  intro op' i' h
  have h := (mem_actualUses _ _ _ _).2 h
  have : actualUses exTwice = [(10, 2, 0)] := by decide +kernel
  rw [this] at h
  simpa using h

/-- A nested module with a function that calls itself with two arguments instead of one. -/
def exNested : Region :=
  [.mk [] [.mk { id := 1, dialect := "core", name := "module" }
    [[.mk [] [exFn 2 "func" "f" [10] [exCall 3 "f" [10, 10] 11, exRet 4 11]]]]]]

/-- In a nested module calls with the wrong number of arguments are not noticed. -/
theorem C100_nested_violated :
    ∃ c body, validateAll c body = true ∧ validateCallArity c body = [] ∧
      ∃ m r f o k, Holds body m ∧ r ∈ m.regions ∧ Holds r f ∧ Declares c f "f" k
        ∧ (∃ s ∈ f.regions, Under s o) ∧ CallOf o "f" ∧ o.head.operands.length ≠ k := by
  refine ⟨exCtx exNested, exNested, by decide +kernel, by decide +kernel, _, _, _,
    exCall 3 "f" [10, 10] 11, 1, ⟨_, List.mem_singleton.2 rfl, List.mem_singleton.2 rfl⟩,
    List.mem_singleton.2 rfl, ⟨_, List.mem_singleton.2 rfl, List.mem_singleton.2 rfl⟩, ?_, ?_, ?_, ?_⟩
  · exact ⟨⟨by decide, rfl⟩, rfl, 2, rfl, rfl, rfl, rfl⟩
  · exact ⟨_, List.mem_singleton.2 rfl, _, .here ⟨_, List.mem_singleton.2 rfl,
      List.mem_cons_self⟩⟩
  · exact ⟨rfl, .inl rfl, rfl⟩
  · decide

end Verif.Validate
