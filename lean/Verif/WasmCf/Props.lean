import Verif.WasmCf.Run
/-!
# C74 — structured control flow keeps its meaning when compiled to WebAssembly
-/
namespace Verif.WasmCf

/-! ## A function to show that the hypotheses can be met -/

/-- Counts down from the argument in a loop with a result. One conditional leaves the loop, one has a
result, one goes round again. -/
def sampleBody : List Op :=
  [.plain 1 [3] (some 4),
   .ite 4 [] [.brk 3] [.yield []],
   .plain 2 [3] (some 5),
   .ite 5 [6] [.yield [5]] [.yield [3]],
   .ite 4 [] [.yield []] [.cont [5]],
   .exit 9 []]

def sample : Func where
  params := [0]
  body := [.loop [0] [2] [3] sampleBody, .plain 3 [2] none, .exit 8 [2]]
  ty := fun _ => 1

theorem sample_wf : WF sample := by
  refine ⟨by decide, by decide, ?_, by decide⟩
  simp [sample, sampleBody, rulesO, Op.rules, Op.isTerm, ended, quitsO, Op.quits, fits]

theorem sample_restricted : oneIfO 0 sample.body ∧ thenYieldsO sample.ty sample.body ∧
    plainEndsO sample.ty sample.body ∧ narrowO sample.body := by
  simp [sample, sampleBody, oneIfO, Op.oneIf, thenYieldsO, Op.thenYields, plainEndsO, Op.plainEnds,
    narrowO, Op.narrow, endsPlainly]

def sampleCode : List Instr :=
  [.block (some 1)
    [.get 0, .set 1,
     .loop (some 1)
      [.get 1, .op 1 [1] (some 1), .set 2,
       .get 2, .ite none [.get 1, .br 2] [],
       .get 1, .op 2 [1] (some 1), .set 4,
       .get 4, .ite (some 1) [.get 4] [.get 1], .set 5,
       .get 2, .ite none [] [.get 4, .set 1, .br 1],
       .exit 9 []],
     .set 7, .get 7],
   .set 8,
   .get 8, .op 3 [1] none,
   .get 8, .exit 8 [1]]

theorem sample_code : compile sample = some sampleCode := by rfl

/-- Integers, with a log. Operation 1 tests for zero, operation 2 subtracts one, operation 3 logs. -/
def ints : Interp where
  V := Int
  S := List Int
  plain n vs s :=
    match n, vs with
    | 1, [v] => some (if v = 0 then 1 else 0, s)
    | 2, [v] => some (v - 1, s)
    | 3, [v] => some (0, v :: s)
    | _, _ => none
  truth v := v ≠ 0
  default _ := 0

instance (n : Nat) : OfNat ints.V n := ⟨Int.ofNat n⟩

/-! ## C74 -/

/-- C74: a function that satisfies the rules of the IR, and in which no `scf.continue` passes more than
one value, is compiled: no operation is left that the emitter refuses, every value has a local. -/
theorem C74_compiles (f : Func) (hf : WF f) (hn : narrowO f.body) : ∃ code, compile f = some code :=
  compile_total hf hn

example : WF sample ∧ narrowO sample.body := ⟨sample_wf, sample_restricted.2.2.2⟩

/-- C74, partial: whatever the other operations do, the function and the code made of it end in the
same ways in the same states: leaving the function by the same operation with the same values, or by
a trap. Neither ends in any other way, so that when one runs forever both do. What is missing:
`scf.continue` and `scf.break` under no `scf.if` or under more than one, and conditionals whose result
comes from the second branch only, for which the code is wrong (`C74_continue_violated`,
`C74_break_violated`, `C74_break_nested_violated`, `C74_result_violated`). -/
theorem C74_preserves_partial (I : Interp) (f : Func) (code : List Instr) (hf : WF f)
    (ho : oneIfO 0 f.body) (hy : thenYieldsO f.ty f.body) (hc : compile f = some code)
    (args : List I.V) (hl : args.length = f.params.length)
    (hnil : ∀ (j : Nat) p v, f.params[j]? = some p → f.ty p = 0 → args[j]? = some v → v = I.default 0)
    (s s' : I.S) :
    (∀ nm vs, Behaves I f args s (.exit nm vs) s' ↔
      WBehaves I code (localTypes f) args s (.exit nm vs) s') ∧
    (Behaves I f args s .trap s' ↔ WBehaves I code (localTypes f) args s .trap s') ∧
    (∀ o, Behaves I f args s o s' → o = .trap ∨ ∃ nm vs, o = .exit nm vs) ∧
    (∀ o, WBehaves I code (localTypes f) args s o s' → o = .trap ∨ ∃ nm vs, o = .exit nm vs) := by
  have sim := run_sim hf ho hy hc hl hnil s
  have quit := fun n => quits_ops n f.body none none
    (puts (fun v => I.default (f.ty v)) f.params args) s hf.rules hf.ends
  have fwd : ∀ n r, execOps f.ty n f.body (puts (fun v => I.default (f.ty v)) f.params args) s = some r →
      (∃ nm vs L, r.1 = .exit nm vs ∧
        wexec n code [] (start I (localTypes f) args) s = some (.exit nm vs, L, r.2.2)) ∨
      (∃ L, r.1 = .trap ∧ wexec n code [] (start I (localTypes f) args) s = some (.trap, L, r.2.2)) := by
    intro n r hr
    have h := sim n
    have hq := quit n r hr
    rw [hr] at h
    generalize wexec n code [] (start I (localTypes f) args) s = z at h
    cases h with
    | fell _ => exact absurd rfl hq.1
    | exit => exact Or.inl ⟨_, _, _, rfl, rfl⟩
    | trap => exact Or.inr ⟨_, rfl, rfl⟩
    | yield _ _ => exact absurd rfl (hq.2 _)
    | cont h _ _ => cases h
    | brk h _ => cases h
  have bwd : ∀ n z, wexec n code [] (start I (localTypes f) args) s = some z →
      ∃ r, execOps f.ty n f.body (puts (fun v => I.default (f.ty v)) f.params args) s = some r := by
    intro n z hz
    have h := sim n
    rw [hz] at h
    generalize execOps f.ty n f.body (puts (fun v => I.default (f.ty v)) f.params args) s = x at h
    cases h <;> exact ⟨_, rfl⟩
  refine ⟨fun nm vs => ⟨?_, ?_⟩, ⟨?_, ?_⟩, ?_, ?_⟩
  · rintro ⟨n, env', h⟩
    rcases fwd n _ h with ⟨nm', vs', L, e, hw⟩ | ⟨L, e, hw⟩
    · cases e
      exact ⟨n, L, hw⟩
    · cases e
  · rintro ⟨n, L, h⟩
    obtain ⟨⟨o, env', s1⟩, hr⟩ := bwd n _ h
    rcases fwd n _ hr with ⟨nm', vs', L', e, hw⟩ | ⟨L', e, hw⟩
    · rw [h] at hw
      cases hw
      cases e
      exact ⟨n, env', hr⟩
    · rw [h] at hw
      cases hw
  · rintro ⟨n, env', h⟩
    rcases fwd n _ h with ⟨nm', vs', L, e, hw⟩ | ⟨L, e, hw⟩
    · cases e
    · exact ⟨n, L, hw⟩
  · rintro ⟨n, L, h⟩
    obtain ⟨⟨o, env', s1⟩, hr⟩ := bwd n _ h
    rcases fwd n _ hr with ⟨nm', vs', L', e, hw⟩ | ⟨L', e, hw⟩
    · rw [h] at hw
      cases hw
    · rw [h] at hw
      cases hw
      cases e
      exact ⟨n, env', hr⟩
  · rintro o ⟨n, env', h⟩
    rcases fwd n _ h with ⟨nm', vs', L, e, hw⟩ | ⟨L, e, hw⟩
    · exact Or.inr ⟨_, _, e⟩
    · exact Or.inl e
  · rintro o ⟨n, L, h⟩
    obtain ⟨⟨o', env', s1⟩, hr⟩ := bwd n _ h
    rcases fwd n _ hr with ⟨nm', vs', L', e, hw⟩ | ⟨L', e, hw⟩
    · rw [h] at hw
      cases hw
      exact Or.inr ⟨_, _, rfl⟩
    · rw [h] at hw
      cases hw
      exact Or.inl rfl

example : WF sample ∧ oneIfO 0 sample.body ∧ thenYieldsO sample.ty sample.body ∧
    compile sample = some sampleCode ∧
    Behaves ints sample [2] [] (.exit 8 [(0 : Int)]) [(0 : Int)] ∧
    WBehaves ints sampleCode (localTypes sample) [2] [] (.exit 8 [(0 : Int)]) [(0 : Int)] :=
  ⟨sample_wf, sample_restricted.1, sample_restricted.2.1, sample_code, ⟨3, _, rfl⟩, ⟨3, _, rfl⟩⟩

/-- C74, partial: the code is valid WebAssembly. What is missing: functions in which a region that
should give a result ends with an `scf.if`, for which the code is rejected (`C74_valid_violated`), and
branches under no `scf.if` or under more than one. -/
theorem C74_valid_partial (f : Func) (code : List Instr) (ret : Option Ty) (hf : WF f)
    (ho : oneIfO 0 f.body) (hp : plainEndsO f.ty f.body) (hr : ret = none ∨ endsPlainly f.body)
    (hc : compile f = some code) : Valid (localTypes f) ret code :=
  compile_valid hf ho hp hr hc

example : WF sample ∧ oneIfO 0 sample.body ∧ plainEndsO sample.ty sample.body ∧
    endsPlainly sample.body ∧ compile sample = some sampleCode :=
  ⟨sample_wf, sample_restricted.1, sample_restricted.2.2.1, by simp [sample, endsPlainly], sample_code⟩

/-! ## What is false -/

/-- Counts down to zero; `scf.continue` stands directly in the body of the loop. -/
def counting : Func where
  params := [0]
  body :=
    [.loop [0] [] [3]
      [.plain 1 [3] (some 4), .ite 4 [] [.exit 8 [3]] [.yield []], .plain 2 [3] (some 5), .cont [5]],
     .exit 7 []]
  ty := fun _ => 1

/-- C74 is false of `scf.continue` that stands directly in the body of its loop: it becomes a branch
out of the loop. The function below counts down to zero and returns by operation 8; the compiled
function leaves the loop in the first round and returns by operation 7. -/
theorem C74_continue_violated : WF counting ∧ ∃ code, compile counting = some code ∧
    Valid (localTypes counting) none code ∧
    Behaves ints counting [1] [] (.exit 8 [(0 : Int)]) [] ∧
    WBehaves ints code (localTypes counting) [1] [] (.exit 7 []) [] ∧
    ¬ WBehaves ints code (localTypes counting) [1] [] (.exit 8 [(0 : Int)]) [] := by
  refine ⟨⟨by decide, by decide, ?_, by decide⟩, _, rfl, ⟨_, rfl, rfl⟩, ⟨2, _, rfl⟩, ⟨1, _, rfl⟩, ?_⟩
  · simp [counting, rulesO, Op.rules, Op.isTerm, ended, quitsO, Op.quits, fits]
  · rintro ⟨n, L, h⟩
    cases n with
    | zero => cases h
    | succ n => cases h

/-- Leaves the loop at once; `scf.break` stands directly in its body. -/
def leaving : Func where
  params := [0]
  body := [.loop [] [2] [] [.brk 0], .plain 3 [2] none, .exit 8 [2]]
  ty := fun _ => 1

/-- C74 is false of `scf.break` that stands directly in the body of its loop: it becomes a branch to the
label behind the one of the loop, here a return from the function, and what follows the loop does not
happen. -/
theorem C74_break_violated : WF leaving ∧ ∃ code, compile leaving = some code ∧
    Valid (localTypes leaving) (some 1) code ∧
    Behaves ints leaving [1] [] (.exit 8 [(1 : Int)]) [(1 : Int)] ∧
    ∀ o s', WBehaves ints code (localTypes leaving) [1] [] o s' → s' = [] := by
  refine ⟨⟨by decide, by decide, ?_, by decide⟩, _, rfl, ⟨_, rfl, rfl⟩, ⟨1, _, rfl⟩, ?_⟩
  · simp [leaving, rulesO, Op.rules, Op.isTerm, quitsO, Op.quits]
  · rintro o s' ⟨n, L, h⟩
    cases n with
    | zero => cases h
    | succ n => cases h; rfl

/-- Leaves the loop at once; `scf.break` stands under two conditionals. -/
def nested : Func where
  params := [0]
  body :=
    [.loop [] [] []
      [.ite 0 [] [.ite 0 [] [.brk 0] [.yield []], .yield []] [.yield []], .exit 9 []],
     .exit 8 [0]]
  ty := fun _ => 1

theorem wexec_none {I : Interp} {n : Nat} {i : Instr} {is : List Instr} {st : List I.V} {L : Store I}
    {s : I.S} (h : wexecI n i st L s = none) : wexec n (i :: is) st L s = none := by rw [wexec, h]

theorem block_none {I : Interp} {n : Nat} {r : Option Ty} {b : List Instr} {st : List I.V}
    {L : Store I} {s : I.S} (h : wexec n b [] L s = none) : wexecI n (.block r b) st L s = none := by
  rw [wexecI, h]
  rfl

def nestedCode : List Instr :=
  [.block none [.loop none [.get 0, .ite none [.get 0, .ite none [.br 2] []] [], .exit 9 []]],
   .get 0, .exit 8 [1]]

/-- C74 is false of `scf.break` under two conditionals: it becomes a branch to the start of its loop.
The function returns, the compiled function runs forever. -/
theorem C74_break_nested_violated : WF nested ∧ ∃ code, compile nested = some code ∧
    Valid (localTypes nested) none code ∧
    Behaves ints nested [1] [] (.exit 8 [(1 : Int)]) [] ∧
    ∀ o s', ¬ WBehaves ints code (localTypes nested) [1] [] o s' := by
  refine ⟨⟨by decide, by decide, ?_, by decide⟩, nestedCode, rfl, ⟨_, rfl, rfl⟩, ⟨1, _, rfl⟩, ?_⟩
  · simp [nested, rulesO, Op.rules, Op.isTerm, ended, quitsO, Op.quits, fits]
  · rintro o s' ⟨n, L, h⟩
    have never : ∀ (m : Nat) (k : Nat) (st : List Int) (s : List Int),
        around (I := ints) (wexec n [.get 0, .ite none [.get 0, .ite none [.br 2] []] [], .exit 9 []] [])
          k st m (start ints (localTypes nested) [1]) s = none := by
      intro m k st s
      induction m with
      | zero => rfl
      | succ m ih => exact ih
    have h' : wexec (I := ints) n nestedCode [] (start ints (localTypes nested) [1]) [] = none := by
      exact wexec_none (block_none (wexec_none (never n _ _ _)))
    rw [h'] at h
    cases h

/-- The argument, or leave the function. -/
def checked : Func where
  params := [0, 3]
  body := [.ite 0 [1] [.exit 9 []] [.yield [3]], .exit 8 [1]]
  ty := fun _ => 1

/-- C74 is false of a conditional whose result comes from the second branch only: the result is lost,
and what the conditional gives is the zero in a local that is never set. -/
theorem C74_result_violated : WF checked ∧ oneIfO 0 checked.body ∧
    ∃ code, compile checked = some code ∧ Valid (localTypes checked) (some 1) code ∧
    Behaves ints checked [0, 5] [] (.exit 8 [(5 : Int)]) [] ∧
    WBehaves ints code (localTypes checked) [0, 5] [] (.exit 8 [(0 : Int)]) [] ∧
    ¬ WBehaves ints code (localTypes checked) [0, 5] [] (.exit 8 [(5 : Int)]) [] := by
  refine ⟨⟨by decide, by decide, ?_, by decide⟩, ?_, _, rfl, ⟨_, rfl, rfl⟩, ⟨0, _, rfl⟩, ⟨0, _, rfl⟩, ?_⟩
  · simp [checked, rulesO, Op.rules, Op.isTerm, ended, quitsO, Op.quits, fits]
  · simp [checked, oneIfO, Op.oneIf]
  · rintro ⟨n, L, h⟩
    have : (WOut.exit 8 [(0 : Int)] : WOut Int) = .exit 8 [5] := congrArg Prod.fst (Option.some.inj h)
    simp at this

/-- Counts down to zero in a loop with a result, written in the usual way. -/
def usual : Func where
  params := [0]
  body :=
    [.loop [0] [2] [3]
      [.plain 1 [3] (some 4), .plain 2 [3] (some 5), .ite 4 [] [.brk 3] [.cont [5]]],
     .exit 8 [2]]
  ty := fun _ => 1

/-- C74 is false of a loop with a result whose body ends with a conditional that leaves the loop or goes
round again: the code is not valid WebAssembly, although both branches stand under one conditional. -/
theorem C74_valid_violated : WF usual ∧ oneIfO 0 usual.body ∧ thenYieldsO usual.ty usual.body ∧
    ∃ code, compile usual = some code ∧ ∀ ret, ¬ Valid (localTypes usual) ret code := by
  refine ⟨⟨by decide, by decide, ?_, by decide⟩, ?_, ?_, _, rfl, ?_⟩
  · simp [usual, rulesO, Op.rules, Op.isTerm, ended, quitsO, Op.quits]
  · simp [usual, oneIfO, Op.oneIf]
  · simp [usual, thenYieldsO, Op.thenYields]
  · rintro ret ⟨s, h, _⟩
    have : (none : Option St) = some s := h
    cases this

end Verif.WasmCf
