import Verif.Effects.Main

/-!
# Handlers: what the compiled program does

`step` in `Spec.lean` is the reading of handlers that the language documents: an operation goes to
the innermost `handle` that has an arm for it, the arm runs outside that `handle`, and `resume`
puts the rest of the handled computation (with its handler) back in place.  `run` in `Model.lean`
runs the code the compiler produces, with evidence passing, continuation closures and
`Normal`/`Escape` answers.
-/

namespace Verif.Effects

variable {W : Type} {M : Mach W}

/-! ## Both sides are functions -/

theorem compiled_unique {P : Prog} {w w1 w2 : W} {b1 b2 : Int} (h1 : Compiled M P w b1 w1)
    (h2 : Compiled M P w b2 w2) : b1 = b2 ∧ w1 = w2 := by
  obtain ⟨n, c, h1⟩ := h1
  obtain ⟨m, c', h2⟩ := h2
  have h3 := run_mono _ _ (Nat.le_max_left n m) h1
  have h4 := run_mono _ _ (Nat.le_max_right n m) h2
  rw [h3] at h4
  cases h4
  exact ⟨rfl, rfl⟩

/-- **C72.**  For every program of the class `Prog.ok`, every machine and every starting world: if
the source program answers `b` and leaves the world `w'`, without ever installing a handler for an
ability that is being handled already, then so does the compiled program, and it does nothing else.

Missing from the full claim: programs outside `Prog.ok` and runs that nest handlers for one
ability (for these the claim is false, see the `_violated` theorems), and source programs that do
not answer. -/
theorem C72_handlers_partial {P : Prog} (hok : P.ok = true) {w w' : W} {b : Int}
    (h : AnswersApart M P w b w') :
    Compiled M P w b w' ∧ ∀ b2 w2, Compiled M P w b2 w2 → b2 = b ∧ w2 = w' :=
  ⟨correct hok h, fun _ _ h2 => compiled_unique h2 (correct hok h)⟩

/-! ## A machine for the examples -/

/-- Primitives: 0 prints, 1 adds, 2 multiplies, `n + 10` is the literal `n`.  The world is what
has been printed. -/
def demo : Mach (List Int) where
  prim p bs w := match p, bs with
    | 0, [b] => some (b, w ++ [b])
    | 1, [a, b] => some (a + b, w)
    | 2, [a, b] => some (a * b, w)
    | n, [] => some ((n : Int) - 10, w)
    | _, _ => none

abbrev lit (n : Nat) : Exp := .prim (n + 10) []

/-- Whether a state is about to nest handlers, for the examples. -/
def nestsB : SState W → Bool
  | (.ev _ (.handle _ hs _ _), C, _) => hs.any fun h => decide (h.ab ∈ handled C)
  | _ => false

theorem nestsB_false {s : SState W} (h : nestsB s = false) : ¬ Nests s := by
  obtain ⟨c, C, w⟩ := s
  cases c with
  | rt v => simp [Nests]
  | ev ρ e =>
    cases e <;> simp [Nests, nestsB] at h ⊢
    exact h

def apartFor (M : Mach W) (F : List (Fn × (List Var × Exp))) : Nat → SState W → Bool
  | 0, s => !nestsB s
  | n + 1, s => !nestsB s && match step M F s with
    | none => true
    | some s => apartFor M F n s

theorem apart_of {F : List (Fn × (List Var × Exp))} {n : Nat} {s : SState W} {v : SVal} {w' : W}
    (h1 : steps M F n s = some (.rt v, [], w')) (h2 : apartFor M F n s = true) :
    ∀ i s', steps M F i s = some s' → ¬ Nests s' := by
  induction n generalizing s with
  | zero =>
    simp only [steps, Option.some.injEq] at h1
    subst h1
    intro i s' h
    cases i with
    | zero =>
      simp only [steps, Option.some.injEq] at h
      subst h
      simp [Nests]
    | succ i => simp [steps, step] at h
  | succ n ih =>
    simp only [apartFor, Bool.and_eq_true, Bool.not_eq_true'] at h2
    intro i s' h
    cases i with
    | zero =>
      simp only [steps, Option.some.injEq] at h
      subst h
      exact nestsB_false h2.1
    | succ i =>
      cases h3 : step M F s with
      | none => simp [steps, h3] at h
      | some s1 =>
        simp only [steps, h3, Option.bind_some] at h1 h
        simp only [h3] at h2
        exact ih h1 h2.2 i s' h

/-- A function that installs a handler with an `op` arm that resumes and a `fn` arm, called twice
one after the other under a handler of `main`, whose arm calls it again before it resumes. -/
def good : Prog :=
  ⟨[(0, ([3], .handle (.app 3 [])
      [.mk .op 1 0 [4] 9 (.letE 6 (.prim 1 [4, 4]) (.resume 9 6)), .mk .fn 1 1 [] 9 (lit 7)]
      5 (.prim 1 [5, 5])))],
    .letE 0 (lit 4)
      (.letE 1 (.lam [] (.letE 7 (.op 1 0 [0]) (.letE 8 (.fnop 1 1 []) (.prim 1 [7, 8]))))
        (.handle
          (.letE 10 (.call 0 [1]) (.letE 11 (.call 0 [1]) (.letE 12 (.prim 0 [10]) (.op 2 0 [11]))))
          [.mk .op 2 0 [3] 9 (.letE 10 (.lam [] (.letE 8 (.op 1 0 [3]) (.prim 0 [8])))
            (.letE 6 (.call 0 [10]) (.resume 9 6)))]
          5 (.var 5)))⟩

example : good.ok = true := by decide
theorem good_answers : AnswersApart demo good [] 120 [30, 60] :=
  ⟨76, rfl, apart_of (n := 76) (v := .base 120) (w' := [30, 60]) rfl rfl⟩
example : Compiled demo good [] 120 [30, 60] :=
  (C72_handlers_partial (by decide) good_answers).1

/-- An arm that does not resume: it abandons the computation, through an inner handler that waits,
and its value goes to the end of its own `handle`, past the `do` arm. -/
def abort : Prog :=
  ⟨[(0, ([], .op 0 0 []))],
    .letE 3 (.handle
      (.letE 2 (.handle (.letE 1 (.call 0 []) (.prim 0 [1])) [.mk .fn 1 0 [] 9 (lit 2)] 5 (.var 5))
        (.prim 0 [2]))
      [.mk .op 0 0 [] 9 (lit 7)] 5 (.letE 6 (lit 10) (.prim 2 [5, 6]))) (.prim 0 [3])⟩

example : abort.ok = true := by decide
example : Compiled demo abort [] 7 [7] :=
  (C72_handlers_partial (by decide)
    ⟨11, rfl, apart_of (n := 11) (v := .base 7) (w' := [7]) rfl rfl⟩).1

/-! ## Where the compiled program differs -/

/-- An operation performed in an arm goes to a handler inside the one the arm belongs to. -/
def armOp : Prog :=
  ⟨[], .handle
    (.handle
      (.handle (.op 0 0 []) [.mk .op 1 0 [] 9 (lit 2)] 5 (.var 5))
      [.mk .op 0 0 [] 8 (.letE 1 (.op 1 0 []) (.resume 8 1))] 5 (.var 5))
    [.mk .op 1 0 [] 7 (.letE 1 (lit 1) (.resume 7 1))] 5 (.var 5)⟩

/-- **C72, violated.**  An arm performs an operation for which there are two handlers, one outside
and one inside the `handle` of the arm.  The arm runs outside its `handle`, so the outer handler
should answer; the compiled program asks the inner one, because the arm gets the evidence of the
performer. -/
theorem C72_arm_operation_violated :
    Answers demo armOp [] 1 [] ∧ Compiled demo armOp [] 2 [] ∧ ¬ Compiled demo armOp [] 1 [] := by
  have h : Compiled demo armOp [] 2 [] := ⟨100, _, rfl⟩
  exact ⟨⟨20, rfl⟩, h, fun h' => by simpa using compiled_unique h h'⟩

/-- An operation after an inner `handle` for the same ability has completed. -/
def afterHandle : Prog :=
  ⟨[], .handle
    (.letE 0 (.handle (lit 3) [.mk .op 0 0 [] 9 (.letE 1 (lit 2) (.resume 9 1))] 5 (.var 5))
      (.op 0 0 []))
    [.mk .op 0 0 [] 8 (.letE 1 (lit 1) (.resume 8 1))] 5 (.var 5)⟩

/-- **C72, violated.**  After a `handle` has completed its handler is gone; the compiled program
passes the extended evidence to what follows, and the next operation goes to the handler that is
gone. -/
theorem C72_after_handle_violated :
    Answers demo afterHandle [] 1 [] ∧ Compiled demo afterHandle [] 2 [] ∧
      ¬ Compiled demo afterHandle [] 1 [] := by
  have h : Compiled demo afterHandle [] 2 [] := ⟨100, _, rfl⟩
  exact ⟨⟨15, rfl⟩, h, fun h' => by simpa using compiled_unique h h'⟩

/-- An arm that adds one to what `resume` gives, under a `do` arm that multiplies by ten. -/
def resumeValue : Prog :=
  ⟨[], .handle (.letE 0 (.op 0 0 []) (lit 3))
    [.mk .op 0 0 [] 9
      (.letE 1 (lit 5) (.letE 2 (.resume 9 1) (.letE 3 (lit 1) (.prim 1 [2, 3]))))]
    5 (.letE 6 (lit 10) (.prim 2 [5, 6]))⟩

/-- **C72, violated.**  `resume` gives the value of the whole `handle`, `do` arm included; the
compiled program gives the arm the value of the body, and runs the `do` arm on what the arm makes
of it. -/
theorem C72_resume_value_violated :
    Answers demo resumeValue [] 31 [] ∧ Compiled demo resumeValue [] 40 [] ∧
      ¬ Compiled demo resumeValue [] 31 [] := by
  have h : Compiled demo resumeValue [] 40 [] := ⟨100, _, rfl⟩
  exact ⟨⟨21, rfl⟩, h, fun h' => by simpa using compiled_unique h h'⟩

/-- A handler without an arm for an operation of its ability, under one that has it. -/
def missingArm : Prog :=
  ⟨[], .handle (.handle (.op 0 1 []) [.mk .op 0 0 [] 9 (lit 2)] 5 (.var 5))
    [.mk .op 0 1 [] 9 (lit 7)] 5 (.var 5)⟩

/-- **C72, violated.**  An operation for which the innermost handler of its ability has no arm runs
that handler's last arm, which is for another operation. -/
theorem C72_missing_arm_violated :
    Answers demo missingArm [] 7 [] ∧ Compiled demo missingArm [] 2 [] ∧
      ¬ Compiled demo missingArm [] 7 [] := by
  have h : Compiled demo missingArm [] 2 [] := ⟨100, _, rfl⟩
  exact ⟨⟨5, rfl⟩, h, fun h' => by simpa using compiled_unique h h'⟩

/-- A closure of the `Direct` convention with a capture, called in a function with evidence. -/
def directClosure : Prog :=
  ⟨[(0, ([3], .appD 3 []))],
    .letE 0 (lit 4) (.letE 1 (.lamD [] (.var 0)) (.handle (.call 0 [1]) [] 5 (.var 5)))⟩

/-- **C72, violated.**  The environment of a pure closure is overwritten with the evidence when it
is called from a function that has evidence. -/
theorem C72_direct_closure_violated :
    Answers demo directClosure [] 4 [] ∧ Breaks demo directClosure [] :=
  ⟨⟨12, rfl⟩, ⟨100, rfl⟩⟩

/-- The state-passing idiom: `run(f, s)` handles `get` by running `fn() { resume s }` under `run`
again. -/
def resumeInClosure : Prog :=
  ⟨[(0, ([3, 4], .handle (.app 3 [])
      [.mk .op 1 0 [] 9 (.letE 6 (.lam [] (.resume 9 4)) (.call 0 [6, 4]))] 5 (.var 5)))],
    .letE 0 (lit 4)
      (.letE 1 (.lam [] (.letE 7 (.op 1 0 []) (.letE 8 (.op 1 0 []) (.prim 1 [7, 8]))))
        (.handle (.call 0 [1, 0]) [] 5 (.var 5)))⟩

/-- **C72, violated.**  `resume` in a closure that runs under another `handle`: the code after
`resume` takes the answer of that closure's continuation for an `Escape` without a test, although
it is the `Normal` answer of the inner `handle`.  In WebAssembly the cast traps; native code reads
the owner out of the other variant's payload. -/
theorem C72_resume_in_closure_violated :
    Answers demo resumeInClosure [] 8 [] ∧ Breaks demo resumeInClosure [] :=
  ⟨⟨41, rfl⟩, ⟨100, rfl⟩⟩

end Verif.Effects
