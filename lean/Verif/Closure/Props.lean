import Verif.Closure.Pairs2
/-!
# C70–C71: closure conversion

C70: a program with lambdas does the same before and after the two passes.  C71: the passes end, leave no
closure, and give distinct names to the functions they make.
-/
namespace Verif.Closure
open Verif.CallConv (Conv)
variable {B σ : Type}

/-! ## C70 -/

/-- Lambdas made into functions: the program does the same, for any operations on data, any depth of calls,
any function called from outside, any arguments and any state. -/
theorem C70_lambdas_become_functions (S : Sem B σ) {p : Prog} (hp : p.WF) (hn : p.PlainNames) (n : Nat) (f : Sym)
    (bs : List B) (s : σ) (h : result S p n f bs s ≠ .err) :
    Same (result S p n f bs s) (result S (lowerLambdas p) n f bs s) :=
  (loop_ok S _ p _ hp (nameInv_of_plain hp hn)).2 n f bs s h

/-- Closures made into pairs: the program does the same. -/
theorem C70_closures_become_pairs (S : Sem B σ) {p : Prog} (hp : p.WF) (hl : ∀ f ∈ p.fns, NoLambda f.2.body)
    (hm : ∀ f ∈ p.fns, CallsMarked f.2.body) (n : Nat) (f : Sym) (bs : List B) (s : σ)
    (h : result S p n f bs s ≠ .err) :
    Same (result S p n f bs s) (result S (lowerClosures p) n f bs s) :=
  same_of_r2 (result2 S (p2_lower hp hl hm) n f bs s) h

/-- Both passes. -/
theorem C70_conversion (S : Sem B σ) {p : Prog} (hp : p.WF) (hn : p.PlainNames)
    (hl : ∀ f ∈ p.fns, Marked f.2.body) (hm : ∀ f ∈ p.fns, CallsMarked f.2.body) (n : Nat) (f : Sym) (bs : List B)
    (s : σ) (h : result S p n f bs s ≠ .err) :
    Same (result S p n f bs s) (result S (lowerClosures (lowerLambdas p)) n f bs s) := by
  obtain ⟨w, _⟩ := loop_ok S p.lambdas p (fun _ => 0) hp (nameInv_of_plain hp hn)
  have h1 := C70_lambdas_become_functions S hp hn n f bs s h
  refine h1.trans (C70_closures_become_pairs S w ?_ (loop_calls _ p _ hm) n f bs s h1.not_err)
  intro x hx
  refine noLambda_of_marked _ (loop_marked _ p _ hl x hx) ?_
  have := loop_stops p.lambdas p (fun _ => 0) (Nat.le_refl _)
  rw [List.any_eq_false] at this
  simpa using this x hx

/-! ## C71 -/

/-- The loop ends: as many turns as there are lambdas are enough, further ones change nothing, and no lambda
that could be lowered is left at the end. -/
theorem C71_ends (p : Prog) (k : Nat) : lowerLoop (p.lambdas + k) p (fun _ => 0) = lowerLambdas p ∧
    ∀ f ∈ (lowerLambdas p).fns, progress f.2.body = false := by
  refine ⟨loop_more _ p _ k (Nat.le_refl _), ?_⟩
  have := loop_stops p.lambdas p (fun _ => 0) (Nat.le_refl _)
  rw [List.any_eq_false] at this
  intro f hf
  simpa using this f hf

/-- No lambda is left, if all are marked consistently. -/
theorem C71_no_lambda {p : Prog} (hl : ∀ f ∈ p.fns, Marked f.2.body) :
    ∀ f ∈ (lowerLambdas p).fns, NoLambda f.2.body :=
  fun f hf => noLambda_of_marked _ (loop_marked _ p _ hl f hf) ((C71_ends p 0).2 f hf)

/-- No closure and no call of one is left. -/
theorem C71_no_closure {p : Prog} (hl : ∀ f ∈ p.fns, Marked f.2.body) (hm : ∀ f ∈ p.fns, CallsMarked f.2.body) :
    ∀ f ∈ (lowerClosures (lowerLambdas p)).fns, NoClosure f.2.body := by
  intro y hy
  have h1 := C71_no_lambda hl
  have h2 : ∀ f ∈ (lowerLambdas p).fns, CallsMarked f.2.body := loop_calls _ p _ hm
  obtain ⟨x, hx, k, rfl⟩ := lowerFns_of_mem (lowerLambdas p).fns (n := (lowerLambdas p).next) (fun x hx => ⟨h1 x hx, h2 x hx⟩) y hy
  exact noClosure_lower _ (h1 x hx) (h2 x hx)

/-- The functions made from lambdas have names of their own, and every function uses only its parameters and
what it defines. -/
theorem C71_well_formed {p : Prog} (hp : p.WF) (hn : p.PlainNames) : (lowerLambdas p).WF :=
  (loop_ok (B := Unit) (σ := Unit) ⟨fun _ _ _ => none, fun _ => true⟩ p.lambdas p (fun _ => 0) hp (nameInv_of_plain hp hn)).1

/-! ## Concrete programs -/

/-- The kinds of data in the examples. -/
abbrev intTy : Ty := 5

/-- Addition, and a counter of the operations done. -/
def exSem : Sem Nat Nat := ⟨fun _ bs s => some (s + 1, bs.sum), fun b => b ≠ 0⟩

def untagged : CloTy := ⟨none, none, [intTy]⟩

/-- Two lambdas, one in the other; the inner one is untagged and captures from both scopes around it. -/
def exMain : Func :=
  ⟨[(0, evTy), (1, intTy)],
    .lambda 10 [1] (some .direct) untagged [(2, intTy)]
      (.lambda 11 [1, 2] none untagged [(3, intTy)]
        (.op 4 (.prim 0) [1, 2] (.op 5 (.prim 0) [4, 3] (.ret 5)))
        (.op 6 (.callInd none ⟨true, untagged⟩) [11, 2] (.ret 6)))
      (.op 12 (.callInd (some .direct) ⟨true, untagged⟩) [10, 1] (.ret 12))⟩

/-- A caller: evidence is the first argument. -/
def exProg : Prog := ⟨[("main", exMain)], 13⟩

theorem exProg_wf : exProg.WF := by
  refine ⟨by decide, ?_⟩
  intro f hf
  simp only [exProg, List.mem_singleton] at hf
  subst hf
  refine ⟨by decide, by decide, ?_, ?_⟩
  · simp [exMain, Scoped, contract, rebinds, innerEv, untagged]
  · simp [exProg, exMain, Below]

theorem exProg_plain : exProg.PlainNames := by
  intro f hf g n h
  simp only [exProg, List.mem_singleton] at hf
  subst hf
  have h1 := congrArg String.toList h
  simp only [String.toList_append] at h1
  have h2 : '_' ∈ "main".toList := by
    rw [h1]
    exact List.mem_append_left _ (List.mem_append_right _ (by decide))
  exact absurd h2 (by decide)

theorem exProg_marked : ∀ f ∈ exProg.fns, Marked f.2.body := by
  intro f hf
  simp only [exProg, List.mem_singleton] at hf
  subst hf
  refine ⟨⟨_, rfl, ?_⟩, rfl, ⟨⟨_, rfl, ?_⟩, rfl, trivial, trivial⟩, trivial⟩
  · intro c i e; cases e; decide
  · intro c i e; cases e

theorem exProg_calls : ∀ f ∈ exProg.fns, CallsMarked f.2.body := by
  intro f hf
  simp only [exProg, List.mem_singleton] at hf
  subst hf
  refine ⟨⟨⟨?_, ?_, trivial⟩, ?_, trivial⟩, ?_, trivial⟩
  · intro _ _ e; cases e
  · intro _ _ e; cases e
  · intro conv site e
    cases e
    exact ⟨by simp, by simp [untagged], fun _ => ⟨_, rfl, fun c i e => by cases e⟩⟩
  · intro conv site e
    cases e
    refine ⟨by simp, by simp [untagged], fun _ => ⟨_, rfl, fun c i e => ?_⟩⟩
    cases e
    simp [untagged]

/-- The value of a result. -/
def asData : Res B σ → Option (σ × B)
  | .ok s (.base b) => some (s, b)
  | _ => none

/-- The program runs: 7 + 7 + 7, in two operations. -/
example : asData (result exSem exProg 3 "main" [0, 7] 0) = some (2, 21) := by decide +kernel

theorem exProg_runs : result exSem exProg 3 "main" [0, 7] 0 ≠ .err := by
  intro h
  have h1 : asData (result exSem exProg 3 "main" [0, 7] 0) = some (2, 21) := by decide +kernel
  rw [h] at h1
  cases h1

/-- And so does the lowered program, with three functions. -/
example : asData (result exSem (lowerLambdas exProg) 3 "main" [0, 7] 0) = some (2, 21) := by decide +kernel
example : asData (result exSem (lowerClosures (lowerLambdas exProg)) 3 "main" [0, 7] 0) = some (2, 21) := by decide +kernel
example : (lowerLambdas exProg).fns.map Prod.fst = ["main", "main::__clam_0", "main::__clam_0::__clam_0"] := by decide +kernel

example : Same (result exSem exProg 3 "main" [0, 7] 0)
    (result exSem (lowerClosures (lowerLambdas exProg)) 3 "main" [0, 7] 0) :=
  C70_conversion exSem exProg_wf exProg_plain exProg_marked exProg_calls 3 "main" [0, 7] 0 exProg_runs
example : Same (result exSem exProg 3 "main" [0, 7] 0) (result exSem (lowerLambdas exProg) 3 "main" [0, 7] 0) :=
  C70_lambdas_become_functions exSem exProg_wf exProg_plain 3 "main" [0, 7] 0 exProg_runs
example : ∀ f ∈ (lowerClosures (lowerLambdas exProg)).fns, NoClosure f.2.body :=
  C71_no_closure exProg_marked exProg_calls
example : (lowerLambdas exProg).WF := C71_well_formed exProg_wf exProg_plain
example : exProg.lambdas = 2 := by decide

/-- An untagged lambda made in a function with evidence takes its caller's: here a function `k` makes it and
returns it, and the caller has another evidence.  A marked closure keeps to its arguments. -/
def exEv : Prog :=
  ⟨[("k", ⟨[(0, evTy)], .lambda 1 [] none untagged [(2, intTy)] (.op 3 (.prim 0) [0, 2] (.ret 3)) (.ret 1)⟩),
    ("main", ⟨[(4, evTy), (5, intTy)], .op 6 (.call "k") [5]
      (.op 7 (.callInd none ⟨true, untagged⟩) [6, 5] (.ret 7))⟩)], 8⟩

example : asData (result exSem exEv 3 "main" [100, 7] 0) = some (1, 107) := by decide +kernel
example : asData (result exSem (lowerClosures (lowerLambdas exEv)) 3 "main" [100, 7] 0) = some (1, 107) := by decide +kernel

/-! ## Names are not checked

`next_name` (lower_closure_lambda.rs 483-488) never looks at the functions already there.  A function
`__clam_0` in a module `f` has the symbol the pass gives to the first lambda of a function `f`. -/

/-- `fn f(x) { let g = fn(y) { x + y }; g(x) }` beside `mod f { fn __clam_0(e, y) { y } }`. -/
def clash : Prog :=
  ⟨[("f", ⟨[(1, intTy)], .lambda 10 [1] (some .direct) untagged [(2, intTy)] (.op 4 (.prim 0) [1, 2] (.ret 4))
      (.op 12 (.callInd (some .direct) ⟨true, untagged⟩) [10, 1] (.ret 12))⟩),
    ("f::__clam_0", ⟨[(20, intTy), (21, intTy)], .ret 21⟩)], 22⟩

theorem clash_wf : clash.WF := by
  refine ⟨by decide, ?_⟩
  intro f hf
  simp only [clash, List.mem_cons, List.not_mem_nil, or_false] at hf
  rcases hf with rfl | rfl
  · refine ⟨by decide, by decide, ?_, ?_⟩
    · simp [Scoped, contract, rebinds, untagged]
    · simp [clash, Below]
  · refine ⟨by decide, by decide, ?_, ?_⟩
    · simp [Scoped]
    · simp [clash, Below]

/-- Two functions of the lowered program have one name, and calling the closure runs the wrong one. -/
theorem C70_clash_violated : clash.WF ∧
    (lowerLambdas clash).fns.map Prod.fst = ["f", "f::__clam_0", "f::__clam_0"] ∧
    asData (result exSem clash 3 "f" [7] 0) = some (1, 14) ∧
    asData (result exSem (lowerLambdas clash) 3 "f" [7] 0) = some (0, 7) :=
  ⟨clash_wf, by decide +kernel, by decide +kernel, by decide +kernel⟩

end Verif.Closure
