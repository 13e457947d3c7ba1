import Verif.Run.Proofs
import Verif.Typing.Props

/-!
# C76: an accepted module does not go wrong when it runs
-/

namespace Verif.Run
open Verif.Types Verif.Scheme Verif.Typing

/-- C76 (well typed modules): in a well typed module, calling a function with arguments of the types
that it is given never goes wrong, however long it runs, and what it returns has the type of the
result. -/
theorem C76_well_typed_never_wrong (P : Prog) (ss : List PolyTy) (X : Ext) (ht : WellTyped P ss)
    (hr : Respects P ss) (hc : CtorsOk P) (ha : Arities P) (hx : ExtOk P (P.sig ss) X)
    (f : Nat) (τs : List S) (τ : S) (vs : List Val) (hf : (P.sig ss).fn f (.fn τs τ))
    (hv : VTys (P.sig ss) vs τs) (n : Nat) :
    (applyV P X n (.fn f) vs).Safe (fun v => VTy (P.sig ss) v τ) :=
  (safe_all ⟨ht, hr, hc, ha, hx⟩ n).app (.fn f τs τ hf) hv

theorem wf_arities {P : Prog} (h : P.Wf) : Arities P := fun d hd => (h.fns d hd).arity

/-- C76 (partial): the same for every accepted module in which the checker dropped no connection
between types, or which has none of the constructs where it may, and in which functions used before
they are checked turn out to have their declared types.  Missing: the other accepted modules. -/
theorem C76_accepted_never_wrong_partial (P : Prog) (hP : P.Wf) (hc : CtorsOk P) (n : Nat) (v : Verdict)
    (ss : List PolyTy) (h : checkProg P n = some (v, ss)) (hv : v.ok = true)
    (hl : v.lost = false ∨ P.plain) (hh : Honest P ss) (X : Ext) (hx : ExtOk P (P.sig ss) X)
    (f : Nat) (τs : List S) (τ : S) (vs : List Val) (hf : (P.sig ss).fn f (.fn τs τ))
    (hvs : VTys (P.sig ss) vs τs) (m : Nat) :
    (applyV P X m (.fn f) vs).Safe (fun v => VTy (P.sig ss) v τ) := by
  obtain ⟨h1, h2⟩ := C75_accepted_modules_partial P hP n v ss h hv hl hh
  exact C76_well_typed_never_wrong P ss X h1 h2 hc (wf_arities hP) hx f τs τ vs hf hvs m

/-! ## A module that runs well -/

def noExt : Ext := fun _ _ => none

theorem optC_ok' : CtorsOk (base [] []) := by
  intro c s hs
  match c with
  | 0 =>
    simp only [base, optC, List.getElem?_cons_zero, Option.some.injEq] at hs
    subst hs
    refine ⟨1, 0, rfl, by decide, by decide, ?_⟩
    rintro τs τs' τ ⟨δ, β, _, h⟩
    simp [ev, tNamed, S.fn, head] at h
  | 1 =>
    simp only [base, optC, List.getElem?_cons_succ, List.getElem?_cons_zero, Option.some.injEq] at hs
    subst hs
    refine ⟨1, 1, rfl, by decide, by decide, ?_⟩
    rintro τs τs' τ ⟨δ, β, _, h⟩ ⟨δ', β', _, h'⟩
    rw [ev_tFunc] at h h'
    obtain ⟨rfl, a⟩ := fn_inj.1 h
    obtain ⟨rfl, a'⟩ := fn_inj.1 h'
    clear h
    have h' := a.symm.trans a'
    simp [ev, tNamed, tBound, head, evL] at h'
    simp [ev, tBound, evL, h']
  | c + 2 => simp [base, optC] at hs

theorem base_ctors (fns : List Fn) (ms : List Method) : CtorsOk (base fns ms) := optC_ok'

/-- Calling `g` of `pPlain` with `Some(5)` gives 5, with `None` it gives 1. -/
example : applyV pPlain noExt 9 (.fn 1) [.data 1 [.lit (.int 5)]] = .ok (.lit (.int 5)) ∧
    applyV pPlain noExt 9 (.fn 1) [.data 0 []] = .ok (.lit (.int 1)) := ⟨rfl, rfl⟩

/-- `Some(5)` is a value of the type `Option(Int)`. -/
example (ss : List PolyTy) :
    VTys (pPlain.sig ss) [.data 1 [.lit (.int 5)]] [.named 1 [.prim 0]] := by
  refine .cons (.data 1 _ [.prim 0] _ ⟨_, rfl, fun _ => default, [.prim 0], rfl, ?_⟩ (by simp) rfl ?_) .nil
  · rw [ev_tFunc]
    rfl
  · intro i v σ h1 h2
    match i with
    | 0 =>
      simp only [List.getElem?_cons_zero, Option.some.injEq] at h1 h2
      subst h1 h2
      exact .lit (.int 5)
    | i + 1 => simp at h1

/-- The hypotheses of both theorems hold of `pPlain`. -/
example : pPlain.Wf ∧ CtorsOk pPlain ∧ pPlain.plain ∧
    (∃ ss, checkProg pPlain 4 = some (⟨true, false⟩, ss)) ∧ (∀ ss, Honest pPlain ss) ∧
    ∀ ss, ExtOk pPlain (pPlain.sig ss) noExt :=
  ⟨pPlain_wf, base_ctors _ _, pPlain_plain, outcome_some (by decide +kernel),
    fun ss i f d b d' s hd hb hif hm hd' _ τ _ => by
      exfalso
      match i, f with
      | 0, f =>
        simp only [pPlain, base, List.getElem?_cons_zero, Option.some.injEq] at hd
        subst hd
        simp only [Option.some.injEq] at hb
        subst hb
        simp [E.mentions, mentionsSS] at hm
      | 1, 0 => omega
      | 1, f + 1 =>
        simp only [pPlain, base, List.getElem?_cons_succ, List.getElem?_cons_zero, Option.some.injEq] at hd
        subst hd
        simp only [Option.some.injEq] at hb
        subst hb
        simp [E.mentions, mentionsSS, mentionsL, mentionsArms] at hm
      | i + 2, f => simp [pPlain, base] at hd,
    fun ss f d _ _ τs τ vs v _ _ h => by simp [noExt] at h⟩

/-! ## Accepted modules that go wrong -/

/-- `fn f() -> fn(Int) -> Int { true && false }` and `fn main() -> Int { f()(1) }` -/
def pCallBool : Prog := base
  [⟨fnSig 0 [] (tFunc [tInt] tInt ⟨[], none⟩), false, [],
    some (.block [] (.bin true (.lit (.bool true)) (.lit (.bool false))))⟩,
   ⟨fnSig 0 [] tInt, false, [], some (.block [] (.call (.call (.fn 0) []) [.lit (.int 1)]))⟩] []

/-- `fn g() -> fn(Int) -> Int { k(1) }`, `fn k(x) { x }` and `fn main() -> Int { g()(2) }` -/
def pCallNumber : Prog := base
  [⟨fnSig 0 [] (tFunc [tInt] tInt ⟨[], none⟩), false, [],
    some (.block [] (.call (.fn 1) [.lit (.int 1)]))⟩,
   ⟨fnSig 2 [tBound 0] (tBound 1), false, [7], some (.block [] (.loc 1 7))⟩,
   ⟨fnSig 0 [] tInt, false, [], some (.block [] (.call (.call (.fn 0) []) [.lit (.int 2)]))⟩] []

/-- C76 (violated): an accepted module calls a Boolean. -/
theorem C76_logic_operator_violated :
    accepted pCallBool 9 = some true ∧ applyV pCallBool noExt 9 (.fn 1) [] = .wrong :=
  ⟨by decide +kernel, rfl⟩

/-- C76 (violated): an accepted module calls a number. -/
theorem C76_use_before_definition_violated :
    accepted pCallNumber 9 = some true ∧ applyV pCallNumber noExt 20 (.fn 2) [] = .wrong :=
  ⟨by decide +kernel, rfl⟩

end Verif.Run
