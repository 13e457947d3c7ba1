import Verif.EffectTrack.Main
import Verif.EffectTrack.Run
import Verif.EffectTrack.Exec

/-!
# C73: operations that no handler takes are found by the type checker

The property is that in an accepted program every operation `main` performs, except of the builtin
ability `Io`, is performed inside a handler for its ability; and that the effect row of a function's
type lists every ability whose operations may leave its body.
-/

namespace Verif.EffectTrack
open Verif.Types

/-- **C73, partial (rows).**  In an accepted program that is `Orderly`, the effect row registered for
a function lists every ability whose operations may leave its body.

Missing: programs that are not `Orderly`, for which it is false (below); function values; abilities
with type arguments. -/
theorem C73_rows_partial {P : Prog} {env : Env} (h : Accepted P Solver.Con.Simple env)
    (ho : Orderly P) {f : Nat} {fn : Fn} (hf : P.fns[f]? = some fn) {a : Ab}
    (he : Escapes P a fn.body) : ∃ row, env[f]? = some row ∧ ∃ e ∈ row.effects, e.ability = a := by
  obtain ⟨_, _, row, _, hrow, _, _⟩ := fn_cover h ho hf
  have := escapes_row h ho hf he
  rw [rowOf, schemeRow_of hrow] at this
  exact ⟨row, hrow, List.mem_map.mp this⟩

/-- **C73, partial (`main`).**  In an accepted program that is `Orderly`, no operation but those of
`Io` may leave `main`. -/
theorem C73_main_partial {P : Prog} {env : Env} (h : Accepted P Solver.Con.Simple env)
    (ho : Orderly P) {fn : Fn} (hf : P.fns[P.main]? = some fn) {a : Ab} (he : Escapes P a fn.body) :
    a = P.io := escapes_main h ho hf he

/-- **C73, partial (runs).**  Take a first-order program whose effects are accepted and `Orderly`.
Whenever the running program (on the machine of C72, with any primitives) performs an operation of an
ability other than `Io`, a handler for that ability is waiting. -/
theorem C73_runs_partial {W : Type} {M : Effects.Mach W} {Q : Effects.Prog} {P : Prog} {env : Env}
    (hs : Sees P Q) (h : Accepted P Solver.Con.Simple env) (ho : Orderly P) {n : Nat} {w w' : W}
    {c : Effects.Ctl} {C : List Effects.Frame} {a : Ab}
    (hr : Effects.steps M Q.funs n (.ev [] Q.main, [], w) = some (c, C, w'))
    (hp : Performs a (c, C, w')) (ha : a ≠ P.io) : Handled a C := by
  obtain ⟨fn, hf, hb⟩ := hs.main
  refine (performed hs hr hp).resolve_right (fun he => ha ?_)
  exact escapes_main h ho hf (by rw [hb]; exact he)

/-! ## Examples

Ability 0 is `Io`, 1 is `State`, 2 is `Throw`. -/

/-- `fn get() ->{State} Nat { State::get() }`, `fn twice() { get() get() }`,
`fn run() ->{Throw} Nat { handle { get(); Throw::throw() } { State::get => resume } }`,
`fn main() { handle { twice(); run() } { State, Throw } }`. -/
def sample : Prog where
  fns := [⟨some ⟨[.mk 1 []], none⟩, .op 1⟩,
    ⟨none, .seq (.call 0) (.call 0)⟩,
    ⟨some ⟨[.mk 2 []], none⟩, .handle (.seq (.call 0) (.op 2)) [(1, .blind .nop)] .nop⟩,
    ⟨none, .handle (.seq (.call 1) (.call 2)) [(1, .blind .nop), (2, .nop)] .nop⟩]
  main := 3
  io := 0

/-- The sample is accepted, with the row of `twice` inferred. -/
theorem sample_accepted : Accepted sample Solver.Con.Simple [⟨[.mk 1 []], none⟩,
    ⟨[.mk 1 []], some 0⟩, ⟨[.mk 2 []], none⟩, ⟨[], none⟩] :=
  accepted_of (by decide +kernel)

theorem sample_escapes {a : Ab} {x : X} (h : Escapes sample a x) :
    (x = .op 1 → a = 1) ∧ (x = .call 0 → a = 1) ∧ (x = .seq (.call 0) (.call 0) → a = 1) ∧
    (x = .call 1 → a = 1) ∧ (x = .seq (.call 0) (.op 2) → a = 1 ∨ a = 2) ∧ (x = .op 2 → a = 2) ∧
    (x = .nop → False) ∧ (x = .blind .nop → False) ∧
    (x = .handle (.seq (.call 0) (.op 2)) [(1, .blind .nop)] .nop → a = 2) ∧
    (x = .call 2 → a = 2) ∧ (x = .seq (.call 1) (.call 2) → a = 1 ∨ a = 2) := by
  induction h with
  | op => simp +contextual
  | @call f fn hf _ ih =>
    match f, hf with
    | 0, hf => cases hf; simp; exact ih.1 rfl
    | 1, hf => cases hf; simp; exact ih.2.2.1 rfl
    | 2, hf => cases hf; simp; exact ih.2.2.2.2.2.2.2.2.1 rfl
    | 3, hf => simp
    | n + 4, hf => simp [sample] at hf
  | meth hf _ ih => simp
  | @seqL x y _ ih =>
    simp only [X.seq.injEq]
    refine ⟨nofun, nofun, ?_, nofun, ?_, nofun, nofun, nofun, nofun, nofun, ?_⟩
    · exact fun h => ih.2.1 h.1
    · exact fun h => .inl (ih.2.1 h.1)
    · exact fun h => .inl (ih.2.2.2.1 h.1)
  | @seqR x y _ ih =>
    simp only [X.seq.injEq]
    refine ⟨nofun, nofun, ?_, nofun, ?_, nofun, nofun, nofun, nofun, nofun, ?_⟩
    · exact fun h => ih.2.1 h.2
    · exact fun h => .inr (ih.2.2.2.2.2.1 h.2)
    · exact fun h => .inr (ih.2.2.2.2.2.2.2.2.2.1 h.2)
  | bindL _ ih => simp
  | bindR _ ih => simp
  | blind _ ih =>
    refine ⟨nofun, nofun, nofun, nofun, nofun, nofun, nofun, ?_, nofun, nofun, nofun⟩
    intro e; cases e; exact ih.2.2.2.2.2.2.1 rfl
  | @body b hs d _ hn ih =>
    refine ⟨nofun, nofun, nofun, nofun, nofun, nofun, nofun, nofun, ?_, nofun, nofun⟩
    intro e
    cases e
    rcases ih.2.2.2.2.1 rfl with rfl | rfl
    · exact absurd rfl (hn _ List.mem_cons_self)
    · rfl
  | @arm b hs d h hm _ ih =>
    refine ⟨nofun, nofun, nofun, nofun, nofun, nofun, nofun, nofun, ?_, nofun, nofun⟩
    intro e
    cases e
    rw [List.mem_singleton] at hm
    subst hm
    exact (ih.2.2.2.2.2.2.2.1 rfl).elim
  | @done b hs d _ ih =>
    refine ⟨nofun, nofun, nofun, nofun, nofun, nofun, nofun, nofun, ?_, nofun, nofun⟩
    intro e
    cases e
    exact (ih.2.2.2.2.2.2.1 rfl).elim

/-- The sample is orderly: `run` is strict, the handler in `main` is complete. -/
theorem sample_orderly : Orderly sample := by
  have c0 : Closed sample 0 := ⟨_, _, rfl, rfl⟩
  intro i fn hf
  match i, hf with
  | 0, hf =>
    cases hf
    exact ⟨fun r h => by cases h; simp [Eff.args], trivial, false, nofun, trivial⟩
  | 1, hf =>
    cases hf
    exact ⟨nofun, ⟨⟨_, rfl, .inl c0⟩, ⟨_, rfl, .inl c0⟩⟩, false, nofun, trivial, trivial⟩
  | 2, hf =>
    cases hf
    refine ⟨fun r h => by cases h; simp [Eff.args],
      ⟨⟨⟨_, rfl, .inl c0⟩, trivial⟩, ⟨trivial, trivial⟩, trivial⟩, true, fun _ => ?_,
      .inr ⟨rfl, trivial, trivial⟩, ⟨trivial, trivial⟩, trivial⟩
    exact ⟨⟨_, _, rfl⟩, ⟨c0, trivial⟩, ⟨trivial, trivial⟩, trivial⟩
  | 3, hf =>
    cases hf
    refine ⟨nofun, ⟨⟨⟨_, rfl, .inr (by decide)⟩, ⟨_, rfl, .inr (by decide)⟩⟩,
      ⟨trivial, trivial, trivial⟩, trivial⟩, false, nofun, .inl ?_, ⟨trivial, trivial, trivial⟩, trivial⟩
    intro a ha
    rcases (sample_escapes ha).2.2.2.2.2.2.2.2.2.2 rfl with rfl | rfl <;> simp
  | n + 4, hf => simp [sample] at hf

/-- `Throw` leaves `run`, and its row lists it. -/
example : Escapes sample 2 (.handle (.seq (.call 0) (.op 2)) [(1, .blind .nop)] .nop) ∧
    (∃ row, [Row.mk [.mk 1 []] none, ⟨[.mk 1 []], some 0⟩, ⟨[.mk 2 []], none⟩, ⟨[], none⟩][2]? =
      some row ∧ ∃ e ∈ row.effects, e.ability = 2) := by
  have he : Escapes sample 2 (.handle (.seq (.call 0) (.op 2)) [(1, .blind .nop)] .nop) :=
    .body (.seqR .op) (by simp)
  exact ⟨he, C73_rows_partial sample_accepted sample_orderly (f := 2) rfl he⟩

/-- `fn get() { State::get() }`, `fn main() { handle { get() } { State::get => … } }`, as a program
for the machine. -/
def demoQ : Effects.Prog where
  funs := [(0, [], .op 1 0 [])]
  main := .handle (.call 0 []) [.mk .op 1 0 [] 9 (.prim 0 [])] 5 (.var 5)

/-- What the checker sees of it. -/
def demoP : Prog where
  fns := [⟨none, .op 1⟩, ⟨none, .handle (.call 0) [(1, .nop)] .nop⟩]
  main := 1
  io := 0

theorem demo_sees : Sees demoP demoQ := by
  refine ⟨⟨_, rfl, rfl⟩, ?_, ?_, ?_⟩
  · intro f ps b h
    match f, h with
    | 0, h => cases h; exact ⟨_, rfl, rfl⟩
    | n + 1, h => simp [demoQ, List.lookup_cons] at h
  · simp [demoQ, FirstOrder, FirstOrderArms]
  · intro f ps b h
    match f, h with
    | 0, h => cases h; simp [FirstOrder]
    | n + 1, h => simp [demoQ, List.lookup_cons] at h

theorem demo_accepted : Accepted demoP Solver.Con.Simple [⟨[.mk 1 []], some 0⟩, ⟨[], none⟩] :=
  accepted_of (by decide +kernel)

theorem demo_orderly : Orderly demoP := by
  intro i fn hf
  match i, hf with
  | 0, hf => cases hf; exact ⟨nofun, trivial, false, nofun, trivial⟩
  | 1, hf =>
    cases hf
    refine ⟨nofun, ⟨⟨_, rfl, .inr (by decide)⟩, ⟨trivial, trivial⟩, trivial⟩, false, nofun, .inl ?_,
      ⟨trivial, trivial⟩, trivial⟩
    intro a ha
    cases ha with
    | call h1 h2 => cases h1; cases h2; simp
  | n + 2, hf => simp [demoP] at hf

/-- After two steps the program performs `State::get`, and the handler waits. -/
example (M : Effects.Mach Unit) : ∃ C : List Effects.Frame,
    Effects.steps M demoQ.funs 2 (.ev [] demoQ.main, [], ()) = some (.ev [] (.op 1 0 []), C, ()) ∧
    Handled 1 C :=
  ⟨_, rfl, C73_runs_partial demo_sees demo_accepted demo_orderly (n := 2) (a := 1) (M := M) (w := ())
    rfl rfl (by decide)⟩

/-! ## Where it fails -/

/-- The checker accepts the program although an operation of an ability other than `Io` may leave
`main`. -/
def Missed (P : Prog) : Prop :=
  (∃ env, Accepted P Solver.Con.Simple env) ∧ ∃ fn a, P.fns[P.main]? = some fn ∧ a ≠ P.io ∧
    Escapes P a fn.body

theorem missed_of {P : Prog} {fn : Fn} {a : Ab} (h : (checkProg P).isSome = true)
    (hf : P.fns[P.main]? = some fn) (ha : a ≠ P.io) (he : Escapes P a fn.body) : Missed P := by
  obtain ⟨env, he'⟩ := Option.isSome_iff_exists.mp h
  exact ⟨⟨env, accepted_of he'⟩, fn, a, hf, ha, he⟩

/-- **C73 is false in general (order).**  `fn main() { helper() }  fn helper() { Throw::throw() }`:
when `main` is checked the scheme of `helper` does not list any effect yet. -/
theorem C73_order_violated : Missed ⟨[⟨none, .call 1⟩, ⟨none, .op 2⟩], 0, 0⟩ :=
  missed_of (a := 2) (by decide +kernel) rfl (by decide) (.call rfl .op)

/-- The other order is rejected. -/
example : checkProg ⟨[⟨none, .op 2⟩, ⟨none, .call 0⟩], 1, 0⟩ = none := by decide +kernel

/-- **C73 is false in general (what a handler leaves over).**
`fn main() { handle { State::get(); Throw::throw() } { State::get => … } }`: the row before the
handler is pure, and the solver accepts a pure row on the left of a row with effects. -/
theorem C73_leftover_violated : Missed ⟨[⟨none, .handle (.seq (.op 1) (.op 2)) [(1, .nop)] .nop⟩], 0, 0⟩ :=
  missed_of (a := 2) (by decide +kernel) rfl (by decide) (.body (.seqR .op) (by simp))

/-- **C73 is false in general (inside a handled body).**
`fn main() ->{Io} { handle { State::get() && Throw::throw() } { State::get => … } }`, and the same
with a nested handler instead of `&&`: the body of a handler is only looked at by the walk that skips
`&&`, `||`, `resume` and nested handlers. -/
theorem C73_skipped_violated :
    Missed ⟨[⟨some ⟨[.mk 0 []], none⟩, .handle (.blind (.seq (.op 1) (.op 2))) [(1, .nop)] .nop⟩], 0, 0⟩ ∧
    Missed ⟨[⟨some ⟨[.mk 0 []], none⟩, .handle (.handle (.seq (.op 3) (.op 2)) [(3, .nop)] .nop)
      [(1, .nop)] .nop⟩], 0, 0⟩ :=
  ⟨missed_of (a := 2) (by decide +kernel) rfl (by decide) (.body (.blind (.seqR .op)) (by simp)),
   missed_of (a := 2) (by decide +kernel) rfl (by decide)
    (.body (.body (.seqR .op) (by simp)) (by simp))⟩

/-- Without `&&` the program is rejected. -/
example : checkProg ⟨[⟨some ⟨[.mk 0 []], none⟩, .handle (.seq (.op 1) (.op 2)) [(1, .nop)] .nop⟩], 0, 0⟩
    = none := by decide +kernel

/-- **C73 is false in general (methods).**  `fn fail(x: Nat) ->{Throw} Nat { Throw::throw() }
fn main() { 1.fail() }`: the effects of a method are not merged. -/
theorem C73_method_violated : Missed ⟨[⟨some ⟨[.mk 2 []], none⟩, .op 2⟩, ⟨none, .meth 0⟩], 1, 0⟩ :=
  missed_of (a := 2) (by decide +kernel) rfl (by decide) (.meth rfl .op)

/-- **C73 is false in general (open annotations).**  `fn f() ->{e} Nat { Throw::throw() }
fn main() { f() }`: a body is compared with its annotation only if that is closed. -/
theorem C73_open_annotation_violated : Missed ⟨[⟨some ⟨[], some 0⟩, .op 2⟩, ⟨none, .call 0⟩], 1, 0⟩ :=
  missed_of (a := 2) (by decide +kernel) rfl (by decide) (.call rfl .op)

/-- **C73 is false in general (two open rows).**  `fn g() { }` without annotation has an open row.
`fn main() ->{Io} { g(); handle { Throw::throw() } { State::get => … }; g() }`: the leftover of the
handler is put into the tail of the row, and the second call replaces the tail by a fresh one. -/
theorem C73_two_tails_violated : Missed ⟨[⟨none, .nop⟩,
    ⟨some ⟨[.mk 0 []], none⟩, .seq (.call 0) (.seq (.handle (.op 2) [(1, .nop)] .nop) (.call 0))⟩], 1, 0⟩ :=
  missed_of (a := 2) (by decide +kernel) rfl (by decide) (.seqR (.seqL (.body .op (by simp))))

/-- **C73 is false in general (`let`).**  `fn main() ->{Io} { let x = handle { Throw::throw() }
{ State::get => … } }`: the value of a `let` is checked from the pure row. -/
theorem C73_let_violated : Missed
    ⟨[⟨some ⟨[.mk 0 []], none⟩, .bind (.handle (.op 2) [(1, .nop)] .nop) .nop⟩], 0, 0⟩ :=
  missed_of (a := 2) (by decide +kernel) rfl (by decide) (.bindL (.body .op (by simp)))

end Verif.EffectTrack
