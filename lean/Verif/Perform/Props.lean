import Verif.Perform.ProofsForm

/-!
C107: operations of abilities become dispatches through the evidence of the function.
-/

namespace Verif.Perform

/-- A function with evidence, an operation in a branch, one without continuation and one in the body
followed by something that is never reached. -/
def exFunc : Func where
  params := [(0, false), (1, true), (2, true)]
  ret := .other 3
  body := [.call false 7 0 [0] 3, .prim 1 [0, 3] 4,
    .ite 4 [.perform true 7 1 0 [3] 5, .yield 5] [.yield 3] 6,
    .perform false 8 2 6 [0, 3] 9, .prim 5 [9] 10, .ret [10]]

/-- Interpretation in which handlers record what they are given. -/
def exInterp : Interp Nat (List (List Nat)) where
  prim f vs w := (f + vs.foldr (· + ·) 0, w)
  truth v := v % 2 = 0
  null := 0
  product a o vs := vs.foldr (fun v s => 10 * s + v) (100 * a + o)
  cps ev a o k p w := (p + 1, w ++ [[ev, a, o, k, p]])
  tail ev a o p w := (p + 2, w ++ [[ev, a, o, p]])

/-- The function does the same as before, whatever handlers, other operations and the world do: the
operations are performed in the same order, in the evidence of the function, with the same
continuations and payloads; the function returns what it returned. -/
theorem C107_meaning {V W : Type} (f f' : Func) (h : lower f = some f')
    (hev : ∀ p, f.params.find? (·.2) = some p → p.1 ∉ opsDefs f.body)
    (I : Interp V W) (env : Nat → V) (w : W) : run I f' env w = run I f env w := by
  unfold lower evidence at h
  cases hp : f.params.find? (·.2) with
  | none =>
    rw [hp] at h
    simp only [Option.map_none, Option.some.injEq] at h
    rw [h]
  | some p =>
    rw [hp] at h
    simp only [Option.map_some] at h
    cases hl : lowerOps p.1 f.ret true f.body f.fresh with
    | none => rw [hl] at h; cases h
    | some q =>
      obtain ⟨body, n⟩ := q
      rw [hl] at h
      simp only [Option.some.injEq] at h
      subst h
      have hm : p.1 ∈ f.params.map (·.1) := List.mem_map.2 ⟨p, List.mem_of_find?_eq_some hp, rfl⟩
      have hlt : p.1 < f.fresh := by
        have := le_foldr hm
        unfold Func.fresh
        omega
      have hs := (lowerOps_ok I p.1 f.ret f.fresh hlt f.body true f.fresh body n
        (by unfold Func.fresh; omega) (Nat.le_refl _) (hev p hp) hl).2 env env w (fun _ _ => rfl)
      unfold run
      simp only [hp]
      generalize execs I (env p.1) f.ret true f.body env w = o₁ at hs
      generalize execs I (env p.1) f.ret true body env w = o₂ at hs
      cases hs <;> rfl

/-- No operation of an ability is left in a function with evidence, at any depth. -/
theorem C107_complete (f f' : Func) (h : lower f = some f') (he : f.params.any (·.2) = true) :
    opsClean f'.body = true := by
  unfold lower evidence at h
  cases hp : f.params.find? (·.2) with
  | none =>
    rw [List.find?_eq_none] at hp
    obtain ⟨p, hp1, hp2⟩ := List.any_eq_true.1 he
    exact absurd hp2 (hp p hp1)
  | some p =>
    rw [hp] at h
    simp only [Option.map_some] at h
    cases hl : lowerOps p.1 f.ret true f.body f.fresh with
    | none => rw [hl] at h; cases h
    | some q =>
      rw [hl] at h
      simp only [Option.some.injEq] at h
      subst h
      exact lowerOps_clean p.1 f.ret f.body true f.fresh q hl

/-- The pass does not panic if operations in the old form have at most one argument. -/
theorem C107_total (f : Func) (h : opsPacked f.body = true) : ∃ f', lower f = some f' := by
  unfold lower
  cases evidence f with
  | none => exact ⟨f, rfl⟩
  | some ev =>
    obtain ⟨q, hq⟩ := lowerOps_total ev f.ret f.body true f.fresh h
    simp only [hq]
    exact ⟨_, rfl⟩

/-- A function that performs an operation in its body ends by returning the answer of a dispatch, as
a value of the type of the function. -/
theorem C107_ends (f f' : Func) (h : lower f = some f') (he : f.params.any (·.2) = true)
    (hp : f.body.any Op.isPerform = true) : ReturnsAnswer f.ret f'.body := by
  unfold lower evidence at h
  cases hq : f.params.find? (·.2) with
  | none =>
    rw [List.find?_eq_none] at hq
    obtain ⟨p, hp1, hp2⟩ := List.any_eq_true.1 he
    exact absurd hp2 (hq p hp1)
  | some p =>
    rw [hq] at h
    simp only [Option.map_some] at h
    cases hl : lowerOps p.1 f.ret true f.body f.fresh with
    | none => rw [hl] at h; cases h
    | some q =>
      rw [hl] at h
      simp only [Option.some.injEq] at h
      subst h
      exact lowerOps_ends p.1 f.ret f.body f.fresh q hp hl

/-- The signature stays, and so does everything of a function without evidence or without operations
of abilities. -/
theorem C107_kept (f f' : Func) (h : lower f = some f') :
    f'.params = f.params ∧ f'.ret = f.ret ∧
    (f.params.any (·.2) = false ∨ opsClean f.body = true → f' = f) := by
  unfold lower evidence at h
  cases hp : f.params.find? (·.2) with
  | none =>
    rw [hp] at h
    simp only [Option.map_none, Option.some.injEq] at h
    subst h
    exact ⟨rfl, rfl, fun _ => rfl⟩
  | some p =>
    rw [hp] at h
    simp only [Option.map_some] at h
    cases hl : lowerOps p.1 f.ret true f.body f.fresh with
    | none => rw [hl] at h; cases h
    | some q =>
      rw [hl] at h
      simp only [Option.some.injEq] at h
      subst h
      refine ⟨rfl, rfl, ?_⟩
      rintro (hf | hc)
      · have := List.find?_some hp
        have hm := List.mem_of_find?_eq_some hp
        rw [List.any_eq_false] at hf
        exact absurd this (hf p hm)
      · rw [lowerOps_same p.1 f.ret f.body true f.fresh hc] at hl
        simp only [Option.some.injEq] at hl
        subst hl
        rfl

/-- Another run changes nothing. -/
theorem C107_again (f f' : Func) (h : lower f = some f') : lower f' = some f' := by
  have hk := C107_kept f f' h
  have hc := C107_complete f f' h
  unfold lower evidence
  cases hp : f'.params.find? (·.2) with
  | none => rfl
  | some p =>
    have ha : f.params.any (·.2) = true := by
      rw [← hk.1]
      exact List.any_eq_true.2 ⟨p, List.mem_of_find?_eq_some hp, List.find?_some hp⟩
    simp only [Option.map_some]
    rw [lowerOps_same p.1 f'.ret f'.body true f'.fresh (hc ha)]

/-- Values are still defined once. -/
theorem C107_once (f f' : Func) (h : lower f = some f') (hn : (opsDefs f.body).Nodup) :
    (opsDefs f'.body).Nodup := by
  unfold lower at h
  cases he : evidence f with
  | none => rw [he] at h; cases h; exact hn
  | some ev =>
    rw [he] at h
    simp only at h
    cases hl : lowerOps ev f.ret true f.body f.fresh with
    | none => rw [hl] at h; cases h
    | some q =>
      rw [hl] at h
      simp only [Option.some.injEq] at h
      subst h
      refine (lowerOps_defs ev f.ret f.body true f.fresh q hl).nodup hn fun x hx => ?_
      have := opsDefs_bound f.body x hx
      unfold Func.fresh
      omega

/-- Handlers are given payloads and continuations of the one type they all have. -/
theorem C107_erased (f f' : Func) (h : lower f = some f') (hu : opsUndispatched f.body = true) :
    f.params.any (·.2) = true → opsErased [] f'.body := by
  intro he
  unfold lower evidence at h
  cases hp : f.params.find? (·.2) with
  | none =>
    rw [List.find?_eq_none] at hp
    obtain ⟨p, hp1, hp2⟩ := List.any_eq_true.1 he
    exact absurd hp2 (hp p hp1)
  | some p =>
    rw [hp] at h
    simp only [Option.map_some] at h
    cases hl : lowerOps p.1 f.ret true f.body f.fresh with
    | none => rw [hl] at h; cases h
    | some q =>
      rw [hl] at h
      simp only [Option.some.injEq] at h
      subst h
      exact lowerOps_erased p.1 f.ret f.body true f.fresh q hu hl

/-- The example meets the hypotheses. -/
example : exFunc.params.any (·.2) = true ∧ opsPacked exFunc.body = true ∧
    exFunc.body.any Op.isPerform = true ∧ opsClean exFunc.body = false ∧
    1 ∉ opsDefs exFunc.body ∧ (opsDefs exFunc.body).Nodup ∧
    opsUndispatched exFunc.body = true ∧ exFunc.params.find? (·.2) = some (1, true) := by decide +kernel

/-- Its operations are performed with what they were given, in both branches. -/
example : run exInterp exFunc (fun x => x) [] =
      some ([150221], [[1, 7, 0, 7000], [1, 8, 2, 7002, 150220]]) ∧
    run { exInterp with truth := fun v => v % 2 = 1 } exFunc (fun x => x) [] =
      some ([150221], [[1, 7, 0, 7000], [1, 7, 1, 0, 7002], [1, 8, 2, 7003, 150220]]) := by
  decide +kernel

/-- It is lowered: the call first, and the operation in the body is the last but two. -/
example : ((lower exFunc).map fun f => (f.body.length, f.body.any Op.isPerform)) =
    some (11, false) := by decide +kernel

end Verif.Perform
