import Verif.Solver.Plain

/-!
# C26, C27, C31: the constraint solver
-/

namespace Verif.Solver
open Verif.Types

/-! ## C26 -/

/-- **C26, partial.**  Take any solver reached by solving constraint sets of the fragment (no
ability takes type arguments, no row lists an ability twice).  If it is given one more set, then
for every accepted equation the final substitution can be applied to both sides and the results
agree: same structure, same effect sets and tails, up to `Error`/`Never` and a pure row against
any row.

Missing: abilities with type arguments (see `C26_any_solution_partial` for what holds there and
the violations below), and the exception for pure rows. -/
theorem C26_accepted_equations_agree_partial {st st' : St} {cs : List Con} {n : Nat} {bs : List Bool}
    (hr : Reach Con.Simple st) (hc : ∀ c ∈ cs, c.Simple) (hs : solve n cs st = some (bs, st')) :
    bs.length = cs.length ∧ ∀ a b, (Con.teq a b, true) ∈ cs.zip bs →
      ∃ k a' b', apply st'.σ st'.ρ k a = some a' ∧ apply st'.σ st'.ρ k b = some b' ∧
        ∀ m, Agree false m a' b' := by
  have hi := reserved_inv (reach_inv hr) (cs.flatMap Con.rowVars)
  have hb := conBelow_reserved st.next hc
  obtain ⟨i1, i2⟩ := solveLoop_inv hi hb hs
  obtain ⟨s1, s2⟩ := solveLoop_sound (E := false) (Or.inr ⟨hi, hb⟩) hs (solution_solves i1)
  refine ⟨s1, fun a b hz => ?_⟩
  have hab := hb _ (List.of_mem_zip hz).1
  exact applied_agree i1 (Nat.le_refl _) (hab.1.mono i2) (hab.2.mono i2) (s2 _ _ hz rfl)

example : ∃ st', solve 20 [.teq (tFunc [.uni (.src 0)] tInt ⟨[.mk 1 []], some 0⟩)
      (tFunc [tNamed 5 [tBool]] tInt ⟨[.mk 2 [], .mk 1 []], none⟩)] St.init = some ([true], st') ∧
    apply st'.σ st'.ρ 20 (.uni (.src 0)) = some (tNamed 5 [tBool]) ∧
    rowApply st'.ρ ⟨[.mk 1 []], some 0⟩ = ⟨[.mk 1 [], .mk 2 []], none⟩ := by
  refine ⟨⟨[(.src 0, tNamed 5 [tBool])], [(0, ⟨[.mk 2 []], none⟩)], 1⟩, ?_⟩
  decide +kernel

example : Con.Simple (.teq (tFunc [.uni (.src 0)] tInt ⟨[.mk 1 []], some 0⟩)
      (tFunc [tNamed 5 [tBool]] tInt ⟨[.mk 2 [], .mk 1 []], none⟩)) := by
  refine ⟨1, ?_⟩
  simp [tFunc, tNamed, tInt, tBool, Simple, SimpleL, Eff.ability, Eff.args]

/-- **C26, partial, all types.**  For every state and every constraint set, over all types: every
assignment that solves the bindings the solver ends with satisfies every accepted constraint,
except that nothing is claimed about rows that list an ability more than once.

Missing: that such an assignment exists (it need not, see `C26_row_binding_lost_violated`). -/
theorem C26_any_solution_partial {st st' : St} {cs : List Con} {n : Nat} {bs : List Bool} {θ : Sub}
    (hs : solve n cs st = some (bs, st')) (hθ : Solves θ st'.σ st'.ρ) :
    bs.length = cs.length ∧ ∀ c, (c, true) ∈ cs.zip bs → c.Sat true θ := by
  obtain ⟨s1, s2⟩ := solveLoop_sound (E := true) (Or.inl rfl) hs hθ
  exact ⟨s1, fun c hz => s2 c true hz rfl⟩

/-- An assignment that solves the bindings, with an ability that has an argument. -/
example : ∃ st' θ, solve 20 [.teq (tFunc [] tInt ⟨[.mk 7 [.uni (.src 0)]], none⟩)
      (tFunc [] tInt ⟨[.mk 7 [tBool]], none⟩)] St.init = some ([true], st') ∧
    Solves θ st'.σ st'.ρ ∧ θ.ty (.src 0) = tBool := by
  refine ⟨⟨[(.src 0, tBool)], [], 0⟩, ⟨fun _ => tBool, fun v => ⟨[], some v⟩⟩, ?_, ?_, rfl⟩
  · decide +kernel
  · constructor
    · intro v t hm
      simp at hm
      obtain ⟨rfl, rfl⟩ := hm
      simp [tBool, Sub.onTy, Sub.onTyL, Sub.onEffL, Sub.tail]
    · intro v r hm; simp at hm

/-- **C26 is false in general**: with an ability listed twice, the first match is taken for both.
`fn() ->{State(?a), State(?b)} Int` against `fn() ->{State(Int), State(Bool)} Int` is accepted
with both variables bound to `Int`. -/
theorem C26_repeated_ability_violated :
    ∃ st' a b a' b', solve 20 [.teq a b] St.init = some ([true], st') ∧
      apply st'.σ st'.ρ 20 a = some a' ∧ apply st'.σ st'.ρ 20 b = some b' ∧
      ¬ ∀ m, Agree false m a' b' := by
  refine ⟨⟨[(.src 1, tInt), (.src 0, tInt)], [], 0⟩,
    tFunc [] tInt ⟨[.mk 7 [.uni (.src 0)], .mk 7 [.uni (.src 1)]], none⟩,
    tFunc [] tInt ⟨[.mk 7 [tInt], .mk 7 [tBool]], none⟩,
    tFunc [] tInt ⟨[.mk 7 [tInt], .mk 7 [tInt]], none⟩,
    tFunc [] tInt ⟨[.mk 7 [tInt], .mk 7 [tBool]], none⟩, by decide +kernel, by decide +kernel,
    by decide +kernel, ?_⟩
  intro h
  have := h 2
  simp [tFunc, tInt, tBool, Agree, Wild, core, RowAgree, SameEffects, Eff.ability, Eff.args] at this

/-- **C26 is false in general**: a row variable bound while the arguments of an ability are being
unified is bound again afterwards, and the first binding is lost.
`fn() ->{State(fn() ->{|v} Int) | v} Int` against
`fn() ->{State(fn() ->{IO} Int), Log} Int` is accepted with `v := {Log}`, so the inner function
types end up with the effects `{Log}` and `{IO}`. -/
theorem C26_row_binding_lost_violated :
    ∃ st' a b a' b', solve 20 [.teq a b] St.init = some ([true], st') ∧
      apply st'.σ st'.ρ 20 a = some a' ∧ apply st'.σ st'.ρ 20 b = some b' ∧
      ¬ ∀ m, Agree false m a' b' := by
  refine ⟨⟨[], [(0, ⟨[.mk 2 []], none⟩), (0, ⟨[.mk 1 []], none⟩)], 1⟩,
    tFunc [] tInt ⟨[.mk 7 [tFunc [] tInt ⟨[], some 0⟩]], some 0⟩,
    tFunc [] tInt ⟨[.mk 7 [tFunc [] tInt ⟨[.mk 1 []], none⟩], .mk 2 []], none⟩,
    tFunc [] tInt ⟨[.mk 7 [tFunc [] tInt ⟨[.mk 2 []], none⟩], .mk 2 []], none⟩,
    tFunc [] tInt ⟨[.mk 7 [tFunc [] tInt ⟨[.mk 1 []], none⟩], .mk 2 []], none⟩, by decide +kernel,
    by decide +kernel, by decide +kernel, ?_⟩
  intro h
  have := h 3
  simp [tFunc, tInt, Agree, Wild, core, RowAgree, SameEffects, Eff.ability, Eff.args] at this

/-! ## C27 -/

/-- **C27, partial (acyclic).**  In every solver reached by solving constraint sets of the
fragment, no variable depends on itself, directly or through other variables, and no row variable
ends in itself.

Missing: abilities with type arguments (false there, `C27_cycle_through_row_violated`). -/
theorem C27_acyclic_partial {st : St} (hr : Reach Con.Simple st) :
    (∀ v, ¬ Relation.TransGen (Mentions st.σ) v v) ∧
    (∀ v, ¬ Relation.TransGen (EndsIn st.ρ) v v) :=
  ⟨tri_acyclic (reach_inv hr).triT, tri_acyclic (reach_inv hr).triR⟩

/-- **C27, partial (application terminates).**  In every such solver, applying the substitution
terminates on every type. -/
theorem C27_apply_terminates_partial {st : St} (hr : Reach Con.Simple st) (t : Ty) :
    ∃ n t', apply st.σ st.ρ n t = some t' :=
  apply_total_all (reach_inv hr) st.ρ (fun v r hm => ((reach_inv hr).frag.2 v r hm).2.1) t

/-- **C27, partial (solving terminates).**  Every set of constraints of the fragment is answered,
constraint by constraint. -/
theorem C27_solving_terminates_partial {st : St} (hr : Reach Con.Simple st) {cs : List Con}
    (hc : ∀ c ∈ cs, c.Simple) : ∃ n bs st', solve n cs st = some (bs, st') :=
  solveLoop_total (reserved_inv (reach_inv hr) _) (conBelow_reserved _ hc)

/-- A solver that has bound `?0 := List(?1)` and `?1 := Bool`, and the row variable `0`. -/
def sampleState : St :=
  ⟨[(.src 1, tBool), (.src 0, tNamed 5 [.uni (.src 1)])], [(0, ⟨[.mk 1 []], none⟩)], 1⟩

/-- Reachable states with chains of bindings exist. -/
example : Reach Con.Simple sampleState := by
  refine Reach.solve (n := 20) (st := St.init)
    (cs := [.teq (.uni (.src 0)) (tNamed 5 [.uni (.src 1)]), .teq (.uni (.src 0)) (tNamed 5 [tBool]),
      .req ⟨[], some 0⟩ ⟨[.mk 1 []], none⟩])
    (bs := [true, true, true]) .init ?_ (by decide +kernel)
  intro c hc
  simp only [List.mem_cons, List.mem_nil_iff, or_false] at hc
  rcases hc with rfl | rfl | rfl
  · exact ⟨0, by simp [tNamed, Simple, SimpleL]⟩
  · exact ⟨0, by simp [tNamed, tBool, Simple, SimpleL]⟩
  · exact ⟨1, by simp [SimpleRow, Eff.args, Eff.ability]⟩

example : apply sampleState.σ sampleState.ρ 10 (tFunc [.uni (.src 0)] tInt ⟨[], some 0⟩)
    = some (tFunc [tNamed 5 [tBool]] tInt ⟨[.mk 1 []], none⟩) := by decide +kernel

/-- **C27 (occurs check), all types and states.**  An equation between an unbound variable and a
type that mentions it (after substitution), other than the variable itself, is never accepted, in
either order. -/
theorem C27_occurs_check {st : St} {v : UVar} {t t' : Ty} {k : Nat}
    (hv : st.σ.lookup v = none) (ht : apply st.σ [] k t = some t') (ho : Occurs v t')
    (hne : t' ≠ .uni v) (n : Nat) (st' : St) :
    unify n (.uni v) t st ≠ some (true, st') ∧ unify n t (.uni v) st ≠ some (true, st') := by
  have key : ∀ m, bindVar m v t' st ≠ some (true, st') := by
    intro m h
    simp only [bindVar] at h
    cases hx : occursIn v st.ρ m t' with
    | none => simp [hx] at h
    | some b =>
      cases b with
      | true => simp [hx] at h
      | false => exact occursIn_false hx ho
  have hnode : ∃ hd ks es r, t' = .node hd ks es r := by
    cases t' with
    | uni w => simp [Occurs] at ho; subst ho; exact absurd rfl hne
    | node hd ks es r => exact ⟨hd, ks, es, r, rfl⟩
  cases n with
  | zero => simp [unify]
  | succ n =>
    have e1 : ∀ m u, apply st.σ [] m (.uni v) = some u → u = .uni v := by
      intro m u h
      cases m with
      | zero => simp [apply] at h
      | succ m => simpa [apply, hv] using h.symm
    have e2 : ∀ m u, apply st.σ [] m t = some u → u = t' := by
      intro m u h
      have p1 := apply_mono_le (Nat.le_max_left m k) h
      have p2 := apply_mono_le (Nat.le_max_right m k) ht
      rw [p1] at p2; simpa using p2
    obtain ⟨hd, ks, es, r, rfl⟩ := hnode
    constructor
    · intro h
      rw [unify] at h
      cases h1 : apply st.σ [] n (.uni v) with
      | none => simp [h1] at h
      | some a =>
        cases h2 : apply st.σ [] n t with
        | none => simp [h1, h2] at h
        | some b =>
          rw [h1, h2] at h
          rw [e1 n a h1, e2 n b h2] at h
          simp only [reduceCtorEq, if_false] at h
          exact key n h
    · intro h
      rw [unify] at h
      cases h1 : apply st.σ [] n (.uni v) with
      | none => simp [h1] at h
      | some a =>
        cases h2 : apply st.σ [] n t with
        | none => simp [h1, h2] at h
        | some b =>
          rw [h1, h2] at h
          rw [e1 n a h1, e2 n b h2] at h
          simp only [reduceCtorEq, if_false] at h
          exact key n h

example : unify 20 (.uni (.src 0)) (tNamed 5 [.uni (.src 0)]) St.init = some (false, St.init) ∧
    unify 20 (.uni (.src 1)) (tFunc [] (.uni (.src 0)) ⟨[.mk 7 [.uni (.src 1)]], none⟩) St.init
      = some (false, St.init) := by decide +kernel

/-- **C27, partial (infinite types are rejected).**  Without `Error` and `Never` (which are equal
to everything), a constraint of the fragment that no assignment of (finite) types and rows
satisfies is rejected. -/
theorem C27_unsatisfiable_rejected_partial {st st' : St} {cs : List Con} {n : Nat} {bs : List Bool}
    (hr : Reach Con.Plain st) (hc : ∀ c ∈ cs, c.Plain) (hs : solve n cs st = some (bs, st'))
    {c : Con} {b : Bool} (hz : (c, b) ∈ cs.zip bs)
    (hno : ∀ θ : Sub, (∀ v, NoWild (θ.ty v)) → ¬ c.Sat false θ) : b = false := by
  cases b with
  | false => rfl
  | true =>
    have hr' : Reach Con.Simple st := hr.mono (fun c hc => hc.1)
    have hi := reserved_inv (reach_inv hr') (cs.flatMap Con.rowVars)
    have hb := conBelow_reserved st.next (fun c hm => (hc c hm).1)
    obtain ⟨i1, _⟩ := solveLoop_inv hi hb hs
    obtain ⟨_, s2⟩ := solveLoop_sound (E := false) (Or.inr ⟨hi, hb⟩) hs (solution_solves i1)
    have hp0 : PlainLog st.σ := reach_plain hr
    have hp := solveLoop_plain hi hb hc hp0 hs
    exact absurd (s2 c true hz rfl) (hno _ (solution_noWild i1 hp))

/-- The hypothesis is met by an equation that needs an infinite type: `?0 = List(?0)`. -/
example (θ : Sub) (hθ : ∀ v, NoWild (θ.ty v)) :
    ¬ Con.Sat false θ (.teq (.uni (.src 0)) (tNamed 5 [.uni (.src 0)])) := by
  intro h
  simp only [Con.Sat, tNamed, Sub.onTy, Sub.onTyL, Sub.onEffL, Sub.tail, List.append_nil] at h
  have hw := hθ (.src 0)
  generalize θ.ty (.src 0) = t at h hw
  have := agree_size (Ty.size t) t _ (Nat.le_refl _) hw
    (by rw [noWild_node]; simpa using hw) (h _)
  simp [Ty.size, Ty.sizeL] at this

/-- **C27 is false in general**: the occurs check looks into the effect row a row variable is bound
to, but not through the type variables it finds there.  After `{|0} = {State(?1)}` and
`?1 = List(?0)`, the equation `?0 = fn() ->{|0} Int` is accepted.  The substitution is then cyclic,
and applying it to `?0` does not terminate. -/
theorem C27_cycle_through_row_violated :
    ∃ cs st', solve 20 cs St.init = some (cs.map (fun _ => true), st') ∧
      ∀ n, apply st'.σ st'.ρ n (.uni (.src 0)) = none := by
  refine ⟨[.req ⟨[], some 0⟩ ⟨[.mk 7 [.uni (.src 1)]], none⟩,
      .teq (.uni (.src 1)) (tNamed 5 [.uni (.src 0)]),
      .teq (.uni (.src 0)) (tFunc [] tInt ⟨[], some 0⟩)],
    ⟨[(.src 0, tFunc [] tInt ⟨[], some 0⟩), (.src 1, tNamed 5 [.uni (.src 0)])],
      [(0, ⟨[.mk 7 [.uni (.src 1)]], none⟩)], 1⟩, by decide +kernel, ?_⟩
  have key : ∀ (σ : List (UVar × Ty)) (ρ : List (Nat × Row)),
      σ.lookup (.src 0) = some (tFunc [] tInt ⟨[], some 0⟩) →
      σ.lookup (.src 1) = some (tNamed 5 [.uni (.src 0)]) →
      rowApply ρ ⟨[], some 0⟩ = ⟨[.mk 7 [.uni (.src 1)]], none⟩ →
      ∀ n, apply σ ρ n (.uni (.src 0)) = none := by
    intro σ ρ h0 h1 hrow n
    have node : ∀ n hd ks es r, apply σ ρ (n + 1) (.node hd ks es r) =
        match mapO (apply σ ρ n) ks with
        | none => none
        | some ks' =>
          match mapArgs (apply σ ρ n) (rowApply ρ ⟨es, r⟩).effects with
          | none => none
          | some es' => some (.node hd ks' es' (rowApply ρ ⟨es, r⟩).rest) := fun _ _ _ _ _ => rfl
    have uni : ∀ n v t, σ.lookup v = some t → apply σ ρ (n + 1) (.uni v) = apply σ ρ n t := by
      intro n v t h
      rw [apply, h]
    induction n using Nat.strongRecOn with
    | _ n ih =>
      match n with
      | 0 => rfl
      | 1 => rw [uni _ _ _ h0]; rfl
      | m + 2 =>
        have hb : apply σ ρ m (.uni (.src 1)) = none := by
          match m with
          | 0 => rfl
          | 1 => rw [uni _ _ _ h1]; rfl
          | k + 2 =>
            rw [uni _ _ _ h1, tNamed, node, mapO, ih k (by omega)]
        rw [uni _ _ _ h0, tFunc, node, hrow]
        have : mapArgs (apply σ ρ m) [.mk 7 [.uni (.src 1)]] = none := by
          simp only [mapArgs, mapO, Eff.args, hb]
        rw [this]
        cases mapO (apply σ ρ m) ([] ++ [tInt]) <;> rfl
  exact key _ _ (by decide) (by decide) (by decide)

/-! ## C31 -/

/-- **C31, partial.**  In the fragment, after an accepted row equation the two rows have the same
tail and the same effects, unless the left one is pure and the right one lists some effect.

Missing: abilities with type arguments, and the exception for a pure row on the left. -/
theorem C31_unified_rows_partial {st st' : St} {cs : List Con} {n : Nat} {bs : List Bool}
    (hr : Reach Con.Simple st) (hc : ∀ c ∈ cs, c.Simple) (hs : solve n cs st = some (bs, st'))
    {a b : Row} (hz : (Con.req a b, true) ∈ cs.zip bs) :
    (rowApply st'.ρ a = ⟨[], none⟩ ∧ (rowApply st'.ρ b).effects ≠ []) ∨
    ((rowApply st'.ρ a).rest = (rowApply st'.ρ b).rest ∧
      ∀ e, e ∈ (rowApply st'.ρ a).effects ↔ e ∈ (rowApply st'.ρ b).effects) := by
  have hi := reserved_inv (reach_inv hr) (cs.flatMap Con.rowVars)
  have hb := conBelow_reserved st.next hc
  obtain ⟨i1, i2⟩ := solveLoop_inv hi hb hs
  obtain ⟨_, s2⟩ := solveLoop_sound (E := false) (Or.inr ⟨hi, hb⟩) hs (solution_solves i1)
  have hab := hb _ (List.of_mem_zip hz).1
  have sa := hab.1.mono i2
  have sb := hab.2.mono i2
  have hR : ∀ v r, (v, r) ∈ st'.ρ → SimpleRow st'.next r := fun v r hm => (i1.frag.2 v r hm).2
  have ta := (rowApply_simple hR a sa).1
  have tb := (rowApply_simple hR b sb).1
  have key : ∀ (e x : Eff), e.args = [] → x.args = [] → e.ability = x.ability → e = x := by
    intro e x h1 h2 h3
    cases e; cases x
    simp only [Eff.args, Eff.ability] at h1 h2 h3
    rw [h1, h2, h3]
  rcases applied_rows_agree i1 (Nat.le_refl _) sa sb (s2 _ _ hz rfl) 0 with h | h | h | h
  · refine Or.inl ⟨?_, h.2.2 rfl⟩
    generalize rowApply st'.ρ a = r at h
    obtain ⟨es, t⟩ := r
    simp only at h
    rw [h.1, h.2.1]
  · simp at h
  · simp at h
  · refine Or.inr ⟨h.1, fun e => ⟨fun he => ?_, fun he => ?_⟩⟩
    · obtain ⟨x, hx, hab, _⟩ := h.2.1 e he
      rw [key e x (ta e he) (tb x hx) hab]; exact hx
    · obtain ⟨x, hx, hab, _⟩ := h.2.2 e he
      rw [← key x e (ta x hx) (tb e he) hab]; exact hx

example : ∃ st', solve 20 [.req ⟨[.mk 1 [], .mk 2 []], some 0⟩ ⟨[.mk 3 [], .mk 1 []], some 1⟩] St.init
      = some ([true], st') ∧
    rowApply st'.ρ ⟨[.mk 1 [], .mk 2 []], some 0⟩ = ⟨[.mk 1 [], .mk 2 [], .mk 3 []], some 2⟩ ∧
    rowApply st'.ρ ⟨[.mk 3 [], .mk 1 []], some 1⟩ = ⟨[.mk 3 [], .mk 1 [], .mk 2 []], some 2⟩ :=
  ⟨⟨[], [(1, ⟨[.mk 2 []], some 2⟩), (0, ⟨[.mk 3 []], some 2⟩)], 3⟩, by decide +kernel⟩

/-- **C31 (which rows unify), partial.**  In the fragment, in every reachable solver, row
unification always answers, and it accepts exactly when `RowsUnify` says so of the two rows as they
are after substitution.  It never touches a type variable. -/
theorem C31_decision_partial {st : St} (hr : Reach Con.Simple st) {r1 r2 : Row}
    (h1 : SimpleRow st.next r1) (h2 : SimpleRow st.next r2) (n : Nat) :
    ∃ b st', unifyRows n r1 r2 st = some (b, st') ∧ st'.σ = st.σ ∧
      (b = true ↔ RowsUnify (rowApply st.ρ r1) (rowApply st.ρ r2)) :=
  unifyRowsWith_exact (reach_inv hr) h1 h2

example : ¬ RowsUnify ⟨[.mk 1 []], none⟩ ⟨[.mk 1 [], .mk 2 []], none⟩ ∧
    RowsUnify ⟨[.mk 1 []], some 0⟩ ⟨[.mk 1 [], .mk 2 []], none⟩ := by
  constructor
  · intro h
    have := (h 2).mpr (by decide)
    revert this; decide
  · intro a ha
    revert ha
    simp [abil, Eff.ability]
    intro h; exact Or.inl h

/-- **C31 is false for a pure row on the left**: `{}` against `{IO | v}` is accepted and nothing is
bound. -/
theorem C31_pure_row_violated :
    ∃ st', solve 20 [.req ⟨[], none⟩ ⟨[.mk 1 []], some 0⟩] St.init = some ([true], st') ∧
      rowApply st'.ρ ⟨[], none⟩ = ⟨[], none⟩ ∧
      rowApply st'.ρ ⟨[.mk 1 []], some 0⟩ = ⟨[.mk 1 []], some 0⟩ :=
  ⟨⟨[], [], 1⟩, by decide +kernel⟩

/-- **C31 is false when a row lists an ability twice**: `{IO, IO}` against `{IO, State}` is
accepted, although the second effect of the right row has no counterpart. -/
theorem C31_repeated_ability_violated :
    ∃ st', solve 20 [.req ⟨[.mk 1 [], .mk 1 []], none⟩ ⟨[.mk 1 [], .mk 2 []], none⟩] St.init
        = some ([true], st') ∧
      Eff.mk 2 [] ∈ (rowApply st'.ρ ⟨[.mk 1 [], .mk 2 []], none⟩).effects ∧
      Eff.mk 2 [] ∉ (rowApply st'.ρ ⟨[.mk 1 [], .mk 1 []], none⟩).effects :=
  ⟨St.init, by decide +kernel⟩

end Verif.Solver
