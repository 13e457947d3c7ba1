import Verif.Scheme.Let

/-!
# Type schemes and fresh variables: the properties
-/

namespace Verif.Scheme
open Verif.Types Verif.Solver

/-! ## C29 -/

/-- C29: generalising a type quantifies exactly its unresolved variables, in order of first
appearance, and the scheme instantiated at these variables is the resolved type.  (A type that
resolves to one without variables is its own scheme.) -/
theorem C29_roundtrip {σ : TLog} {ρ : RLog} {n : Nat} {t t' : Ty} (h : apply σ ρ n t = some t')
    (hb : NoBound t') :
    ∃ g, generalize σ ρ n t = some (g, firsts (tyVars t')) ∧
      (tyVars t' = [] → g = t) ∧
      (tyVars t' ≠ [] → substB ((firsts (tyVars t')).map .uni) g = .ok t') := by
  refine ⟨_, generalize_eq h, fun h0 => if_pos h0, fun h0 => ?_⟩
  rw [if_neg h0, bodyOf, substB_assign (firsts_nodup _) (by simp) t' hb]
  have : assign (firsts (tyVars t')) ((firsts (tyVars t')).map .uni) = Ty.uni := by
    funext v; exact assign_self (firsts_nodup _) v
  rw [this, withTys_uni]

/-- C29: the instance of a scheme at any types is the resolved type with those types in place of
the quantified variables, the variables that are not quantified being left alone. -/
theorem C29_instances {σ : TLog} {ρ : RLog} {n : Nat} {t t' : Ty} (h : apply σ ρ n t = some t')
    (hb : NoBound t') (ex : List UVar) :
    ∃ g vs, generalizeExcluding σ ρ n t ex = some (g, vs) ∧
      vs = (firsts (tyVars t')).filter (fun v => v ∉ ex) ∧
      ∀ ts : List Ty, ts.length = vs.length →
        substB ts g = .ok ((withTys (assign vs ts)).onTy t') := by
  refine ⟨_, _, generalizeExcluding_eq h, by simp, fun ts hl => ?_⟩
  exact substB_assign ((firsts_nodup _).filter _) hl t' hb

/-- C29: instantiating a generalised type with fresh variables, in the solver or in the checker of
a function body, gives a renamed copy of the resolved type. -/
theorem C29_fresh_instance {σ : TLog} {ρ : RLog} {n : Nat} {t t' : Ty} (h : apply σ ρ n t = some t')
    (hb : NoBound t') (ex : List UVar) (q : List Nat) :
    ∃ g vs, generalizeExcluding σ ρ n t ex = some (g, vs) ∧
      (∀ st, ∃ i st', instantiate ⟨vs.length, q, g⟩ st = some (i, st') ∧ RenamedCopy t' vs q i) ∧
      (∀ c, ∃ i c', Ctx.instantiate ⟨vs.length, q, g⟩ c = some (i, c') ∧ RenamedCopy t' vs q i) :=
  ⟨_, _, generalizeExcluding_eq h,
    instantiate_copy ((firsts_nodup _).filter _) t' hb q,
    ctx_instantiate_copy ((firsts_nodup _).filter _) t' hb q⟩

/-- C29: the same for a function's signature, which has been resolved before it is generalised. -/
theorem C29_fresh_signature {σ : TLog} {ρ : RLog} {n : Nat} {t : Ty} (h : apply σ ρ n t = some t)
    (hb : NoBound t) (q : List Nat) :
    ∃ g, generalize σ ρ n t = some (g, firsts (tyVars t)) ∧
      (∀ st, ∃ i st', instantiate ⟨(firsts (tyVars t)).length, q, g⟩ st = some (i, st') ∧
        RenamedCopy t (firsts (tyVars t)) q i) ∧
      (∀ c, ∃ i c', Ctx.instantiate ⟨(firsts (tyVars t)).length, q, g⟩ c = some (i, c') ∧
        RenamedCopy t (firsts (tyVars t)) q i) := by
  have e : (if tyVars t = [] then t else bodyOf (firsts (tyVars t)) t) = bodyOf (firsts (tyVars t)) t := by
    split
    · rename_i h0; rw [h0, firsts, bodyOf_nil]
    · rfl
  refine ⟨_, generalize_eq h, ?_⟩
  rw [e]
  exact ⟨instantiate_copy (firsts_nodup _) t hb q, ctx_instantiate_copy (firsts_nodup _) t hb q⟩

/-- `fn(b, a, {State(b) | 4}) -> a` where the first variable is bound to `List(c)` by the solver. -/
def demoTy : Ty := tFunc [.uni (.src 1), .uni (.src 0)] (.uni (.src 1)) ⟨[.mk 7 [.uni (.src 0)]], some 4⟩

def demoLog : TLog := [(.src 1, tNamed 3 [.uni (.src 2)])]

-- The hypotheses hold of this type; two variables are quantified, the one from the binding first.
example : apply demoLog [] 9 demoTy = some (tFunc [tNamed 3 [.uni (.src 2)], .uni (.src 0)]
      (tNamed 3 [.uni (.src 2)]) ⟨[.mk 7 [.uni (.src 0)]], some 4⟩) ∧
    generalize demoLog [] 9 demoTy = some (tFunc [tNamed 3 [tBound 0], tBound 1]
      (tNamed 3 [tBound 0]) ⟨[.mk 7 [tBound 1]], some 4⟩, [.src 2, .src 0]) ∧
    (instantiate ⟨2, [4], tFunc [tNamed 3 [tBound 0], tBound 1]
      (tNamed 3 [tBound 0]) ⟨[.mk 7 [tBound 1]], some 4⟩⟩ St.init).map (fun p => p.1.ty)
      = some (tFunc [tNamed 3 [.uni (.solver 5)], .uni (.solver 6)]
          (tNamed 3 [.uni (.solver 5)]) ⟨[.mk 7 [.uni (.solver 6)]], some 7⟩) := by
  decide +kernel

example : NoBound (tFunc [tNamed 3 [.uni (.src 2)], .uni (.src 0)]
    (tNamed 3 [.uni (.src 2)]) ⟨[.mk 7 [.uni (.src 0)]], some 4⟩) := by
  simp [tFunc, tNamed, NoBound, NoBoundL, NoBoundE, NoBoundEff]

-- Why `NoBound` is needed: a quantified variable already in the type is captured.
example : generalize [] [] 9 (tTuple [.uni (.src 0), tBound 0]) = some (tTuple [tBound 0, tBound 0], [.src 0]) ∧
    substB [.uni (.src 0)] (tTuple [tBound 0, tBound 0]) = .ok (tTuple [.uni (.src 0), .uni (.src 0)]) := by
  decide +kernel

/-! ## C28 -/

/-- C28: in every history of a solver, a variable it hands out is mentioned in no earlier event:
it was not handed out before and it is in none of the constraints and schemes given before.  Nor
is it used in the solver's bindings.

Partial: variables of the solver's own kind must come from this solver
(`C28_foreign_variable_violated`). -/
theorem C28_fresh_partial {l : List Ev} {st : St} (h : Hist l st) :
    l.Pairwise NewAfter ∧
    (∀ e ∈ l, ¬ e.hasTy (freshTy st).1 ∧ ¬ e.hasRow (freshRow st).1) ∧
    (∀ v t, (v, t) ∈ st.σ → v ≠ (freshTy st).1 ∧ (freshTy st).1 ∉ tyVars t ∧
      (freshRow st).1 ∉ Ty.rowVars t) ∧
    (∀ v r, (v, r) ∈ st.ρ → v ≠ (freshRow st).1 ∧ r.rest ≠ some (freshRow st).1 ∧
      (freshTy st).1 ∉ tyVarsE r.effects) := by
  have inv := hist_inv h
  refine ⟨inv.new, fun e he => ⟨fun hx => ?_, fun hx => ?_⟩, fun v t hm => ⟨?_, fun hx => ?_, fun hx => ?_⟩,
    fun v r hm => ⟨?_, fun hx => ?_, fun hx => ?_⟩⟩
  · exact Nat.lt_irrefl _ (inv.tys e he st.next hx)
  · exact Nat.lt_irrefl _ (inv.rows e he st.next hx)
  · rintro rfl
    exact Nat.lt_irrefl _ ((inv.bel.tys _ t hm).1 : st.next < st.next)
  · exact Nat.lt_irrefl _ ((inv.bel.tys v t hm).2.1 _ ((mem_tyVars t).mp hx) : st.next < st.next)
  · exact Nat.lt_irrefl _ ((inv.bel.tys v t hm).2.2 _ hx : st.next < st.next)
  · rintro rfl
    exact Nat.lt_irrefl _ ((inv.bel.rows _ r hm).1 : st.next < st.next)
  · exact Nat.lt_irrefl _ ((inv.bel.rows v r hm).2.2 _ hx : st.next < st.next)
  · rw [tyVarsE_eq, List.mem_flatMap] at hx
    obtain ⟨e, he, hx⟩ := hx
    rw [tyVarsL_eq, List.mem_flatMap] at hx
    obtain ⟨a, ha, hx⟩ := hx
    exact Nat.lt_irrefl _ (((inv.bel.rows v r hm).2.1 e he a ha).1 _ ((mem_tyVars a).mp hx) : st.next < st.next)

/-- A scheme `forall a, e. fn(a) ->{7 | e} a` with row variable 5. -/
def demoScheme : PolyTy := ⟨1, [5], tFunc [tBound 0] (tBound 0) ⟨[.mk 7 []], some 5⟩⟩

-- A history: an equation with row variables 2 and 3, an instance, and another variable.
example : ∃ st, Hist [.sawCons [.req ⟨[.mk 1 []], some 2⟩ ⟨[.mk 4 []], some 3⟩],
      .sawType demoScheme.body, .gaveTy (.solver 6), .gaveRow 7, .gaveRow 8] st := by
  have hc : ∀ c ∈ [Con.req ⟨[.mk 1 []], some 2⟩ ⟨[.mk 4 []], some 3⟩], ∀ k,
      inCon (.solver k) c → Ev.gaveTy (.solver k) ∈ ([] : List Ev) := by
    intro c hc k hk
    simp only [List.mem_singleton] at hc
    subst hc
    simp [inCon, tyVarsE, tyVarsEff, tyVarsL] at hk
  have h1 := Hist.solve (n := 9) Hist.init hc
    (bs := [true]) (st' := ((Solver.solve 9 [.req ⟨[.mk 1 []], some 2⟩ ⟨[.mk 4 []], some 3⟩] St.init).getD ([], St.init)).2)
    (by decide +kernel)
  have h2 := Hist.inst (s := demoScheme) h1
    (by intro k hk; simp [demoScheme, tyVars, tyVarsL, tyVarsE, tyVarsEff, tFunc, tBound] at hk)
    (i := ((instantiate demoScheme ((Solver.solve 9 [.req ⟨[.mk 1 []], some 2⟩ ⟨[.mk 4 []], some 3⟩] St.init).getD ([], St.init)).2).getD (⟨tInt, [], []⟩, St.init)).1)
    (st' := ((instantiate demoScheme ((Solver.solve 9 [.req ⟨[.mk 1 []], some 2⟩ ⟨[.mk 4 []], some 3⟩] St.init).getD ([], St.init)).2).getD (⟨tInt, [], []⟩, St.init)).2)
    (by rfl)
  exact ⟨_, Hist.freshRow h2⟩

/-- C28 is false of the code when the constraints mention a variable another solver made: only row
variables of the constraints are reserved, so the solver hands out the same type variable. -/
theorem C28_foreign_variable_violated :
    ∃ (c : Con) (bs : List Bool) (st : St), Solver.solve 9 [c] St.init = some (bs, st) ∧
      inCon (freshTy st).1 c :=
  ⟨.teq (.uni (.solver 0)) tInt, _, _, rfl, Or.inl (by decide +kernel)⟩

/-! ## C50 -/

/-- C50: while a function body is checked, a new type variable differs from the type variables
drawn before, from those in the constraints collected and from those in the types of the visible
local bindings; and so do the variables drawn for an instance. -/
theorem C50_types_fresh {c : Ctx} {dt : List UVar} {dr : List Nat}
    (h : CtxHist (fun _ _ => True) c dt dr) {s : PolyTy} {i : Inst} {c' : Ctx}
    (hi : c.instantiate s = some (i, c')) {v : UVar} (hv : v = c.freshTy.1 ∨ v ∈ i.tys) :
    v ∉ dt ∧ (∀ k ∈ c.cons, ¬ inCon v k) ∧ (∀ s ∈ c.schemes, v ∉ tyVars s.body) ∧ i.tys.Nodup := by
  have inv := ctxHist_types h
  obtain ⟨_, _, _, _, e5, _, _⟩ := inst_ctx hi
  have hk : ¬ Drawn c.nextTy v := by
    rcases hv with rfl | hv
    · exact Nat.lt_irrefl _
    · rw [e5] at hv
      obtain ⟨j, hj, rfl⟩ := List.mem_map.mp hv
      simp only [List.mem_range'_1] at hj
      exact fun (hx : j < c.nextTy) => by omega
  refine ⟨fun hx => hk (inv.drawn v hx), fun k hm hx => hk (inv.cons k hm v hx),
    fun s hs hx => hk (inv.schemes s hs v hx), ?_⟩
  rw [e5]
  exact (List.nodup_range' (step := 1)).map (fun a b hab => by cases hab; rfl)

/-- C50, for row variables.

Partial: solving the constraints for a `let` binding must not have invented row variables beyond
the function's counter (`Tame`); `C50_let_snapshot_violated` shows what happens otherwise. -/
theorem C50_rows_fresh_partial {c : Ctx} {dt : List UVar} {dr : List Nat} (h : CtxHist Tame c dt dr)
    {s : PolyTy} {i : Inst} {c' : Ctx} (hi : c.instantiate s = some (i, c')) {v : Nat}
    (hv : v = c.freshRow.1 ∨ v ∈ i.rows) :
    v ∉ dr ∧ (∀ k ∈ c.cons, v ∉ Con.rowVars k) ∧ (∀ s ∈ c.schemes, v ∉ Ty.rowVars s.body) ∧
      i.rows.Nodup := by
  have inv := ctxHist_rows h
  obtain ⟨_, _, _, _, _, e6, e7⟩ := inst_ctx hi
  have hk : ¬ v < c.nextRow := by
    rcases hv with rfl | hv
    · exact Nat.lt_irrefl _
    · have := (e6 v hv).1; omega
  exact ⟨fun hx => hk (inv.drawn v hx), fun k hm hx => hk (inv.cons k hm v hx),
    fun s hs hx => hk (inv.schemes s hs v hx), e7⟩

/-- `fn() ->{a | v} Int`. -/
def thunk (a v : Nat) : Ty := tFunc [] tInt ⟨[.mk a []], some v⟩

theorem known_rows {c : Ctx} {dt : List UVar} {dr : List Nat} {vs : UVar → Prop} {rs : Nat → Prop}
    (h1 : ∀ v, ¬ vs v) (h2 : ∀ v, rs v → v ∈ dr) : Known c dt dr vs rs :=
  ⟨fun v hv => (h1 v hv).elim, fun v hv => Or.inl (h2 v hv)⟩

/-- The checker after it has drawn the row variables 1 and 2, has seen
`fn() ->{7 | 1} Int = fn() ->{8 | 2} Int` and has bound a name of the first type. -/
def snapCtx : Ctx :=
  ⟨0, 3, [.teq (thunk 7 1) (thunk 8 2)], [⟨0, [], thunk 7 1⟩]⟩

theorem snapCtx_reached (ok : Nat → Ctx → Prop) : CtxHist ok snapCtx [] [2, 1] := by
  have h2 := CtxHist.freshRow (CtxHist.freshRow (CtxHist.new (ok := ok)))
  have h3 := CtxHist.constrain (.teq (thunk 7 1) (thunk 8 2)) h2
    (known_rows (by intro v; simp [inCon, thunk, tFunc, tInt, tyVars, tyVarsL, tyVarsE, tyVarsEff])
      (by intro v
          simp [Con.rowVars, thunk, tFunc, tInt, Ty.rowVars, Ty.rowVarsL, Eff.rowVars, Eff.rowVarsL,
            Ctx.freshRow, Ctx.new]
          omega))
  exact CtxHist.bind (thunk 7 1) h3
    (known_rows (by intro v; simp [thunk, tFunc, tInt, tyVars, tyVarsL, tyVarsE, tyVarsEff])
      (by intro v
          simp [thunk, tFunc, tInt, Ty.rowVars, Ty.rowVarsL, Eff.rowVars, Eff.rowVarsL,
            Ctx.freshRow, Ctx.new]
          omega))

-- The hypotheses of both theorems are met by a non-trivial context.
example : CtxHist Tame snapCtx [] [2, 1] ∧
    snapCtx.instantiate ⟨2, [9], tFunc [tBound 1] (tBound 0) ⟨[], some 9⟩⟩ ≠ none ∧
    ((snapCtx.instantiate ⟨2, [9], tFunc [tBound 1] (tBound 0) ⟨[], some 9⟩⟩).map (fun p => p.1.rows)) = some [3] :=
  ⟨snapCtx_reached _, by decide +kernel, by decide +kernel⟩

/-- C50 is false of the code: the constraints collected so far are solved in a solver of their own
for each `let`, and the row variable it invents to relate the two tails is free in the type of the
binding; the next row variable drawn is that same variable. -/
theorem C50_let_snapshot_violated :
    ∃ c', snapCtx.letBind 9 (thunk 8 2) ⟨[], none⟩ = some c' ∧
      CtxHist (fun _ _ => True) c' [] [2, 1] ∧ c'.visibleRow c'.freshRow.1 := by
  refine ⟨{ snapCtx with schemes :=
    ⟨0, [], tFunc [] tInt ⟨[.mk 8 [], .mk 7 []], some 3⟩⟩ :: snapCtx.schemes }, by rfl, ?_, ?_⟩
  · refine CtxHist.letBind (n := 9) (t := thunk 8 2) (e := ⟨[], none⟩)
      (snapCtx_reached (fun _ _ => True)) trivial ?_ (by rfl)
    exact known_rows (by intro v; simp [thunk, tFunc, tInt, tyVars, tyVarsL, tyVarsE, tyVarsEff])
      (by intro v
          simp [thunk, tFunc, tInt, Ty.rowVars, Ty.rowVarsL, Eff.rowVars, Eff.rowVarsL]
          omega)
  · exact ⟨_, List.mem_cons_self, by decide +kernel, by decide +kernel⟩

/-! ## C51 -/

/-- C51: a `let`-bound name gets the solved type of its value.  If evaluating the value may have an
effect, the type is not generalised.  Otherwise the quantified variables are exactly those of the
solved type that are not free in the type of a visible binding; every use gets a copy of the type
with these, and only these, renamed. -/
theorem C51_let {c c' : Ctx} {n : Nat} {value ty : Ty} {effect : Row} {bs : List Bool} {st : St}
    (h : c.letBind n value effect = some c') (hs : solve n c.cons St.init = some (bs, st))
    (hok : false ∉ bs) (hρ : RowsResolved st.ρ) (ht : apply st.σ st.ρ n value = some ty)
    (hb : NoBound ty) :
    ∃ s vs, c' = { c with schemes := s :: c.schemes } ∧
      (∀ k, ∃ i k', Ctx.instantiate s k = some (i, k') ∧ RenamedCopy ty vs s.rows i) ∧
      (¬ (rowApply st.ρ effect).isPure → vs = [] ∧ s.rows = []) ∧
      ((rowApply st.ρ effect).isPure →
        (∀ v, v ∈ vs ↔ v ∈ tyVars ty ∧ ¬ InEnvTy st n c v) ∧
        (∀ v, v ∈ s.rows ↔ v ∈ Ty.rowVars ty ∧ ¬ InEnvRow st n c v)) := by
  rw [Ctx.letBind, hs] at h
  simp only [hok, if_false, ht] at h
  by_cases hp : (rowApply st.ρ effect).isPure = true
  · simp only [hp, if_true] at h
    split at h
    · rename_i tvs rvs he1 he2
      rw [generalizeExcluding_eq (apply_idem hρ n ht)] at h
      simp only [Option.some.injEq] at h
      refine ⟨_, (firsts (tyVars ty)).filter (fun v => ¬ v ∈ tvs), h.symm, ?_, fun hn => (hn hp).elim,
        fun _ => ⟨fun v => ?_, fun v => ?_⟩⟩
      · exact ctx_instantiate_copy ((firsts_nodup _).filter _) ty hb _
      · have := envVars_mem hρ he1 v
        simp only [List.not_mem_nil, false_or] at this
        simp only [List.mem_filter, mem_firsts, decide_eq_true_eq, this, InEnvTy]
      · have := envRows_mem he2 v
        simp only [List.not_mem_nil, false_or] at this
        simp only [List.mem_filter, decide_eq_true_eq, this, InEnvRow, rowVars_bodyOf]
    · simp at h
  · simp only [hp, if_false, Bool.false_eq_true] at h
    simp only [Option.some.injEq] at h
    refine ⟨_, [], h.symm, ?_, fun _ => ⟨rfl, rfl⟩, fun hx => (hp hx).elim⟩
    intro k
    have := ctx_instantiate_copy (vs := []) List.nodup_nil ty hb [] k
    rwa [bodyOf_nil] at this

/-- The hypothesis about row variables holds whenever the abilities in the constraints take no type
arguments and are listed once in a row. -/
theorem C51_rows_resolved {cs : List Con} {n : Nat} {bs : List Bool} {st : St}
    (hc : ∀ c ∈ cs, c.Simple) (hs : solve n cs St.init = some (bs, st)) : RowsResolved st.ρ := by
  have hi := reserved_inv (reach_inv (Reach.init (P := Con.Simple))) (cs.flatMap Con.rowVars)
  have hb := conBelow_reserved St.init.next hc
  obtain ⟨i1, _⟩ := solveLoop_inv hi hb hs
  exact fun row v hv => rowApply_unbound i1.triR row hv

/-- A context with one visible name of type `List(a)`, and `b` equated to `(a, c)`. -/
def letCtx : Ctx :=
  ⟨3, 2, [.teq (.uni (.src 1)) (tTuple [.uni (.src 0), .uni (.src 2)])], [⟨0, [], tNamed 3 [.uni (.src 0)]⟩]⟩

-- `let x = value` with `value : fn(b) ->{e} c`: `c` and `e` are quantified, `a` is not.
example : (letCtx.letBind 9 (tFunc [.uni (.src 1)] (.uni (.src 2)) ⟨[], some 1⟩) ⟨[], none⟩).map
      (fun c => c.schemes.head?) =
    some (some ⟨1, [1], tFunc [tTuple [.uni (.src 0), tBound 0]] (tBound 0) ⟨[], some 1⟩⟩) ∧
    (letCtx.letBind 9 (tFunc [.uni (.src 1)] (.uni (.src 2)) ⟨[], some 1⟩) ⟨[], some 1⟩).map
      (fun c => c.schemes.head?) =
    some (some ⟨0, [], tFunc [tTuple [.uni (.src 0), .uni (.src 2)]] (.uni (.src 2)) ⟨[], some 1⟩⟩) := by
  decide +kernel

example : ∀ c ∈ letCtx.cons, c.Simple := by
  intro c hc
  simp only [letCtx, List.mem_singleton] at hc
  subst hc
  exact ⟨0, by simp [Simple, SimpleL, tTuple]⟩

end Verif.Scheme
